import Verif.Sym.Lemmas

/-
C25 (interning), C55 (extensions) and C56 (which function a symbol runs).
-/

namespace Verif.Sym

/-- C25, injectivity: two names have the same id exactly when they are the same name or documented aliases of each other. -/
theorem C25_injective {extMax : Nat} (hm : extMax ≤ 0x10000) {t : Tab} (h : Reach extMax t) {a b : Name} (ha : CStr a) (hb : CStr b)
    {i : Nat} (h1 : getByName t a = some i) (h2 : getByName t b = some i) : SameSymbol a b :=
  (h.inv hm).inj (getByName_some (h.inv hm) ha h1) (getByName_some (h.inv hm) hb h2)

/-- C25: aliases do have the same id, in every state. -/
theorem C25_alias_same (t : Tab) {a b : Name} (h : SameSymbol a b) : getByName t a = getByName t b := by
  rcases h with rfl | ⟨p, hp, h⟩
  · rfl
  · have hall : (aliases.all fun p => listFind (str p.1) specialTable == listFind (str p.2) specialTable &&
        (listFind (str p.1) specialTable).isSome) = true := by decide +kernel
    have := List.all_eq_true.1 hall p hp
    simp only [Bool.and_eq_true, beq_iff_eq] at this
    obtain ⟨e, hs⟩ := this
    obtain ⟨i, hi⟩ := Option.isSome_iff_exists.1 hs
    have h1 : getByName t (str p.1) = some i := by unfold getByName; rw [hi]
    have h2 : getByName t (str p.2) = some i := by unfold getByName; rw [← e, hi]
    rcases h with ⟨rfl, rfl⟩ | ⟨rfl, rfl⟩
    · rw [h1, h2]
    · rw [h1, h2]

/-- C25, stability: whatever is interned, read or registered later, a name keeps its id. -/
theorem C25_id_stable {extMax : Nat} (hm : extMax ≤ 0x10000) {t u : Tab} (h : Reach extMax t) (hs : Steps t u) {a : Name} (ha : CStr a)
    {i : Nat} (h1 : getByName t a = some i) : getByName u a = some i := by
  have := hs.spec (h.inv hm)
  exact (getByName_iff this.1 ha).2 (this.2.has a i (getByName_some (h.inv hm) ha h1))

/-- C25, stability: whatever is interned, read or registered later, an id keeps its name. -/
theorem C25_name_stable {extMax : Nat} (hm : extMax ≤ 0x10000) {t u : Tab} (h : Reach extMax t) (hs : Steps t u) {a : Name}
    {i : Nat} (h1 : getName t i = some a) : getName u i = some a :=
  (hs.spec (h.inv hm)).2.name i a h1

/-- C25: the name of the id of a name is that name, or the documented alias that stands first in the table. -/
theorem C25_name_of_id {extMax : Nat} (hm : extMax ≤ 0x10000) {t : Tab} (h : Reach extMax t) {a : Name} (ha : CStr a)
    {i : Nat} (h1 : getByName t a = some i) : ∃ b, getName t i = some b ∧ SameSymbol a b := by
  have hi := h.inv hm
  have hh := getByName_some hi ha h1
  rcases hh with h2 | ⟨k, f, hk, rfl⟩ | h2
  · have hr := special_range h2
    have hkind : i >>> 16 = 0 ∨ i >>> 16 = 2 ∨ i >>> 16 = 3 := by rw [Nat.shiftRight_eq_div_pow]; omega
    unfold getName
    rw [if_pos hkind]
    cases e : idFind i specialTable with
    | none => exact absurd h2 (idFind_none e a)
    | some b => exact ⟨b, rfl, special_inj h2 (idFind_some e)⟩
  · have hr := ext_range hi hk
    have he : extStart = 0x10000 := rfl
    have hkind : (extStart + k) >>> 16 = 1 := by rw [Nat.shiftRight_eq_div_pow]; omega
    unfold getName
    rw [if_neg (by omega), if_pos hkind, Nat.add_sub_cancel_left, hk]
    exact ⟨a, rfl, Or.inl rfl⟩
  · have hr := hi.symRange a i h2
    have he : runtimeStart = 0x40000 := rfl
    have hkind : 4 ≤ i >>> 16 := by rw [Nat.shiftRight_eq_div_pow]; omega
    unfold getName
    rw [if_neg (by omega), if_neg (by omega)]
    cases e : idFind i t.syms with
    | none => exact absurd h2 (idFind_none e a)
    | some b => exact ⟨b, rfl, Or.inl (hi.symInj a b i h2 (idFind_some e))⟩

/-- C25: an id that has a name is the id of that name. -/
theorem C25_id_of_name {extMax : Nat} (hm : extMax ≤ 0x10000) {t : Tab} (h : Reach extMax t) {i : Nat} {a : Name}
    (h1 : getName t i = some a) : getByName t a = some i := by
  have hi := h.inv hm
  have hh : Has t a i := by
    unfold getName at h1
    dsimp only at h1
    split at h1
    · exact Or.inl (idFind_some h1)
    · split at h1
      · next hk =>
        split at h1
        · next s hs =>
          obtain ⟨nm, f⟩ := s
          dsimp only at h1
          subst h1
          have : extStart = 0x10000 := rfl
          rw [Nat.shiftRight_eq_div_pow] at hk
          exact Or.inr (Or.inl ⟨_, f, hs, by omega⟩)
        · cases h1
      · exact Or.inr (Or.inr (idFind_some h1))
  exact (getByName_iff hi (hi.cstr a i hh)).2 hh

/-- C25: interning a name of 1 to 256 characters succeeds if memory can be allocated; the name then has the returned
id; a name that was not known gets an id that nothing had before. -/
theorem C25_intern {extMax : Nat} (hm : extMax ≤ 0x10000) {t : Tab} (h : Reach extMax t) {a : Name} (ha : CStr a)
    (hl : 1 ≤ a.length ∧ a.length ≤ 256) :
    ∃ i, (addSymbol t a true).2 = some i ∧ getByName (addSymbol t a true).1 a = some i ∧
      (getByName t a = none → getName t i = none ∧ ∀ b, CStr b → getByName t b ≠ some i) := by
  have hi := h.inv hm
  have hsp := (Step.add t a true ha).spec hi
  unfold addSymbol at hsp ⊢
  cases e : getByName t a with
  | some i => exact ⟨i, rfl, e, fun h => by cases h⟩
  | none =>
    rw [e] at hsp
    dsimp only at hsp ⊢
    have hadd : addBaseRam t a true = ({ t with syms := (a, t.next) :: t.syms, next := t.next + 1 }, some t.next) := by
      unfold addBaseRam; rw [if_pos ⟨by omega, by omega, rfl⟩]
    rw [hadd] at hsp ⊢
    refine ⟨t.next, rfl, ?_, fun _ => ⟨?_, ?_⟩⟩
    · rw [getByName_iff hsp.1 ha]; exact has_cons.2 (Or.inr ⟨rfl, rfl⟩)
    · cases hg : getName t t.next with
      | none => rfl
      | some b =>
        have := C25_id_of_name hm h hg
        have := Has.lt_next hi (getByName_some hi (by
          refine hi.cstr b t.next ?_
          have hr := hi.next
          have he : runtimeStart = 0x40000 := rfl
          unfold getName at hg
          rw [Nat.shiftRight_eq_div_pow, if_neg (by omega), if_neg (by omega)] at hg
          exact Or.inr (Or.inr (idFind_some hg))) this)
        omega
    · intro b hb hbn
      have := Has.lt_next hi (getByName_some hi hb hbn)
      omega

/-- C25: interning, with any outcome, does not change what any other name means. -/
theorem C25_intern_other {extMax : Nat} (hm : extMax ≤ 0x10000) {t : Tab} (h : Reach extMax t) {a b : Name} (ha : CStr a) (hb : CStr b)
    (hne : a ≠ b) (mem : Bool) : getByName (addSymbol t a mem).1 b = getByName t b := by
  have hi := h.inv hm
  have hsp := (Step.add t a mem ha).spec hi
  cases e : getByName t b with
  | some i => exact (getByName_iff hsp.1 hb).2 (hsp.2.has b i (getByName_some hi hb e))
  | none =>
    cases e' : getByName (addSymbol t a mem).1 b with
    | none => rfl
    | some j =>
      have hh := getByName_some hsp.1 hb e'
      unfold addSymbol at hh
      split at hh
      · rcases addBaseRam_added t a mem with ea | ea
        · rw [ea] at hh; exact absurd hh (getByName_none hi hb e j)
        · rw [ea] at hh
          rcases has_cons.1 hh with hh | ⟨rfl, _⟩
          · exact absurd hh (getByName_none hi hb e j)
          · exact absurd rfl hne
      · exact absurd hh (getByName_none hi hb e j)

/-- C25: empty names and names of more than 256 characters are refused and change nothing. -/
theorem C25_refused {t : Tab} {a : Name} (hl : a.length = 0 ∨ 256 < a.length) (hn : getByName t a = none) (mem : Bool) :
    addSymbol t a mem = (t, none) := by
  unfold addSymbol addBaseRam
  rw [hn]
  dsimp only
  rw [if_neg (by omega)]

/-- The id that reading gives is that of the name. -/
theorem read_id {t : Tab} (hi : Inv t) {a : Name} (ha : CStr a) {fl m1 m2 : Bool} {i : Nat}
    (hr : (readSymbol t a fl m1 m2).2 = some i) : getByName (readSymbol t a fl m1 m2).1 a = some i := by
  have hsp := readSymbol_spec hi ha fl m1 m2
  rw [getByName_iff hsp.1 ha]
  unfold readSymbol at hr ⊢
  have added : ∀ {r : Tab × Option Nat}, Added t a r → r.2 = some i → Has r.1 a i := by
    rintro r (rfl | rfl) e
    · cases e
    · cases e; exact has_cons.2 (Or.inr ⟨rfl, rfl⟩)
  split at hr
  · next j e => cases hr; exact getByName_some hi ha e
  · next e =>
    split at hr
    · next hx =>
      rw [if_pos hx]
      split at hr
      · next hmm =>
        rw [if_pos hmm]
        have hinv := (addExtension_spec hi ha 0).1
        dsimp only at hr ⊢
        split at hr
        · cases hr
        · next j hj =>
          split at hr
          · next hok =>
            rw [if_pos hok]
            cases hr
            obtain ⟨k, ⟨nm, f⟩, h1, h2, h3⟩ := extFind_some ha hinv.ext_cstr hj
            dsimp only at h2
            subst h2
            exact Or.inr (Or.inl ⟨k, f, h1, by omega⟩)
          · cases hr
      · cases hr
    · next hx =>
      rw [if_neg hx]
      split at hr
      · next hf => rw [if_pos hf]; exact added (addBaseFlash_added ..) hr
      · next hf =>
        rw [if_neg hf]
        dsimp only at hr ⊢
        rcases addBaseRam_added t a m1 with e1 | e1
        · rw [e1] at hr ⊢; exact added (addBaseRam_added ..) hr
        · rw [e1] at hr ⊢; cases hr; exact has_cons.2 (Or.inr ⟨rfl, rfl⟩)

/-- C25: reading a symbol gives the id that the name has afterwards, so that all occurrences of a name in programs are the same
symbol. -/
theorem C25_read {extMax : Nat} (hm : extMax ≤ 0x10000) {t : Tab} (h : Reach extMax t) {a : Name} (ha : CStr a) {fl m1 m2 : Bool} {i : Nat}
    (hr : (readSymbol t a fl m1 m2).2 = some i) : getByName (readSymbol t a fl m1 m2).1 a = some i :=
  read_id (h.inv hm) ha hr

/-! ### Extensions -/

/-- The function that the name `a` runs when it is an extension. -/
def extFun (t : Tab) (a : Name) : Option Nat := (getByName t a).bind (getExtension t)

theorem getExtension_ext {t : Tab} {k : Nat} : getExtension t (extStart + k) = (t.exts[k]?).map (·.fptr) := by
  unfold getExtension
  rw [if_neg (by omega), Nat.add_sub_cancel_left]

theorem getExtension_range {t : Tab} {i : Nat} (h : (getExtension t i).isSome = true) : extStart ≤ i ∧ i - extStart < t.exts.length := by
  unfold getExtension at h
  split at h
  · cases h
  · refine ⟨by omega, ?_⟩
    cases hx : t.exts[i - extStart]? with
    | none => rw [hx] at h; cases h
    | some s => exact (List.getElem?_eq_some_iff.1 hx).1

/-- C55: registering an extension that reports success makes the name run the given function; a second registration of the same
name replaces the function. It succeeds if the name is an extension, or is unknown and there is room. -/
theorem C55_register {extMax : Nat} (hm : extMax ≤ 0x10000) {t : Tab} (h : Reach extMax t) {a : Name} (ha : CStr a) {f : Nat}
    (hr : (addExtension t a f).2 = true) : extFun (addExtension t a f).1 a = some f := by
  have hi := h.inv hm
  have hsp := addExtension_spec hi ha f
  have he : extStart = 0x10000 := rfl
  unfold extFun
  unfold addExtension at hr hsp ⊢
  cases e : getByName t a with
  | some id =>
    rw [e] at hr hsp
    dsimp only at hr hsp ⊢
    split at hr
    · next hsome =>
      rw [if_pos hsome] at hsp ⊢
      split at hr
      · next s hs =>
        rw [hs] at hsp
        dsimp only at hsp
        split at hr
        · next nm hnm =>
          rw [hnm] at hsp ⊢
          dsimp only at hsp ⊢
          split at hr
          · next hq =>
            rw [if_pos hq] at hsp ⊢
            have hkl := (List.getElem?_eq_some_iff.1 hs).1
            -- the id is in the extension range
            have hid : id = extStart + id % 0x10000 := by
              have := getExtension_range hsome
              have := hi.len
              omega
            have hg := (getByName_iff hsp.1 ha).2 (hsp.2.has a id (getByName_some hi ha e))
            dsimp only at hg ⊢
            rw [hg, Option.bind_some, hid, getExtension_ext]
            dsimp only
            rw [← hid]
            simp [hkl]
          · cases hr
        · cases hr
      · cases hr
    · cases hr
  | none =>
    rw [e] at hr hsp
    dsimp only at hr hsp ⊢
    split at hr
    · next hlt =>
      rw [if_pos hlt] at hsp ⊢
      have hh := (newExt_spec hi ha (fun i => getByName_none hi ha e i) f hlt).2.2
      rw [(getByName_iff hsp.1 ha).2 hh, Option.bind_some, getExtension_ext]
      dsimp only
      simp [hlt]
    · cases hr

/-- C55: the registration succeeds exactly when the name already is an extension, or is not known at all and the table has room. -/
theorem C55_register_succeeds {extMax : Nat} (hm : extMax ≤ 0x10000) {t : Tab} (h : Reach extMax t) {a : Name} (ha : CStr a) (f : Nat) :
    (addExtension t a f).2 = true ↔ (extFun t a).isSome = true ∨ (getByName t a = none ∧ t.nextExt < extMax) := by
  have hi := h.inv hm
  rw [← h.len hm]
  unfold addExtension extFun
  cases e : getByName t a with
  | none => simp only [Option.bind_none]; split <;> simp_all
  | some id =>
    dsimp only
    rw [Option.bind_some]
    split
    · next hsome =>
      refine ⟨fun _ => Or.inl hsome, fun _ => ?_⟩
      rcases getByName_some hi ha e with h2 | ⟨k, g, hk, rfl⟩ | h2
      · have := special_range h2
        have he : extStart = 0x10000 := rfl
        have := getExtension_range hsome
        have := hi.len
        omega
      · have := ext_range hi hk
        have e1 : (extStart + k) % 0x10000 = k := by show (0x10000 + k) % 0x10000 = k; omega
        rw [e1, hk]
        dsimp only
        rw [if_pos ((strEq_iff ha ha).2 rfl)]
      · have := hi.symRange _ _ h2
        have he : extStart = 0x10000 := rfl
        have he' : runtimeStart = 0x40000 := rfl
        have := getExtension_range hsome
        have := hi.len
        omega
    · next hsome =>
      simp only [Bool.not_eq_true] at hsome
      simp [hsome]

/-- C55: registering one extension does not change the function of another. -/
theorem C55_register_other {extMax : Nat} (hm : extMax ≤ 0x10000) {t : Tab} (h : Reach extMax t) {a b : Name} (ha : CStr a) (hb : CStr b)
    (hne : a ≠ b) (f : Nat) {g : Nat} (hg : extFun t b = some g) : extFun (addExtension t a f).1 b = some g := by
  have hi := h.inv hm
  have hsp := addExtension_spec hi ha f
  have he : extStart = 0x10000 := rfl
  have he' : runtimeStart = 0x40000 := rfl
  unfold extFun at hg ⊢
  cases e : getByName t b with
  | none => rw [e] at hg; cases hg
  | some id =>
    rw [e, Option.bind_some] at hg
    rw [(getByName_iff hsp.1 hb).2 (hsp.2.has b id (getByName_some hi hb e)), Option.bind_some]
    -- `b` is in slot `k`
    obtain ⟨k, g', hk, rfl⟩ : ∃ k g', t.exts[k]? = some ⟨some b, g'⟩ ∧ id = extStart + k := by
      have hlt := getExtension_range (t := t) (i := id) (by rw [hg]; rfl)
      have := hi.len
      rcases getByName_some hi hb e with h2 | h2 | h2
      · have := special_range h2; omega
      · exact h2
      · have := hi.symRange _ _ h2; omega
    rw [getExtension_ext] at hg ⊢
    rw [hk] at hg
    cases hg
    have same : ∀ {j : Nat} {x : Slot}, j ≠ k → (t.exts.set j x)[k]? = some ⟨some b, g'⟩ := by
      intro j x hj; rw [List.getElem?_set, if_neg hj, hk]
    have base : t.exts[k]?.map (·.fptr) = some g' := by rw [hk]; rfl
    unfold addExtension
    split
    · next id' hid' =>
      split
      · dsimp only
        split
        · next s hs =>
          split
          · next nm hnm =>
            split
            · next hq =>
              have hj : id' % 0x10000 ≠ k := by
                intro ej
                rw [ej, hk] at hs
                cases hs
                cases hnm
                have hb2 : CStr b := hb
                exact hne ((strEq_iff hb2 ha).1 hq).symm
              dsimp only
              rw [same hj]; rfl
            · exact base
          · exact base
        · exact base
      · exact base
    · split
      · next hlt =>
        dsimp only
        rw [same]
        · rfl
        · rintro rfl; cases hi.free _ (Nat.le_refl _) _ hk
      · exact base

/-- C55: an id never gets a second meaning, even when extensions are cleared in between: a name that has an id later is the name
that had it before. -/
theorem C55_id_not_reused {extMax : Nat} (hm : extMax ≤ 0x10000) {t u : Tab} (h : Reach extMax t) (hs : StepsC t u) {a b : Name}
    (ha : CStr a) (hb : CStr b) {i : Nat} (h1 : getByName t a = some i) (h2 : getByName u b = some i) : SameSymbol a b := by
  have hi := h.inv hm
  obtain ⟨hu, hk⟩ := hs.spec hi
  have h1 := getByName_some hi ha h1
  have h2 := getByName_some hu hb h2
  have hr : runtimeStart = 0x40000 := rfl
  have he : extStart = 0x10000 := rfl
  obtain ⟨l, hl⟩ := hk.suffix
  rcases h1 with h1 | ⟨k, f, hk1, e1⟩ | h1 <;> rcases h2 with h2 | ⟨k', f', hk2, e2⟩ | h2
  · exact special_inj h1 h2
  · have := special_range h1; have := ext_range hu hk2; omega
  · have := special_range h1; have := hu.symRange _ _ h2; omega
  · have := special_range h2; have := ext_range hi hk1; omega
  · have : k = k' := by omega
    subst this
    have hlt : k < t.nextExt := Decidable.byContradiction fun hn => by cases hi.free k (by omega) _ hk1
    obtain ⟨s', hs', e⟩ := hk.ext k _ hk1 hlt
    rw [hk2] at hs'
    cases hs'
    rcases e with e | e
    · cases e
    · cases e; exact Or.inl rfl
  · have := ext_range hi hk1; have := hu.symRange _ _ h2; omega
  · have := special_range h2; have := hi.symRange _ _ h1; omega
  · have := ext_range hu hk2; have := hi.symRange _ _ h1; omega
  · exact Or.inl (hu.symInj a b i (by rw [hl]; exact List.mem_append.2 (Or.inr h1)) h2)

/-- C55: clearing an extension by its id makes its name unknown and its id run the default function. -/
theorem C55_clear {extMax : Nat} (hm : extMax ≤ 0x10000) {t : Tab} (h : Reach extMax t) {a : Name} (ha : CStr a) {i : Nat}
    (h1 : getByName t a = some i) (h2 : (getExtension t i).isSome = true) :
    getByName (clrExtension t i).1 a = none ∧ getExtension (clrExtension t i).1 i = some 0 := by
  have hi := h.inv hm
  have hsp := clr_spec hi i
  have he : extStart = 0x10000 := rfl
  have hr : runtimeStart = 0x40000 := rfl
  have hlt := getExtension_range h2
  have := hi.len
  obtain ⟨k, f, hk, rfl⟩ : ∃ k f, t.exts[k]? = some ⟨some a, f⟩ ∧ i = extStart + k := by
    rcases getByName_some hi ha h1 with h2 | h2 | h2
    · have := special_range h2; omega
    · exact h2
    · have := hi.symRange _ _ h2; omega
  have hkl := (List.getElem?_eq_some_iff.1 hk).1
  have e1 : (extStart + k) % 0x10000 = k := by omega
  have ec : (clrExtension t (extStart + k)).1 = { t with exts := t.exts.set k ⟨none, 0⟩ } := by
    unfold clrExtension; dsimp only; rw [e1, if_pos hkl]
  refine ⟨?_, ?_⟩
  · cases e : getByName (clrExtension t (extStart + k)).1 a with
    | none => rfl
    | some j =>
      have hh := getByName_some hsp.1 ha e
      rw [ec] at hh
      have hh' : Has t a j := by
        rcases hh with h3 | ⟨m, g, hm', ej⟩ | h3
        · exact Or.inl h3
        · rcases clr_get hm' with e' | hm''
          · cases e'
          · exact Or.inr (Or.inl ⟨m, g, hm'', ej⟩)
        · exact Or.inr (Or.inr h3)
      have hj : j = extStart + k := hi.fn a j (extStart + k) hh' (getByName_some hi ha h1)
      subst hj
      rcases hh with h3 | ⟨m, g, hm', ej⟩ | h3
      · have := special_range h3; omega
      · have : m = k := by omega
        subst this
        dsimp only at hm'
        rw [List.getElem?_set, if_pos rfl, if_pos hkl] at hm'
        cases hm'
      · have := hi.symRange _ _ h3; omega
  · rw [ec, getExtension_ext]
    simp [hkl]

/-! ### Application of symbols -/

theorem dispatch_not_ext {t u : Tab} {i : Nat} (h : ¬ i >>> 16 = 1) : dispatch t i = dispatch u i := by
  unfold dispatch
  dsimp only
  rw [if_neg h, if_neg h]

/-- C56: the built-in names run the functions they stand for, in every state of the tables. -/
theorem C56_builtin (t : Tab) {e : String × Call} (h : e ∈ builtinFunctions) :
    ∃ i, getByName t (str e.1) = some i ∧ dispatch t i = e.2 := by
  have hall : (builtinFunctions.all fun e =>
      match listFind (str e.1) specialTable with
      | some i => (i >>> 16 == 2 || i >>> 16 == 3) && dispatch (init0 0) i == e.2
      | none => false) = true := by decide +kernel
  have := List.all_eq_true.1 hall e h
  split at this
  · next i hi =>
    simp only [Bool.and_eq_true, Bool.or_eq_true, beq_iff_eq] at this
    refine ⟨i, by unfold getByName; rw [hi], ?_⟩
    rw [← this.2]
    exact dispatch_not_ext (by omega)
  · cases this

/-- C56: a symbol that has a name never runs a function pointer from outside the tables. -/
theorem C56_named_inside {extMax : Nat} (hm : extMax ≤ 0x10000) {t : Tab} (h : Reach extMax t) {a : Name} (ha : CStr a) {i : Nat}
    (h1 : getByName t a = some i) : dispatch t i ≠ .outside := by
  have hi := h.inv hm
  have he : extStart = 0x10000 := rfl
  have hr : runtimeStart = 0x40000 := rfl
  rcases getByName_some hi ha h1 with h2 | ⟨k, f, hk, rfl⟩ | h2
  · have hall : (specialTable.all fun e => dispatch (init0 0) e.2 != .outside) = true := by decide +kernel
    have := List.all_eq_true.1 hall _ h2
    have hr := special_range h2
    have e : dispatch t i = dispatch (init0 0) i := dispatch_not_ext (by rw [Nat.shiftRight_eq_div_pow]; omega)
    rw [e]
    simpa using this
  · have := ext_range hi hk
    unfold dispatch
    dsimp only
    rw [Nat.shiftRight_eq_div_pow, if_pos (by omega), show (extStart + k) % 0x10000 = k by omega, hk]
    simp
  · have := hi.symRange _ _ h2
    unfold dispatch
    dsimp only
    rw [Nat.shiftRight_eq_div_pow, if_neg (by omega), if_neg (by omega), if_neg (by omega)]
    simp

/-- C56: a registered extension runs when its name is applied. -/
theorem C56_extension {extMax : Nat} (hm : extMax ≤ 0x10000) {t : Tab} (h : Reach extMax t) {a : Name} (ha : CStr a) {f : Nat}
    (hr : (addExtension t a f).2 = true) :
    ∃ i, getByName (addExtension t a f).1 a = some i ∧ dispatch (addExtension t a f).1 i = .extension f := by
  have h1 := C55_register hm h ha hr
  have hu := (addExtension_spec (h.inv hm) ha f)
  unfold extFun at h1
  cases e : getByName (addExtension t a f).1 a with
  | none => rw [e] at h1; cases h1
  | some i =>
    rw [e, Option.bind_some] at h1
    refine ⟨i, rfl, ?_⟩
    have he : extStart = 0x10000 := rfl
    unfold getExtension at h1
    split at h1
    · cases h1
    · cases hx : (addExtension t a f).1.exts[i - extStart]? with
      | none => rw [hx] at h1; cases h1
      | some s =>
        rw [hx] at h1
        have := (List.getElem?_eq_some_iff.1 hx).1
        have := hu.1.len
        unfold dispatch
        dsimp only
        rw [Nat.shiftRight_eq_div_pow, if_pos (by omega), show i % 0x10000 = i - extStart by omega, hx]
        cases h1
        rfl

/-- C56 fails for symbols made by `u2sym`: with fewer than 65536 extensions, applying `(u2sym 131071)` takes a function pointer
from outside the extension table, in every reachable state. -/
theorem C56_u2sym_violated {extMax : Nat} (hm : extMax < 0x10000) {t : Tab} (h : Reach extMax t) :
    dispatch t (u2sym 131071) = .outside ∧ dispatch t (u2sym 0x20042) = .outside := by
  have hl := h.len (by omega)
  refine ⟨?_, ?_⟩
  · have : t.exts[0xFFFF]? = none := by rw [List.getElem?_eq_none_iff, hl]; omega
    show (match t.exts[0xFFFF]? with | some s => Call.extension s.fptr | none => .outside) = .outside
    rw [this]
  · show (match fundamentalTable[0x42]? with | some f => Call.fundamental f | none => .outside) = .outside
    rfl

/-- C55 fails for `lbm_clr_extension` of a symbol that is not an extension: it clears an unrelated extension and reports success. -/
theorem C55_clear_wrong_violated : ∃ (t : Tab), Reach 4 t ∧ getByName t (str "y") = some 0x40001 ∧ extFun t (str "bar") = some 8 ∧
    (clrExtension t 0x40001).2 = true ∧ getByName (clrExtension t 0x40001).1 (str "bar") = none := by
  refine ⟨(addExtension (addExtension (init 4 true true) (str "foo") 7).1 (str "bar") 8).1, ⟨true, true, ?_⟩, ?_⟩
  · exact .step (.step (.refl _) (.ext _ (str "foo") 7 (by unfold CStr; decide))) (.ext _ (str "bar") 8 (by unfold CStr; decide))
  · decide +kernel

/-- The hypotheses of C25, C55 and C56 are met by a concrete history: names are read, an extension is registered. -/
example : ∃ t, Reach 4 t ∧ getByName t (str "counter") = some 0x40002 ∧ getName t 0x40002 = some (str "counter") ∧
    getByName t (str "ext-led") = some 0x10000 ∧ extFun t (str "ext-led") = some 9 ∧ (readSymbol t (str "ext-b") false true true).2 = some 0x10001 := by
  refine ⟨(addExtension (readSymbol (readSymbol (init 4 true true) (str "counter") false false true).1 (str "ext-led") false true true).1
    (str "ext-led") 9).1, ⟨true, true, ?_⟩, ?_⟩
  · exact .step (.step (.step (.refl _) (.read _ (str "counter") false false true (by unfold CStr; decide)))
      (.read _ (str "ext-led") false true true (by unfold CStr; decide))) (.ext _ (str "ext-led") 9 (by unfold CStr; decide))
  · decide +kernel

/-- Two of the documented aliases, and two names that are not. -/
example : SameSymbol (str "first") (str "car") ∧ ¬ SameSymbol (str "first") (str "cdr") := by
  simp only [← sameB_iff]; decide +kernel

end Verif.Sym
