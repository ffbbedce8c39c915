import Verif.Sym.TableFacts

namespace Verif.Sym

/-! ### Searching -/

theorem strEq_iff : ∀ {a b : Name}, CStr a → CStr b → (strEq a b = true ↔ a = b) := by
  intro a
  induction a with
  | nil =>
    intro b _ hb
    cases b with
    | nil => simp [strEq]
    | cons y ys =>
      have : 0 ≠ y := fun e => hb (e ▸ List.mem_cons_self)
      simp [strEq, this]
  | cons x xs ih =>
    intro b ha hb
    have hx : x ≠ 0 := fun e => ha (e ▸ List.mem_cons_self)
    cases b with
    | nil => simp [strEq, hx]
    | cons y ys =>
      simp only [strEq]
      by_cases e : x = y
      · subst e
        rw [if_neg (by simp), if_neg hx, ih (fun h => ha (List.mem_cons_of_mem _ h)) (fun h => hb (List.mem_cons_of_mem _ h))]
        simp
      · simp [e]

theorem listFind_some {n : Name} (hn : CStr n) : ∀ {l : List (Name × Nat)}, (∀ e ∈ l, CStr e.1) → ∀ {i}, listFind n l = some i → (n, i) ∈ l := by
  intro l
  induction l with
  | nil => intro _ i h; cases h
  | cons e l ih =>
    intro hl i h
    simp only [listFind] at h
    split at h
    · next he =>
      cases h
      rw [(strEq_iff hn (hl e List.mem_cons_self)).1 he]
      exact List.mem_cons_self
    · exact List.mem_cons_of_mem _ (ih (fun x hx => hl x (List.mem_cons_of_mem _ hx)) h)

theorem listFind_none {n : Name} (hn : CStr n) : ∀ {l : List (Name × Nat)}, (∀ e ∈ l, CStr e.1) → listFind n l = none → ∀ i, (n, i) ∉ l := by
  intro l
  induction l with
  | nil => intro _ _ i h; cases h
  | cons e l ih =>
    intro hl h i hm
    simp only [listFind] at h
    split at h
    · cases h
    · next he =>
      rcases List.mem_cons.1 hm with rfl | hm
      · exact he ((strEq_iff hn hn).2 rfl)
      · exact ih (fun x hx => hl x (List.mem_cons_of_mem _ hx)) h i hm

theorem extFind_some {n : Name} (hn : CStr n) : ∀ {l : List Slot} {k : Nat}, (∀ s ∈ l, ∀ m, s.name = some m → CStr m) → ∀ {i}, extFind n l k = some i →
    ∃ j s, l[j]? = some s ∧ s.name = some n ∧ i = extStart + (k + j) := by
  intro l
  induction l with
  | nil => intro k _ i h; cases h
  | cons s l ih =>
    intro k hl i h
    have ih' : extFind n l (k + 1) = some i → ∃ j s', (s :: l)[j]? = some s' ∧ s'.name = some n ∧ i = extStart + (k + j) := by
      intro h
      obtain ⟨j, s', h1, h2, h3⟩ := ih (fun x hx => hl x (List.mem_cons_of_mem _ hx)) h
      exact ⟨j + 1, s', by simpa using h1, h2, by omega⟩
    simp only [extFind] at h
    split at h
    · next m hm =>
      split at h
      · next he =>
        cases h
        refine ⟨0, s, rfl, ?_, by omega⟩
        rw [hm, (strEq_iff hn (hl s List.mem_cons_self m hm)).1 he]
      · exact ih' h
    · exact ih' h

theorem extFind_none {n : Name} (hn : CStr n) : ∀ {l : List Slot} {k : Nat}, (∀ s ∈ l, ∀ m, s.name = some m → CStr m) → extFind n l k = none →
    ∀ s ∈ l, s.name ≠ some n := by
  intro l
  induction l with
  | nil => intro k _ _ s h; cases h
  | cons s l ih =>
    intro k hl h x hx hxn
    simp only [extFind] at h
    have ih' := fun h => ih (k := k + 1) (fun x hx => hl x (List.mem_cons_of_mem _ hx)) h
    rcases List.mem_cons.1 hx with rfl | hx
    · rw [hxn] at h
      dsimp only at h
      rw [if_pos ((strEq_iff hn hn).2 rfl)] at h
      cases h
    · split at h
      · split at h
        · cases h
        · exact ih' h x hx hxn
      · exact ih' h x hx hxn

theorem idFind_some {i : Nat} : ∀ {l : List (Name × Nat)} {n}, idFind i l = some n → (n, i) ∈ l := by
  intro l
  induction l with
  | nil => intro n h; cases h
  | cons e l ih =>
    intro n h
    simp only [idFind] at h
    split at h
    · next he => cases h; rw [he]; exact List.mem_cons_self
    · exact List.mem_cons_of_mem _ (ih h)

theorem idFind_none {i : Nat} : ∀ {l : List (Name × Nat)}, idFind i l = none → ∀ n, (n, i) ∉ l := by
  intro l
  induction l with
  | nil => intro _ n h; cases h
  | cons e l ih =>
    intro h n hm
    simp only [idFind] at h
    split at h
    · cases h
    · next he =>
      rcases List.mem_cons.1 hm with rfl | hm
      · exact he rfl
      · exact ih h n hm

/-! ### The invariant -/

/-- The entries of all three tables. -/
def Has (t : Tab) (n : Name) (i : Nat) : Prop :=
  (n, i) ∈ specialTable ∨ (∃ k f, t.exts[k]? = some ⟨some n, f⟩ ∧ i = extStart + k) ∨ (n, i) ∈ t.syms

structure Inv (t : Tab) : Prop where
  len : t.exts.length ≤ 0x10000
  cstr : ∀ n i, Has t n i → CStr n
  fn : ∀ n i j, Has t n i → Has t n j → i = j
  free : ∀ k, t.nextExt ≤ k → ∀ s, t.exts[k]? = some s → s.name = none
  symRange : ∀ n i, (n, i) ∈ t.syms → runtimeStart ≤ i ∧ i < t.next
  symInj : ∀ a b i, (a, i) ∈ t.syms → (b, i) ∈ t.syms → a = b
  next : runtimeStart ≤ t.next

theorem Inv.ext_cstr {t : Tab} (h : Inv t) : ∀ s ∈ t.exts, ∀ m, s.name = some m → CStr m := by
  intro s hs m hm
  obtain ⟨k, hk⟩ := List.getElem?_of_mem hs
  obtain ⟨nm, f⟩ := s
  dsimp only at hm
  subst hm
  exact h.cstr m _ (Or.inr (Or.inl ⟨k, f, hk, rfl⟩))

theorem Inv.sym_cstr {t : Tab} (h : Inv t) : ∀ e ∈ t.syms, CStr e.1 := fun e he => h.cstr e.1 e.2 (Or.inr (Or.inr he))

theorem getByName_some {t : Tab} (h : Inv t) {n : Name} (hn : CStr n) {i : Nat} (e : getByName t n = some i) : Has t n i := by
  unfold getByName at e
  split at e
  · next j hj => cases e; exact Or.inl (listFind_some hn (fun e he => special_cstr he) hj)
  · split at e
    · next j hj =>
      cases e
      obtain ⟨k, ⟨nm, f⟩, h1, h2, h3⟩ := extFind_some hn h.ext_cstr hj
      dsimp only at h2
      subst h2
      exact Or.inr (Or.inl ⟨k, f, h1, by omega⟩)
    · exact Or.inr (Or.inr (listFind_some hn h.sym_cstr e))

theorem getByName_none {t : Tab} (h : Inv t) {n : Name} (hn : CStr n) (e : getByName t n = none) (i : Nat) : ¬ Has t n i := by
  unfold getByName at e
  split at e
  · cases e
  · next h1 =>
    split at e
    · cases e
    · next h2 =>
      rintro (hh | ⟨k, f, hk, _⟩ | hh)
      · exact listFind_none hn (fun e he => special_cstr he) h1 i hh
      · exact extFind_none hn h.ext_cstr h2 _ (List.mem_of_getElem? hk) rfl
      · exact listFind_none hn h.sym_cstr e i hh

theorem getByName_iff {t : Tab} (h : Inv t) {n : Name} (hn : CStr n) {i : Nat} : getByName t n = some i ↔ Has t n i := by
  refine ⟨getByName_some h hn, fun hh => ?_⟩
  cases e : getByName t n with
  | none => exact absurd hh (getByName_none h hn e i)
  | some j => rw [h.fn n i j hh (getByName_some h hn e)]

theorem ext_range {t : Tab} (h : Inv t) {k : Nat} {s : Slot} (hk : t.exts[k]? = some s) : k < 0x10000 := by
  have := (List.getElem?_eq_some_iff.1 hk).1
  have := h.len
  omega

theorem Inv.inj {t : Tab} (h : Inv t) {a b : Name} {i : Nat} (h1 : Has t a i) (h2 : Has t b i) : SameSymbol a b := by
  have hr : runtimeStart = 0x40000 := rfl
  have he : extStart = 0x10000 := rfl
  rcases h1 with h1 | ⟨k, f, hk, e1⟩ | h1 <;> rcases h2 with h2 | ⟨k', f', hk', e2⟩ | h2
  · exact special_inj h1 h2
  · have := special_range h1; have := ext_range h hk'; omega
  · have := special_range h1; have := h.symRange _ _ h2; omega
  · have := special_range h2; have := ext_range h hk; omega
  · have : k = k' := by omega
    subst this
    rw [hk] at hk'
    cases hk'
    exact Or.inl rfl
  · have := ext_range h hk; have := h.symRange _ _ h2; omega
  · have := special_range h2; have := h.symRange _ _ h1; omega
  · have := ext_range h hk'; have := h.symRange _ _ h1; omega
  · exact Or.inl (h.symInj a b i h1 h2)

/-! ### Operations -/

/-- What an operation other than clearing does to the tables. -/
structure Grow (t u : Tab) : Prop where
  has : ∀ n i, Has t n i → Has u n i
  name : ∀ i n, getName t i = some n → getName u i = some n
  nextExt : t.nextExt ≤ u.nextExt
  ext : ∀ k s, t.exts[k]? = some s → k < t.nextExt → ∃ s', u.exts[k]? = some s' ∧ s'.name = s.name
  len : u.exts.length = t.exts.length
  next : t.next ≤ u.next
  suffix : ∃ l, u.syms = l ++ t.syms

theorem Grow.refl (t : Tab) : Grow t t :=
  ⟨fun _ _ h => h, fun _ _ h => h, Nat.le_refl _, fun k s h _ => ⟨s, h, rfl⟩, rfl, Nat.le_refl _, ⟨[], rfl⟩⟩

theorem Grow.trans {t u v : Tab} (h1 : Grow t u) (h2 : Grow u v) : Grow t v := by
  refine ⟨fun n i h => h2.has n i (h1.has n i h), fun i n h => h2.name i n (h1.name i n h), Nat.le_trans h1.nextExt h2.nextExt, ?_,
    h2.len.trans h1.len, Nat.le_trans h1.next h2.next, ?_⟩
  · intro k s hk hlt
    obtain ⟨s', hk', e⟩ := h1.ext k s hk hlt
    obtain ⟨s'', hk'', e'⟩ := h2.ext k s' hk' (Nat.lt_of_lt_of_le hlt h1.nextExt)
    exact ⟨s'', hk'', e'.trans e⟩
  · obtain ⟨l, e⟩ := h1.suffix
    obtain ⟨l', e'⟩ := h2.suffix
    exact ⟨l' ++ l, by rw [e', e, List.append_assoc]⟩

theorem has_cons {t : Tab} {n : Name} {a : Name} {i : Nat} :
    Has { t with syms := (n, t.next) :: t.syms, next := t.next + 1 } a i ↔ Has t a i ∨ (a = n ∧ i = t.next) := by
  unfold Has
  simp only [List.mem_cons, Prod.mk.injEq]
  constructor
  · rintro (h | h | h | h)
    · exact Or.inl (Or.inl h)
    · exact Or.inl (Or.inr (Or.inl h))
    · exact Or.inr h
    · exact Or.inl (Or.inr (Or.inr h))
  · rintro ((h | h | h) | h)
    · exact Or.inl h
    · exact Or.inr (Or.inl h)
    · exact Or.inr (Or.inr (Or.inr h))
    · exact Or.inr (Or.inr (Or.inl h))

theorem Has.lt_next {t : Tab} (h : Inv t) {a : Name} {i : Nat} (hh : Has t a i) : i < t.next := by
  have hr : runtimeStart = 0x40000 := rfl
  have he : extStart = 0x10000 := rfl
  have := h.next
  rcases hh with h1 | ⟨k, f, hk, e1⟩ | h1
  · have := special_range h1; omega
  · have := ext_range h hk; omega
  · exact (h.symRange _ _ h1).2

theorem push_spec {t : Tab} (h : Inv t) {n : Name} (hn : CStr n) (hnew : ∀ i, ¬ Has t n i) :
    Inv { t with syms := (n, t.next) :: t.syms, next := t.next + 1 } ∧
    Grow t { t with syms := (n, t.next) :: t.syms, next := t.next + 1 } := by
  have hnext := h.next
  refine ⟨⟨h.len, ?_, ?_, h.free, ?_, ?_, by show _ ≤ t.next + 1; omega⟩, ⟨?_, ?_, Nat.le_refl _, fun k s hk _ => ⟨s, hk, rfl⟩, rfl,
    Nat.le_succ _, ⟨[(n, t.next)], rfl⟩⟩⟩
  · intro a i hh
    rcases has_cons.1 hh with hh | ⟨rfl, _⟩
    · exact h.cstr a i hh
    · exact hn
  · intro a i j h1 h2
    rcases has_cons.1 h1 with h1' | ⟨e1, e1'⟩ <;> rcases has_cons.1 h2 with h2' | ⟨e2, e2'⟩
    · exact h.fn a i j h1' h2'
    · subst e2; exact absurd h1' (hnew i)
    · subst e1; exact absurd h2' (hnew j)
    · omega
  · intro a i hm
    show _ ∧ i < t.next + 1
    rcases List.mem_cons.1 hm with e | hm
    · cases e; exact ⟨hnext, by omega⟩
    · have := h.symRange a i hm; exact ⟨this.1, by omega⟩
  · intro a b i h1 h2
    rcases List.mem_cons.1 h1 with e1 | h1 <;> rcases List.mem_cons.1 h2 with e2 | h2
    · cases e1; cases e2; rfl
    · cases e1; have := h.symRange _ _ h2; omega
    · cases e2; have := h.symRange _ _ h1; omega
    · exact h.symInj a b i h1 h2
  · intro a i hh; exact has_cons.2 (Or.inl hh)
  · intro i a hg
    unfold getName at hg ⊢
    dsimp only at hg ⊢
    split
    · next hk => rwa [if_pos hk] at hg
    · next hk =>
      rw [if_neg hk] at hg
      split
      · next hk2 => rwa [if_pos hk2] at hg
      · next hk2 =>
        rw [if_neg hk2] at hg
        simp only [idFind]
        have := (h.symRange _ _ (idFind_some hg)).2
        rw [if_neg (by omega)]
        exact hg

/-- An outcome of an interning operation: nothing changed, or the name was added with the next id. -/
def Added (t : Tab) (n : Name) (r : Tab × Option Nat) : Prop :=
  (r = (t, none)) ∨ (r = ({ t with syms := (n, t.next) :: t.syms, next := t.next + 1 }, some t.next))

theorem addBaseRam_added (t : Tab) (n : Name) (m : Bool) : Added t n (addBaseRam t n m) := by
  unfold addBaseRam; split
  · exact Or.inr rfl
  · exact Or.inl rfl

theorem addBaseFlash_added (t : Tab) (n : Name) (a b : Bool) : Added t n (addBaseFlash t n a b) := by
  unfold addBaseFlash; split
  · exact Or.inl rfl
  · split
    · exact Or.inl rfl
    · split
      · exact Or.inl rfl
      · exact Or.inr rfl

theorem addBaseConst_added (t : Tab) (n : Name) (m : Bool) : Added t n (addBaseConst t n m) := by
  unfold addBaseConst; split
  · exact Or.inr rfl
  · exact Or.inl rfl

theorem Added.spec {t : Tab} (h : Inv t) {n : Name} (hn : CStr n) (hnew : ∀ i, ¬ Has t n i) {r : Tab × Option Nat} (ha : Added t n r) :
    Inv r.1 ∧ Grow t r.1 := by
  rcases ha with rfl | rfl
  · exact ⟨h, Grow.refl t⟩
  · exact push_spec h hn hnew

/-- Replacing the function of a slot. -/
theorem setf_spec {t : Tab} (h : Inv t) {k : Nat} {s : Slot} (hk : t.exts[k]? = some s) (f : Nat) :
    Inv { t with exts := t.exts.set k { s with fptr := f } } ∧ Grow t { t with exts := t.exts.set k { s with fptr := f } } := by
  have hkl := (List.getElem?_eq_some_iff.1 hk).1
  have hget : ∀ (j : Nat) (x : Slot), (t.exts.set k { s with fptr := f })[j]? = some x → ∃ y : Slot, t.exts[j]? = some y ∧ y.name = x.name := by
    intro j x hx
    rw [List.getElem?_set] at hx
    split at hx
    · next e =>
      subst e
      cases hx
      exact ⟨s, hk, rfl⟩
    · exact ⟨x, hx, rfl⟩
  have hget' : ∀ (j : Nat) (x : Slot), t.exts[j]? = some x → ∃ y : Slot, (t.exts.set k { s with fptr := f })[j]? = some y ∧ y.name = x.name := by
    intro j x hx
    rw [List.getElem?_set]
    by_cases e : k = j
    · subst e
      rw [if_pos rfl, if_pos hkl]
      rw [hk] at hx
      cases hx
      exact ⟨_, rfl, rfl⟩
    · rw [if_neg e]; exact ⟨x, hx, rfl⟩
  have hhas : ∀ a i, Has { t with exts := t.exts.set k { s with fptr := f } } a i ↔ Has t a i := by
    intro a i
    constructor
    · rintro (h1 | ⟨j, g, hj, e⟩ | h1)
      · exact Or.inl h1
      · obtain ⟨⟨nm, g'⟩, hy, e'⟩ := hget j _ hj
        dsimp only at e'
        subst e'
        exact Or.inr (Or.inl ⟨j, g', hy, e⟩)
      · exact Or.inr (Or.inr h1)
    · rintro (h1 | ⟨j, g, hj, e⟩ | h1)
      · exact Or.inl h1
      · obtain ⟨⟨nm, g'⟩, hy, e'⟩ := hget' j _ hj
        dsimp only at e'
        subst e'
        exact Or.inr (Or.inl ⟨j, g', hy, e⟩)
      · exact Or.inr (Or.inr h1)
  refine ⟨⟨by simpa using h.len, fun a i hh => h.cstr a i ((hhas a i).1 hh), fun a i j h1 h2 => h.fn a i j ((hhas a i).1 h1) ((hhas a j).1 h2),
    ?_, h.symRange, h.symInj, h.next⟩, ⟨fun a i hh => (hhas a i).2 hh, ?_, Nat.le_refl _, ?_, by simp, Nat.le_refl _, ⟨[], rfl⟩⟩⟩
  · intro j hj x hx
    obtain ⟨y, hy, e⟩ := hget j x hx
    rw [← e]; exact h.free j hj y hy
  · intro i a hg
    unfold getName at hg ⊢
    dsimp only at hg ⊢
    split
    · next hk1 => rwa [if_pos hk1] at hg
    · next hk1 =>
      rw [if_neg hk1] at hg
      split
      · next hk2 =>
        rw [if_pos hk2] at hg
        split at hg
        · next x hx =>
          obtain ⟨y, hy, e⟩ := hget' _ _ hx
          rw [hy]
          exact e.trans hg
        · cases hg
      · next hk2 => rwa [if_neg hk2] at hg
  · intro j x hx _; exact hget' j x hx

/-- Using the next slot. -/
theorem newExt_spec {t : Tab} (h : Inv t) {n : Name} (hn : CStr n) (hnew : ∀ i, ¬ Has t n i) (f : Nat) (hlt : t.nextExt < t.exts.length) :
    Inv { t with exts := t.exts.set t.nextExt ⟨some n, f⟩, nextExt := t.nextExt + 1 } ∧
    Grow t { t with exts := t.exts.set t.nextExt ⟨some n, f⟩, nextExt := t.nextExt + 1 } ∧
    Has { t with exts := t.exts.set t.nextExt ⟨some n, f⟩, nextExt := t.nextExt + 1 } n (extStart + t.nextExt) := by
  have hself : (t.exts.set t.nextExt ⟨some n, f⟩)[t.nextExt]? = some ⟨some n, f⟩ := by simp [hlt]
  have hother : ∀ j, j ≠ t.nextExt → (t.exts.set t.nextExt ⟨some n, f⟩)[j]? = t.exts[j]? := by
    intro j hj; rw [List.getElem?_set, if_neg (Ne.symm hj)]
  have hhas : ∀ a i, Has { t with exts := t.exts.set t.nextExt ⟨some n, f⟩, nextExt := t.nextExt + 1 } a i ↔
      Has t a i ∨ (a = n ∧ i = extStart + t.nextExt) := by
    intro a i
    constructor
    · rintro (h1 | ⟨j, g, hj, e⟩ | h1)
      · exact Or.inl (Or.inl h1)
      · by_cases ej : j = t.nextExt
        · subst ej
          replace hj := hself.symm.trans hj
          cases hj
          exact Or.inr ⟨rfl, e⟩
        · replace hj := (hother j ej).symm.trans hj
          exact Or.inl (Or.inr (Or.inl ⟨j, g, hj, e⟩))
      · exact Or.inl (Or.inr (Or.inr h1))
    · rintro ((h1 | ⟨j, g, hj, e⟩ | h1) | ⟨rfl, rfl⟩)
      · exact Or.inl h1
      · refine Or.inr (Or.inl ⟨j, g, ?_, e⟩)
        have : j ≠ t.nextExt := by rintro rfl; cases h.free _ (Nat.le_refl _) _ hj
        exact (hother j this).trans hj
      · exact Or.inr (Or.inr h1)
      · exact Or.inr (Or.inl ⟨_, f, hself, rfl⟩)
  refine ⟨⟨by simpa using h.len, ?_, ?_, ?_, h.symRange, h.symInj, h.next⟩, ⟨fun a i hh => (hhas a i).2 (Or.inl hh), ?_, Nat.le_succ _, ?_,
    by simp, Nat.le_refl _, ⟨[], rfl⟩⟩, (hhas _ _).2 (Or.inr ⟨rfl, rfl⟩)⟩
  · intro a i hh
    rcases (hhas a i).1 hh with hh | ⟨rfl, _⟩
    · exact h.cstr a i hh
    · exact hn
  · intro a i j h1 h2
    rcases (hhas a i).1 h1 with h1' | ⟨e1, e1'⟩ <;> rcases (hhas a j).1 h2 with h2' | ⟨e2, e2'⟩
    · exact h.fn a i j h1' h2'
    · subst e2; exact absurd h1' (hnew i)
    · subst e1; exact absurd h2' (hnew j)
    · omega
  · intro j hj x hx
    dsimp only at hj
    refine h.free j (by omega) x ((hother j (by omega)).symm.trans hx)
  · intro i a hg
    unfold getName at hg ⊢
    dsimp only at hg ⊢
    split
    · next hk1 => rwa [if_pos hk1] at hg
    · next hk1 =>
      rw [if_neg hk1] at hg
      split
      · next hk2 =>
        rw [if_pos hk2] at hg
        by_cases ej : i - extStart = t.nextExt
        · split at hg
          · next x hx => rw [h.free _ (Nat.le_of_eq ej.symm) x hx] at hg; cases hg
          · cases hg
        · rw [hother _ ej]; exact hg
      · next hk2 => rwa [if_neg hk2] at hg
  · intro j x hx hlt'
    exact ⟨x, (hother j (by omega)).trans hx, rfl⟩

theorem addExtension_spec {t : Tab} (h : Inv t) {n : Name} (hn : CStr n) (f : Nat) :
    Inv (addExtension t n f).1 ∧ Grow t (addExtension t n f).1 := by
  unfold addExtension
  split
  · next id hid =>
    split
    · dsimp only
      split
      · next s hs =>
        split
        · split
          · exact setf_spec h hs f
          · exact ⟨h, Grow.refl t⟩
        · exact ⟨h, Grow.refl t⟩
      · exact ⟨h, Grow.refl t⟩
    · exact ⟨h, Grow.refl t⟩
  · next hid =>
    split
    · next hlt =>
      have := newExt_spec h hn (fun i => getByName_none h hn hid i) f hlt
      exact ⟨this.1, this.2.1⟩
    · exact ⟨h, Grow.refl t⟩

theorem readSymbol_spec {t : Tab} (h : Inv t) {n : Name} (hn : CStr n) (fl m1 m2 : Bool) :
    Inv (readSymbol t n fl m1 m2).1 ∧ Grow t (readSymbol t n fl m1 m2).1 := by
  unfold readSymbol
  split
  · exact ⟨h, Grow.refl t⟩
  · next hnone =>
    have hnew := fun i => getByName_none h hn hnone i
    split
    · split
      · have := addExtension_spec h hn 0
        dsimp only
        split
        · exact this
        · split <;> exact this
      · exact ⟨h, Grow.refl t⟩
    · split
      · exact (addBaseFlash_added ..).spec h hn hnew
      · rcases addBaseRam_added t n m1 with e | e
        · rw [e]; exact (addBaseRam_added ..).spec h hn hnew
        · rw [e]; exact push_spec h hn hnew

theorem Step.spec {t u : Tab} (hs : Step t u) (h : Inv t) : Inv u ∧ Grow t u := by
  cases hs with
  | add n mem hn =>
    unfold addSymbol
    split
    · next hnone => exact (addBaseRam_added ..).spec h hn (fun i => getByName_none h hn hnone i)
    · exact ⟨h, Grow.refl t⟩
  | addFlash n w1 w2 hn =>
    unfold addSymbolFlash
    split
    · next hnone => exact (addBaseFlash_added ..).spec h hn (fun i => getByName_none h hn hnone i)
    · exact ⟨h, Grow.refl t⟩
  | addConst n mem hn =>
    unfold addSymbolConst
    split
    · next hnone => exact (addBaseConst_added ..).spec h hn (fun i => getByName_none h hn hnone i)
    · exact ⟨h, Grow.refl t⟩
  | ext n f hn => exact addExtension_spec h hn f
  | read n fl m1 m2 hn => exact readSymbol_spec h hn fl m1 m2

/-- What every operation keeps: an id never gets another name. -/
structure Keep (t u : Tab) : Prop where
  nextExt : t.nextExt ≤ u.nextExt
  ext : ∀ k s, t.exts[k]? = some s → k < t.nextExt → ∃ s', u.exts[k]? = some s' ∧ (s'.name = none ∨ s'.name = s.name)
  len : u.exts.length = t.exts.length
  next : t.next ≤ u.next
  suffix : ∃ l, u.syms = l ++ t.syms

theorem Grow.keep {t u : Tab} (h : Grow t u) : Keep t u :=
  ⟨h.nextExt, fun k s hk hlt => (h.ext k s hk hlt).imp fun _ x => ⟨x.1, Or.inr x.2⟩, h.len, h.next, h.suffix⟩

theorem Keep.trans {t u v : Tab} (h1 : Keep t u) (h2 : Keep u v) : Keep t v := by
  refine ⟨Nat.le_trans h1.nextExt h2.nextExt, ?_, h2.len.trans h1.len, Nat.le_trans h1.next h2.next, ?_⟩
  · intro k s hk hlt
    obtain ⟨s', hk', e⟩ := h1.ext k s hk hlt
    obtain ⟨s'', hk'', e'⟩ := h2.ext k s' hk' (Nat.lt_of_lt_of_le hlt h1.nextExt)
    refine ⟨s'', hk'', ?_⟩
    rcases e' with e' | e'
    · exact Or.inl e'
    · rw [e']; exact e
  · obtain ⟨l, e⟩ := h1.suffix
    obtain ⟨l', e'⟩ := h2.suffix
    exact ⟨l' ++ l, by rw [e', e, List.append_assoc]⟩

theorem clr_get {t : Tab} {ix j : Nat} {x : Slot} (hx : (t.exts.set ix ⟨none, 0⟩)[j]? = some x) :
    x = ⟨none, 0⟩ ∨ t.exts[j]? = some x := by
  rw [List.getElem?_set] at hx
  split at hx
  · split at hx
    · cases hx; exact Or.inl rfl
    · cases hx
  · exact Or.inr hx

theorem clr_spec {t : Tab} (h : Inv t) (id : Nat) : Inv (clrExtension t id).1 ∧ Keep t (clrExtension t id).1 := by
  unfold clrExtension
  dsimp only
  split
  · have hhas : ∀ a i, Has { t with exts := t.exts.set (id % 0x10000) ⟨none, 0⟩ } a i → Has t a i := by
      rintro a i (h1 | ⟨j, g, hj, e⟩ | h1)
      · exact Or.inl h1
      · rcases clr_get hj with e' | hj'
        · cases e'
        · exact Or.inr (Or.inl ⟨j, g, hj', e⟩)
      · exact Or.inr (Or.inr h1)
    refine ⟨⟨by simpa using h.len, fun a i hh => h.cstr a i (hhas a i hh), fun a i j h1 h2 => h.fn a i j (hhas a i h1) (hhas a j h2), ?_,
      h.symRange, h.symInj, h.next⟩, ⟨Nat.le_refl _, ?_, by simp, Nat.le_refl _, ⟨[], rfl⟩⟩⟩
    · intro k hk s hs
      rcases clr_get hs with rfl | hs
      · rfl
      · exact h.free k hk s hs
    · intro k s hk _
      have hkl := (List.getElem?_eq_some_iff.1 hk).1
      refine ⟨_, List.getElem?_eq_getElem (by simpa using hkl), ?_⟩
      rcases clr_get (List.getElem?_eq_getElem (l := t.exts.set (id % 0x10000) ⟨none, 0⟩) (i := k) (by simpa using hkl)) with e | e
      · rw [e]; exact Or.inl rfl
      · rw [hk] at e
        cases e
        exact Or.inr rfl
  · exact ⟨h, (Grow.refl t).keep⟩

theorem init0_inv {extMax : Nat} (hm : extMax ≤ 0x10000) : Inv (init0 extMax) := by
  have hhas : ∀ a i, Has (init0 extMax) a i → (a, i) ∈ specialTable := by
    rintro a i (h1 | ⟨j, g, hj, e⟩ | h1)
    · exact h1
    · have := List.mem_of_getElem? hj
      have := List.eq_of_mem_replicate this
      cases this
    · cases h1
  refine ⟨by simpa [init0] using hm, fun a i hh => special_cstr (hhas a i hh), fun a i j h1 h2 => special_fn (hhas a i h1) (hhas a j h2), ?_,
    (fun n i h => by cases h), (fun a b i h => by cases h), Nat.le_refl _⟩
  intro k _ s hs
  have := List.eq_of_mem_replicate (List.mem_of_getElem? hs)
  rw [this]

theorem Steps.spec {t u : Tab} (hs : Steps t u) (h : Inv t) : Inv u ∧ Grow t u := by
  induction hs with
  | refl => exact ⟨h, Grow.refl _⟩
  | tail _ hs ih =>
    have := hs.spec ih.1
    exact ⟨this.1, ih.2.trans this.2⟩

theorem StepsC.spec {t u : Tab} (hs : StepsC t u) (h : Inv t) : Inv u ∧ Keep t u := by
  induction hs with
  | refl => exact ⟨h, (Grow.refl _).keep⟩
  | step _ hs ih =>
    have := hs.spec ih.1
    exact ⟨this.1, ih.2.trans this.2.keep⟩
  | clr id _ ih =>
    have := clr_spec ih.1 id
    exact ⟨this.1, ih.2.trans this.2⟩

theorem init_inv {extMax : Nat} (hm : extMax ≤ 0x10000) (m1 m2 : Bool) : Inv (init extMax m1 m2) := by
  have h1 := (Step.add (init0 extMax) (str "x") m1 (by unfold CStr; decide)).spec (init0_inv hm)
  exact ((Step.add _ (str "y") m2 (by unfold CStr; decide)).spec h1.1).1

theorem Reach.inv {extMax : Nat} (hm : extMax ≤ 0x10000) {t : Tab} (h : Reach extMax t) : Inv t := by
  obtain ⟨m1, m2, hs⟩ := h
  exact (hs.spec (init_inv hm m1 m2)).1

theorem Reach.len {extMax : Nat} (hm : extMax ≤ 0x10000) {t : Tab} (h : Reach extMax t) : t.exts.length = extMax := by
  obtain ⟨m1, m2, hs⟩ := h
  rw [(hs.spec (init_inv hm m1 m2)).2.len]
  have h1 := (Step.add (init0 extMax) (str "x") m1 (by unfold CStr; decide)).spec (init0_inv hm)
  have h2 := (Step.add _ (str "y") m2 (by unfold CStr; decide)).spec h1.1
  show (addSymbol _ _ _).1.exts.length = _
  rw [h2.2.len, h1.2.len]
  simp [init0]

end Verif.Sym
