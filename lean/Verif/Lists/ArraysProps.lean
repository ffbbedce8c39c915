import Verif.Lists.Arrays

/-
Property theorems about arrays of values (C99).
-/

namespace Verif.Lists
open Verif.Heap Verif.Env

/-- `v` is the array with the elements `es`, in RAM or in the constant heap. -/
def IsArray (h : Heap) (v : Val) (es : List Val) : Prop :=
  ∃ k i a d, v = .ptr .lispArray k i ∧ (cellOf h v).map (·.content) = some (.lispArr a d es)

/-- `v` is the array with the elements `es`, in a cell of the RAM heap that is not on the free list `fl`. -/
def LiveArray (h : Heap) (fl : List Nat) (v : Val) (es : List Val) : Prop :=
  ∃ i a d, v = .ptr .lispArray false i ∧ (h.cells i).content = .lispArr a d es ∧ i ∉ fl

theorem LiveArray.isArray {h : Heap} {fl : List Nat} {v : Val} {es : List Val} (ha : LiveArray h fl v es) : IsArray h v es := by
  obtain ⟨i, a, d, rfl, hc, _⟩ := ha
  exact ⟨false, i, a, d, rfl, by simp [cellOf, hc]⟩

theorem LiveArray.took {h h' : Heap} {fl : List Nat} {k : Nat} {v : Val} {es : List Val} (t : Took h h' fl k) (ha : LiveArray h fl v es) :
    LiveArray h' (fl.drop k) v es := by
  obtain ⟨i, a, d, rfl, hc, hi⟩ := ha
  refine ⟨i, a, d, rfl, ?_, fun hm => hi (List.mem_of_mem_drop hm)⟩
  rw [t.same i (fun hm => hi (List.mem_of_mem_take hm))]; exact hc

theorem IsArray.data {h : Heap} {v : Val} {es : List Val} (ha : IsArray h v es) : arrData h v = some es := by
  obtain ⟨k, i, a, d, rfl, hc⟩ := ha
  unfold arrData contentOf
  rw [hc]

theorem alloc_array {w n a d : Nat} {h : Heap} {i : Nat} {fl : List Nat} (hf : FreeOK h (i :: fl)) (hw : w = 32 ∨ w = 64) (hn : w / 8 * n < 2 ^ w)
    (h0 : 0 < n) : ∃ h', allocLispArray w h (some a) (some d) n = (h', .ptr .lispArray false i) ∧
      (h'.cells i).content = .lispArr a d (List.replicate n nil) ∧ Took h h' (i :: fl) 1 := by
  obtain ⟨h', e, h1, h2, h3, _, _, _, h7, h8⟩ := allocateCell_spec hf .lispArray (.lispArr a d (List.replicate n nil))
  have hp : 0 < w / 8 * n := by rcases hw with rfl | rfl <;> omega
  have hdiv : w / 8 * n / (w / 8) = n := Nat.mul_div_cancel_left n (by rcases hw with rfl | rfl <;> omega)
  refine ⟨h', ?_, by rw [h7], ⟨by simpa using h1, fun c hc => h8 c (by simpa using hc), h3, h2⟩⟩
  unfold allocLispArray
  simp only [Nat.mod_eq_of_lt hn, hp, if_true, hdiv, e]

/-- C99, `mkarray`: with memory and a free cell, a new array of `n` nils; otherwise an out of memory error, and nothing changed.
(`n` a positive number whose size in bytes fits in a word.) -/
theorem C99_mkarray_partial {w n : Nat} {h : Heap} {fl : List Nat} (hf : FreeOK h fl) (hw : w = 32 ∨ w = 64) (hn : w / 8 * n < 2 ^ w) (h0 : 0 < n)
    (hdr data : Option Nat) :
    (hdr ≠ none → data ≠ none → fl ≠ [] → ∃ h' v, fMkArray w h hdr data n = (h', v) ∧ LiveArray h' (fl.drop 1) v (List.replicate n nil) ∧ Took h h' fl 1) ∧
    (hdr = none ∨ data = none ∨ fl = [] → fMkArray w h hdr data n = (h, merror)) := by
  have hp : 0 < w / 8 * n % 2 ^ w := by rw [Nat.mod_eq_of_lt hn]; rcases hw with rfl | rfl <;> omega
  constructor
  · intro h1 h2 h3
    obtain ⟨a, rfl⟩ := Option.ne_none_iff_exists'.1 h1
    obtain ⟨d, rfl⟩ := Option.ne_none_iff_exists'.1 h2
    cases fl with
    | nil => exact absurd rfl h3
    | cons i fl =>
      obtain ⟨h', e, hc, t⟩ := alloc_array (a := a) (d := d) hf hw hn h0
      refine ⟨h', _, e, ⟨i, a, d, rfl, hc, ?_⟩, t⟩
      simpa using (freeOK_cons hf).2.2.1
  · intro hx
    unfold fMkArray allocLispArray
    cases hdr with
    | none => rfl
    | some a =>
      simp only [hp, if_true]
      cases data with
      | none => rfl
      | some d =>
        have : fl = [] := by
          rcases hx with h | h | h
          · cases h
          · cases h
          · exact h
        subst this
        exact allocateCell_full hf _ _

/-- C99, `ix` on arrays: the element at that position; an error when there is none. -/
theorem C99_ix {h : Heap} {v : Val} {es : List Val} (ha : IsArray h v es) (hlen : es.length ≤ 2 ^ 31) (f : Nat) (n : Int) (h1 : -2 ^ 31 ≤ n) (h2 : n < 2 ^ 31) :
    fIx f h v n = some (if 0 ≤ n then es.getD n.toNat eerror else eerror) := by
  have hd := ha.data
  obtain ⟨k, i, a, d, rfl, hc⟩ := ha
  have hl : isList (.ptr .lispArray k i) = false := rfl
  simp only [fIx, hl, hd, Bool.false_eq_true, if_false]
  split
  · rename_i h0
    rw [Int.emod_eq_of_lt h0 (by omega)]
  · rename_i h0
    have : (n % 2 ^ 32).toNat = (n + 2 ^ 32).toNat := by omega
    rw [this]
    have : es.length ≤ (n + 2 ^ 32).toNat := by omega
    rw [List.getD, List.getElem?_eq_none this]; rfl

/-- C99, `setix` on arrays: the array has the value at that position and is otherwise as before; nothing else changes. Without such a position it is an error and
nothing changes. -/
theorem C99_setix {h : Heap} {fl : List Nat} {v : Val} {es : List Val} (hf : FreeOK h fl) (ha : LiveArray h fl v es) (hlen : es.length ≤ 2 ^ 31) (f : Nat)
    (n : Int) (h1 : -2 ^ 31 ≤ n) (h2 : n < 2 ^ 31) (val : Val) :
    (0 ≤ n ∧ n < es.length → ∃ h', fSetIxAny f h v n val = some (h', v) ∧ LiveArray h' fl v (es.set n.toNat val) ∧ FreeOK h' fl ∧
      (∀ j, .ptr .lispArray false j ≠ v → h'.cells j = h.cells j) ∧ h'.consts = h.consts) ∧
    (¬ (0 ≤ n ∧ n < es.length) → fSetIxAny f h v n val = some (h, terror)) := by
  obtain ⟨i, a, d, rfl, hc, hi⟩ := ha
  have hl : isListRW (.ptr .lispArray false i) = false := rfl
  simp only [fSetIxAny, hl, hc, Bool.false_eq_true, if_false]
  constructor
  · rintro ⟨h3, h4⟩
    have e : (n % 2 ^ 32).toNat = n.toNat := by rw [Int.emod_eq_of_lt h3 (by omega)]
    rw [e, if_pos (by omega)]
    have p : Poke h (h.setCell i { h.cells i with content := .lispArr a d (es.set n.toNat val) }) i (.lispArr a d (es.set n.toNat val)) :=
      ⟨by simp [Heap.setCell], by intro j hj; simp [Heap.setCell, hj], rfl, rfl, rfl, rfl⟩
    refine ⟨_, rfl, ⟨i, a, d, rfl, p.at_, hi⟩, p.freeOK hf hi, fun j hj => p.other j (fun e => hj (by rw [e])), rfl⟩
  · intro h3
    rw [if_neg]
    by_cases h0 : 0 ≤ n
    · rw [Int.emod_eq_of_lt h0 (by omega)]; omega
    · have : (n % 2 ^ 32).toNat = (n + 2 ^ 32).toNat := by omega
      omega

theorem fillLoop_spec : ∀ {is : List Nat} {vs es : List Val} {h : Heap} {tgt : Val}, ListAt h tgt is vs → is.length = es.length → is.Nodup →
    ∃ h', fillLoop h tgt es = some h' ∧ ListAt h' tgt is es ∧ Wrote h h' is := by
  intro is
  induction is with
  | nil =>
    intro vs es h tgt hl hlen _
    cases es with
    | cons e es => simp at hlen
    | nil =>
      cases vs with
      | cons v vs => exact hl.elim
      | nil =>
        have : tgt = nil := hl
        subst this
        exact ⟨h, rfl, rfl, Wrote.refl _ _⟩
  | cons i is ih =>
    intro vs es h tgt hl hlen hnd
    cases es with
    | nil => simp at hlen
    | cons e es =>
      cases vs with
      | nil => exact hl.elim
      | cons v vs =>
        obtain ⟨rfl, d, hc, hd⟩ := hl
        have p := setCar_poke (v := e) hc
        have hnd' := List.nodup_cons.1 hnd
        obtain ⟨h', g1, g2, g3⟩ := ih (es := es) (h := (setCar h (.ptr .cons false i) e).1) (tgt := d)
          (listAt_congr (fun j hj => by rw [p.other j (by rintro rfl; exact hnd'.1 hj)]) hd) (by simpa using hlen) hnd'.2
        refine ⟨h', ?_, ⟨rfl, d, by rw [g3.other i hnd'.1, p.at_], g2⟩, (Wrote.poke p (by simp)).trans (g3.mono (by simp; tauto))⟩
        simp only [fillLoop, isCons_ptr, if_true, cdr_pair hc]
        exact g1

/-- C99, `array-to-list`: a new list of the elements of the array, which is unchanged; with too few free cells an out of memory error, and nothing changed. -/
theorem C99_array_to_list {h : Heap} {fl : List Nat} {v : Val} {es : List Val} (hf : FreeOK h fl) (ha : IsArray h v es) :
    (es.length ≤ fl.length → ∃ h' l, fArrayToList h v = some (h', l) ∧ LiveList h' (fl.drop es.length) l es ∧ Took h h' fl es.length) ∧
    (fl.length < es.length → fArrayToList h v = some (h, merror)) := by
  have hd := ha.data
  obtain ⟨k, i, a, d, rfl, _⟩ := ha
  simp only [fArrayToList, hd, allocateList]
  rcases allocateListInit_cases hf (List.replicate es.length nil) with ⟨hv, e⟩ | ⟨hv, h1, e⟩ | ⟨hv, hle⟩
  · have : es = [] := by cases es <;> simp_all
    subst this
    rw [e]
    exact ⟨fun _ => ⟨h, nil, rfl, ⟨[], .nil, by simp⟩, Took.refl hf⟩, fun hh => by simp at hh⟩
  · simp only [List.length_replicate] at h1
    refine ⟨fun hh => by omega, fun _ => ?_⟩
    rw [e]; rfl
  · obtain ⟨h2, e1, e2, e3, e4, e5, e6, e7, e8, e9, e10⟩ := allocateListInit_spec hf _ hle hv
    simp only [List.length_replicate] at hle e1 e2 e3 e9 e10
    refine ⟨fun _ => ?_, fun hh => by omega⟩
    have t : Took h h2 fl es.length := ⟨e3, e10, e6, e4⟩
    have hlk : (fl.take es.length).length = es.length := by simp; omega
    have hne : es.length ≠ 0 := by simpa using hv
    have hs : isSymbol (headOf (fl.take es.length)) = false := by
      cases hq : fl.take es.length with
      | nil => rw [hq] at hlk; simp at hlk; omega
      | cons a b => rfl
    obtain ⟨h3, g1, g2, g3⟩ := fillLoop_spec e2 hlk (hf.2.1.sublist (List.take_sublist _ _))
    rw [e1]
    simp only [hs, g1]
    exact ⟨h3, _, rfl, ⟨_, chain_of_listAt g2, nodup_take_drop hf.2.1 _⟩, t.wrote hf.2.1 g3⟩

theorem storeLoop_spec {h : Heap} {v : Val} {is : List Nat} {xs : List Val} (hc : Chain h nil v is xs) : ∀ (f : Nat) (done : List Val) (rest : List Val),
    xs.length < f → rest.length = xs.length → storeLoop h f v done.length (done ++ rest) = some (done ++ xs) := by
  induction hc with
  | nil =>
    intro f done rest hf hr
    obtain ⟨f, rfl⟩ := Nat.exists_eq_succ_of_ne_zero (by omega : f ≠ 0)
    have : rest = [] := by simpa using hr
    subst this
    rfl
  | @ram i x d is xs e hc ih =>
    intro f done rest hf hr
    obtain ⟨f, rfl⟩ := Nat.exists_eq_succ_of_ne_zero (by omega : f ≠ 0)
    cases rest with
    | nil => simp at hr
    | cons r rest =>
      have := ih f (done ++ [x]) rest (by simpa using hf) (by simpa using hr)
      simp only [storeLoop, isCons_ptr, if_true, cdr_pair e, car_pair e]
      rw [if_pos (by simp)]
      simpa using this
  | @rom i x d is xs e hc ih =>
    intro f done rest hf hr
    obtain ⟨f, rfl⟩ := Nat.exists_eq_succ_of_ne_zero (by omega : f ≠ 0)
    cases rest with
    | nil => simp at hr
    | cons r rest =>
      have := ih f (done ++ [x]) rest (by simpa using hf) (by simpa using hr)
      simp only [storeLoop, isCons_ptr, if_true, cdr_rom e, car_rom e]
      rw [if_pos (by simp)]
      simpa using this

/-- C99, `list-to-array`: for a list that is not empty, with memory and a free cell, a new array with the elements of the list; otherwise an out of memory
error and nothing changed. -/
theorem C99_list_to_array_partial {w : Nat} {h : Heap} {fl : List Nat} {l : Val} {xs : List Val} (hf : FreeOK h fl) (hl : LiveList h fl l xs) (hne : xs ≠ [])
    (hw : w = 32 ∨ w = 64) (hn : w / 8 * xs.length < 2 ^ w) (hdr data : Option Nat) :
    ∃ m, ∀ f ≥ m,
      (hdr ≠ none → data ≠ none → fl ≠ [] → ∃ h' v, fListToArray w f h hdr data l = some (h', v) ∧ LiveArray h' (fl.drop 1) v xs ∧ Took h h' fl 1) ∧
      (hdr = none ∨ data = none ∨ fl = [] → fListToArray w f h hdr data l = some (h, merror)) := by
  refine ⟨xs.length + 1, fun f hlen => ?_⟩
  obtain ⟨is, hc, hd⟩ := hl
  have hil : isList l = true := by cases hc <;> rfl
  have hpos : 0 < xs.length := List.length_pos_iff.2 hne
  constructor
  · intro h1 h2 h3
    obtain ⟨a, rfl⟩ := Option.ne_none_iff_exists'.1 h1
    obtain ⟨d, rfl⟩ := Option.ne_none_iff_exists'.1 h2
    cases fl with
    | nil => exact absurd rfl h3
    | cons i fl =>
      obtain ⟨h', e, hca, t⟩ := alloc_array (a := a) (d := d) hf hw hn hpos
      have hc' : Chain h' nil l is xs := chain_congr (fun j hj => by
        rw [t.same j (fun hm => hd j hj (List.mem_of_mem_take hm))]) t.consts hc
      have hst := storeLoop_spec hc' f [] (List.replicate xs.length nil) hlen (by simp)
      simp only [List.length_nil, List.nil_append] at hst
      have hsy : isSymbol (.ptr .lispArray false i) = false := rfl
      have p : Wrote h' (h'.setCell i { h'.cells i with content := .lispArr a d xs }) [i] :=
        ⟨by intro j hj; simp at hj; simp [Heap.setCell, hj], rfl, rfl, rfl, rfl⟩
      refine ⟨h'.setCell i { h'.cells i with content := .lispArr a d xs }, .ptr .lispArray false i, ?_, ⟨i, a, d, rfl, by simp [Heap.setCell], ?_⟩, ?_⟩
      · unfold fListToArray
        rw [listLength_spec rfl hc f hlen]
        simp only [hil, if_true, hpos, e, hsy, hca, hst]
        rfl
      · simpa using (freeOK_cons hf).2.2.1
      · exact t.wrote hf.2.1 (by simpa using p)
  · intro hx
    have hall : allocLispArray w h hdr data xs.length = (h, merror) :=
      (C99_mkarray_partial hf hw hn hpos hdr data).2 hx
    unfold fListToArray
    rw [listLength_spec rfl hc f hlen]
    simp only [hil, if_true, hpos, hall]
    rfl

/-- C99, there and back: `(array-to-list (list-to-array l))` has the elements of `l`. -/
theorem C99_round_trip {w : Nat} {h : Heap} {fl : List Nat} {l : Val} {xs : List Val} (hf : FreeOK h fl) (hl : LiveList h fl l xs) (hne : xs ≠ [])
    (hw : w = 32 ∨ w = 64) (hn : w / 8 * xs.length < 2 ^ w) (hroom : xs.length + 1 ≤ fl.length) (a d : Nat) :
    ∃ m, ∀ f ≥ m, ∃ h1 v h2 l', fListToArray w f h (some a) (some d) l = some (h1, v) ∧ fArrayToList h1 v = some (h2, l') ∧
      LiveList h2 (fl.drop (1 + xs.length)) l' xs ∧ LiveList h2 (fl.drop (1 + xs.length)) l xs ∧ LiveArray h2 (fl.drop (1 + xs.length)) v xs := by
  obtain ⟨m, hm⟩ := C99_list_to_array_partial hf hl hne hw hn (some a) (some d)
  refine ⟨m, fun f hfm => ?_⟩
  obtain ⟨h1, v, e1, a1, t1⟩ := (hm f hfm).1 (by simp) (by simp) (by rintro rfl; simp at hroom)
  obtain ⟨h2, l', e2, a2, t2⟩ := (C99_array_to_list t1.free a1.isArray).1 (by simp; omega)
  have t := t1.trans t2
  rw [List.drop_drop] at a2
  exact ⟨h1, v, h2, l', e1, e2, a2, hl.took t, by have := a1.took t2; rwa [List.drop_drop] at this⟩

/-! ### Witnesses -/

example : ∃ m, ∀ f ≥ m, ∃ h1 v h2 l', fListToArray 32 f demo (some 100) (some 200) (.ptr .cons false 0) = some (h1, v) ∧
    fArrayToList h1 v = some (h2, l') ∧ LiveList h2 [7] l' [.imm 0 1, .imm 0 2, .imm 0 3] := by
  obtain ⟨m, hm⟩ := C99_round_trip (w := 32) demo_free demo_list (by simp) (.inl rfl) (by decide) (by decide) 100 200
  refine ⟨m, fun f hf => ?_⟩
  obtain ⟨h1, v, h2, l', e1, e2, g, _⟩ := hm f hf
  exact ⟨h1, v, h2, l', e1, e2, g⟩

/-- A heap with an array of three elements. -/
def arrDemo : Heap := { demo with cells := fun i => if i = 2 then { content := .lispArr 100 200 [.imm 0 4, .imm 0 5, .imm 0 6] } else demo.cells i }

theorem arrDemo_free : FreeOK arrDemo [3, 4, 5, 6, 7] := by
  refine ⟨?_, by decide, rfl⟩
  simp [FreeChain, arrDemo, demo, nil, init]

theorem arrDemo_live : LiveArray arrDemo [3, 4, 5, 6, 7] (.ptr .lispArray false 2) [.imm 0 4, .imm 0 5, .imm 0 6] :=
  ⟨2, 100, 200, rfl, rfl, by simp⟩

example : fIx 9 arrDemo (.ptr .lispArray false 2) 1 = some (.imm 0 5) ∧ fIx 9 arrDemo (.ptr .lispArray false 2) (-1) = some eerror := by
  constructor
  · exact C99_ix arrDemo_live.isArray (by decide) 9 1 (by decide) (by decide)
  · exact C99_ix arrDemo_live.isArray (by decide) 9 (-1) (by decide) (by decide)

example : ∃ h', fSetIxAny 9 arrDemo (.ptr .lispArray false 2) 1 nil = some (h', .ptr .lispArray false 2) ∧
    LiveArray h' [3, 4, 5, 6, 7] (.ptr .lispArray false 2) [.imm 0 4, nil, .imm 0 6] := by
  obtain ⟨h', e, g, _⟩ := (C99_setix arrDemo_free arrDemo_live (by decide) 9 1 (by decide) (by decide) nil).1 (by decide)
  exact ⟨h', e, g⟩

/-- C99 fails for `mkarray` with sizes from `2 ^ 30` on in the build with 32 bit words: the number of bytes is reduced modulo `2 ^ 32`, so that
`(mkarray 1073741825)` is an array of one element. -/
theorem C99_mkarray_wraps_violated {h : Heap} {i : Nat} {fl : List Nat} (hf : FreeOK h (i :: fl)) (a d : Nat) :
    ∃ h', fMkArray 32 h (some a) (some d) (2 ^ 30 + 1) = (h', .ptr .lispArray false i) ∧ LiveArray h' fl (.ptr .lispArray false i) [nil] := by
  obtain ⟨h', e, h1, h2, h3, _, _, _, h7, h8⟩ := allocateCell_spec hf .lispArray (.lispArr a d [nil])
  refine ⟨h', ?_, ⟨i, a, d, rfl, by rw [h7], (freeOK_cons hf).2.2.1⟩⟩
  unfold fMkArray allocLispArray
  simpa using e

/-- C99 fails for the empty list: `(list-to-array nil)` is not an array but nil, and `ix` and `setix` then treat it as a list: `(ix (list-to-array nil) 0)` is nil, not an
error. -/
theorem C99_empty_violated (w f : Nat) (h : Heap) (hdr data : Option Nat) :
    fListToArray w (f + 1) h hdr data nil = some (h, nil) ∧ fIx f h nil 0 = some nil ∧
    ∀ v, IsArray h v [] → fIx f h v 0 = some eerror := by
  refine ⟨by rfl, by rfl, fun v ha => ?_⟩
  exact C99_ix ha (by decide) f 0 (by decide) (by decide)

end Verif.Lists
