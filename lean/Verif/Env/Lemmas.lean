import Verif.Env.Spec
import Verif.Heap.Alloc

namespace Verif.Env
open Verif.Heap

/-! ### Reading -/

theorem car_pair {h : Heap} {i : Nat} {a d : Val} (hc : (h.cells i).content = .pair a d) :
    car h (.ptr .cons false i) = a := by
  simp [car, contentOf, cellOf, hc]

theorem cdr_pair {h : Heap} {i : Nat} {a d : Val} (hc : (h.cells i).content = .pair a d) :
    cdr h (.ptr .cons false i) = d := by
  simp [cdr, contentOf, cellOf, hc]

theorem cellsOf_cons (b : Bind) (l : List Bind) : cellsOf (b :: l) = b.spine :: b.pair :: cellsOf l := rfl

theorem mem_cellsOf {l : List Bind} {b : Bind} (hb : b ∈ l) : b.spine ∈ cellsOf l ∧ b.pair ∈ cellsOf l :=
  ⟨List.mem_flatMap.2 ⟨b, hb, by simp⟩, List.mem_flatMap.2 ⟨b, hb, by simp⟩⟩

theorem envAt_congr {h h' : Heap} : ∀ {l : List Bind} {v tail : Val},
    (∀ c ∈ cellsOf l, (h'.cells c).content = (h.cells c).content) → EnvAt h v l tail → EnvAt h' v l tail := by
  intro l
  induction l with
  | nil => intro v tail _ he; exact he
  | cons b l ih =>
    rintro v tail hc ⟨h1, h2, d, h3, h4⟩
    rw [cellsOf_cons] at hc
    refine ⟨h1, by rw [hc b.pair (by simp)]; exact h2, d, by rw [hc b.spine (by simp)]; exact h3, ?_⟩
    exact ih (fun c hm => hc c (by simp [hm])) h4

theorem envAt_cell {h : Heap} : ∀ {l : List Bind} {v tail : Val}, EnvAt h v l tail → ∀ c ∈ cellsOf l, EnvCell h v c := by
  intro l
  induction l with
  | nil => intro v tail _ c hc; cases hc
  | cons b l ih =>
    rintro v tail ⟨h1, h2, d, h3, h4⟩ c hc
    subst h1
    rw [cellsOf_cons] at hc
    rcases List.mem_cons.1 hc with rfl | hc
    · exact .spine
    rcases List.mem_cons.1 hc with rfl | hc
    · exact .pair h3
    · exact .next h3 (ih h4 c hc)

theorem cell_envAt {h : Heap} {v : Val} {c : Nat} (hc : EnvCell h v c) :
    ∀ {l : List Bind} {tail : Val}, isSymbol tail → EnvAt h v l tail → c ∈ cellsOf l := by
  induction hc with
  | spine =>
    intro l tail ht he
    cases l with
    | nil => cases he; cases ht
    | cons b l => obtain ⟨h1, _⟩ := he; cases h1; simp [cellsOf_cons]
  | pair hp =>
    intro l tail ht he
    cases l with
    | nil => cases he; cases ht
    | cons b l => obtain ⟨h1, h2, d, h3, h4⟩ := he; cases h1; rw [hp] at h3; cases h3; simp [cellsOf_cons]
  | next hp _ ih =>
    intro l tail ht he
    cases l with
    | nil => cases he; cases ht
    | cons b l =>
      obtain ⟨h1, h2, d, h3, h4⟩ := he; cases h1; rw [hp] at h3; cases h3
      simp [cellsOf_cons, ih ht h4]

theorem freeChain_unique {h : Heap} : ∀ {l l' : List Nat} {v : Val}, FreeChain h v l → FreeChain h v l' → l = l' := by
  intro l
  induction l with
  | nil =>
    intro l' v h1 h2
    cases l' with
    | nil => rfl
    | cons x xs => obtain ⟨hv, _⟩ := h2; rw [h1] at hv; cases hv
  | cons y ys ih =>
    rintro l' v ⟨hv, _, a, d, hc, hr⟩ h2
    cases l' with
    | nil => rw [h2] at hv; cases hv
    | cons x xs =>
      obtain ⟨hv', _, a', d', hc', hr'⟩ := h2
      rw [hv] at hv'; cases hv'
      rw [hc] at hc'; cases hc'
      rw [ih hr hr']

theorem freeOK_unique {h : Heap} {l l' : List Nat} (h1 : FreeOK h l) (h2 : FreeOK h l') : l = l' :=
  freeChain_unique h1.1 h2.1

theorem globalLoop_spec {h : Heap} {key tail : Val} (ht : isSymbol tail) : ∀ {l : List Bind} {v : Val} (f : Nat),
    EnvAt h v l tail → l.length < f → globalLoop h key f v = some (value l key) := by
  intro l
  induction l with
  | nil =>
    rintro v f he hf
    cases he
    obtain ⟨f, rfl⟩ := Nat.exists_eq_succ_of_ne_zero (by omega : f ≠ 0)
    cases tail <;> simp [isSymbol] at ht
    simp [globalLoop, Val.isPtr, value]
  | cons b l ih =>
    rintro v f ⟨rfl, h2, d, h3, h4⟩ hf
    simp at hf
    obtain ⟨f, rfl⟩ := Nat.exists_eq_succ_of_ne_zero (by omega : f ≠ 0)
    simp only [globalLoop, Val.isPtr, if_true, car_pair h3, car_pair h2, cdr_pair h2, cdr_pair h3]
    by_cases hk : b.key = key
    · simp [hk, value]
    · rw [if_neg hk, ih f h4 (by omega)]
      simp [value, hk]

theorem lookupB_spec {h : Heap} {key tail : Val} (ht : isSymbol tail) : ∀ {l : List Bind} {v : Val} (f : Nat),
    EnvAt h v l tail → l.length < f → lookupB h key f v = some (visible l key) := by
  intro l
  induction l with
  | nil =>
    rintro v f he hf
    cases he
    obtain ⟨f, rfl⟩ := Nat.exists_eq_succ_of_ne_zero (by omega : f ≠ 0)
    cases tail <;> simp [isSymbol] at ht
    simp [lookupB, Val.isPtr, visible]
  | cons b l ih =>
    rintro v f ⟨rfl, h2, d, h3, h4⟩ hf
    simp at hf
    obtain ⟨f, rfl⟩ := Nat.exists_eq_succ_of_ne_zero (by omega : f ≠ 0)
    simp only [lookupB, Val.isPtr, if_true, car_pair h3, car_pair h2, cdr_pair h2, cdr_pair h3]
    by_cases hk : b.key = key ∧ b.val ≠ placeholder
    · rw [if_pos hk]; simp [hk.1, hk.2, visible]
    · rw [if_neg hk, ih f h4 (by omega)]
      simp [visible, hk]

/-! ### Updating in place -/

/-- The bindings with the first binding of the key changed. -/
def assign (key val : Val) : List Bind → List Bind
  | [] => []
  | b :: l => if b.key = key then { b with val := val } :: l else b :: assign key val l

theorem assign_cells (key val : Val) (l : List Bind) : cellsOf (assign key val l) = cellsOf l := by
  induction l with
  | nil => rfl
  | cons b l ih => simp only [assign]; split <;> simp [cellsOf_cons, ih]

theorem assign_keys (key val : Val) (l : List Bind) : (assign key val l).map (·.key) = l.map (·.key) := by
  induction l with
  | nil => rfl
  | cons b l ih => simp only [assign]; split <;> simp [ih]

theorem assign_length (key val : Val) (l : List Bind) : (assign key val l).length = l.length := by
  have := congrArg List.length (assign_keys key val l); simpa using this

theorem value_assign (key val key' : Val) (l : List Bind) (hv : value l key ≠ none) :
    value (assign key val l) key' = if key' = key then some val else value l key' := by
  induction l with
  | nil => simp [value] at hv
  | cons b l ih =>
    simp only [assign]
    by_cases hk : b.key = key
    · rw [if_pos hk]
      by_cases h' : key' = key
      · simp [value, h', hk]
      · have : ¬ b.key = key' := by rw [hk]; exact fun e => h' e.symm
        simp [value, h', this]
    · rw [if_neg hk]
      have hv' : value l key ≠ none := by simpa [value, hk] using hv
      have ih := ih hv'
      by_cases h' : b.key = key'
      · have : ¬ key' = key := by rw [← h']; exact hk
        simp [value, h', this]
      · simp only [value, List.find?_cons, h', decide_false] at ih ⊢
        exact ih

/-- A heap in which the content of one cell has changed. -/
structure Poke (h h' : Heap) (c : Nat) (x : Content) : Prop where
  at_ : (h'.cells c).content = x
  other : ∀ j, j ≠ c → h'.cells j = h.cells j
  size : h'.size = h.size
  freelist : h'.freelist = h.freelist
  numAlloc : h'.numAlloc = h.numAlloc
  consts : h'.consts = h.consts

theorem Poke.freeOK {h h' : Heap} {c : Nat} {x : Content} (p : Poke h h' c x) {fl : List Nat} (hf : FreeOK h fl)
    (hc : c ∉ fl) : FreeOK h' fl := by
  obtain ⟨h1, h2, h3⟩ := hf
  refine ⟨?_, h2, by rw [p.numAlloc, p.size]; exact h3⟩
  rw [p.freelist]
  exact freeChain_congr p.size (fun i hi => by rw [p.other i (by rintro rfl; exact hc hi)]) h1

theorem setCdr_poke {h : Heap} {i : Nat} {a d v : Val} (hc : (h.cells i).content = .pair a d) :
    Poke h (setCdr h (.ptr .cons false i) v).1 i (.pair a v) := by
  constructor <;> simp [setCdr, hc]
  intro j hj hj'; exact absurd hj' hj

theorem setCar_poke {h : Heap} {i : Nat} {a d v : Val} (hc : (h.cells i).content = .pair a d) :
    Poke h (setCar h (.ptr .cons false i) v).1 i (.pair v d) := by
  constructor <;> simp [setCar, hc]
  intro j hj hj'; exact absurd hj' hj

theorem modifyLoop_none {h : Heap} {key val tail : Val} (ht : isSymbol tail) : ∀ {l : List Bind} {v : Val} (f : Nat),
    EnvAt h v l tail → l.length < f → value l key = none → modifyLoop h key val f v = some none := by
  intro l
  induction l with
  | nil =>
    rintro v f he hf _
    cases he
    obtain ⟨f, rfl⟩ := Nat.exists_eq_succ_of_ne_zero (by omega : f ≠ 0)
    cases tail <;> simp [isSymbol] at ht
    simp [modifyLoop, isConsRW]
  | cons b l ih =>
    rintro v f ⟨rfl, h2, d, h3, h4⟩ hf hv
    simp at hf
    obtain ⟨f, rfl⟩ := Nat.exists_eq_succ_of_ne_zero (by omega : f ≠ 0)
    have hk : ¬ b.key = key := by intro hk; simp [value, hk] at hv
    simp only [modifyLoop, isConsRW, if_true, car_pair h3, car_pair h2, cdr_pair h3, hk, if_false]
    exact ih f h4 (by omega) (by simpa [value, hk] using hv)

theorem modifyLoop_some {h : Heap} {key val tail : Val} : ∀ {l : List Bind} {v : Val} (f : Nat),
    EnvAt h v l tail → l.length < f → (cellsOf l).Nodup → value l key ≠ none →
    ∃ h' b, b ∈ l ∧ b.key = key ∧ modifyLoop h key val f v = some (some h') ∧ EnvAt h' v (assign key val l) tail ∧
      Poke h h' b.pair (.pair key val) := by
  intro l
  induction l with
  | nil => intro v f _ _ _ hv; simp [value] at hv
  | cons b l ih =>
    rintro v f ⟨rfl, h2, d, h3, h4⟩ hf hnd hv
    simp at hf
    obtain ⟨f, rfl⟩ := Nat.exists_eq_succ_of_ne_zero (by omega : f ≠ 0)
    rw [cellsOf_cons, List.nodup_cons, List.nodup_cons] at hnd
    obtain ⟨hn1, hn2, hn3⟩ := hnd
    by_cases hk : b.key = key
    · have p := setCdr_poke (v := val) h2
      rw [hk] at p
      refine ⟨_, b, by simp, hk, by
        simp only [modifyLoop, isConsRW, if_true, car_pair h3, car_pair h2, hk], ?_, p⟩
      simp only [assign, hk, if_true]
      refine ⟨rfl, by rw [p.at_], d, ?_, ?_⟩
      · show ((setCdr h (Val.ptr .cons false b.pair) val).1.cells b.spine).content = _
        rw [p.other b.spine (by intro e; exact hn1 (by simp [e])), h3]
      · exact envAt_congr (fun c hc => by rw [p.other c (by rintro rfl; exact hn2 hc)]) h4
    · have hv' : value l key ≠ none := by simpa [value, hk] using hv
      obtain ⟨h', b', hb', hbk, e, he, p⟩ := ih f h4 (by omega) hn3 hv'
      have hbp := (mem_cellsOf hb').2
      refine ⟨h', b', by simp [hb'], hbk, by
        simp only [modifyLoop, isConsRW, if_true, car_pair h3, car_pair h2, hk, if_false, cdr_pair h3]; exact e, ?_, p⟩
      simp only [assign, hk, if_false]
      refine ⟨rfl, ?_, d, ?_, he⟩
      · rw [p.other b.pair (by intro e; rw [e] at hn2; exact hn2 hbp)]; exact h2
      · rw [p.other b.spine (by intro e; apply hn1; rw [e]; simp [hbp])]; exact h3

/-! ### Extending -/

/-- A key is bound or it is not; what `lbm_env_set` does to an environment that it owns. -/
theorem envSet_bound {h : Heap} {key val tail v : Val} {l : List Bind} {f : Nat}
    (he : EnvAt h v l tail) (hf : l.length < f) (hnd : (cellsOf l).Nodup) (hv : value l key ≠ none) :
    ∃ h' b, b ∈ l ∧ b.key = key ∧ envSet f h v key val = some (h', v) ∧ EnvAt h' v (assign key val l) tail ∧
      Poke h h' b.pair (.pair key val) := by
  obtain ⟨h', b, hb, hk, e, he', p⟩ := modifyLoop_some (val := val) f he hf hnd hv
  exact ⟨h', b, hb, hk, by simp only [envSet, e], he', p⟩

theorem envSet_full {h : Heap} {key val tail v : Val} {l : List Bind} {f : Nat} {fl : List Nat} (ht : isSymbol tail)
    (he : EnvAt h v l tail) (hf : l.length < f) (hv : value l key = none) (hfl : FreeOK h fl) (hlen : fl.length < 2) :
    ∃ h' fl', envSet f h v key val = some (h', merror) ∧ FreeOK h' fl' ∧ (∀ c, c ∉ fl → h'.cells c = h.cells c) ∧
      (∀ c ∈ fl', c ∈ fl) := by
  have e := modifyLoop_none (val := val) ht f he hf hv
  cases fl with
  | nil =>
    refine ⟨h, [], ?_, hfl, fun _ _ => rfl, by simp⟩
    simp only [envSet, e, cons, allocateCell_full hfl, merror, isSymbol, if_true]
  | cons i fl =>
    have : fl = [] := by
      cases fl with
      | nil => rfl
      | cons j fl => simp at hlen; omega
    subst this
    obtain ⟨h1, a1, a2, a3, a4, a5, a6, a7, a8, a9⟩ := allocateCell_spec hfl .cons (.pair key val)
    refine ⟨h1, [], ?_, a2, fun c hc => a9 c (by simpa using hc), by simp⟩
    simp only [envSet, e, cons, a1, allocateCell_full a2, isSymbol]
    rfl

theorem envSet_new {h : Heap} {key val tail v : Val} {l : List Bind} {f i j : Nat} {fl : List Nat} (ht : isSymbol tail)
    (he : EnvAt h v l tail) (hf : l.length < f) (hv : value l key = none) (hfl : FreeOK h (i :: j :: fl))
    (hsep : ∀ c ∈ cellsOf l, c ∉ i :: j :: fl) :
    ∃ h', envSet f h v key val = some (h', .ptr .cons false j) ∧ FreeOK h' fl ∧
      EnvAt h' (.ptr .cons false j) (⟨j, i, key, val⟩ :: l) tail ∧
      (∀ c, c ≠ i → c ≠ j → h'.cells c = h.cells c) ∧ h'.size = h.size ∧ h'.consts = h.consts := by
  have e := modifyLoop_none (val := val) ht f he hf hv
  obtain ⟨h1, a1, a2, a3, a4, a5, a6, a7, a8, a9⟩ := allocateCell_spec hfl .cons (.pair key val)
  obtain ⟨h2, b1, b2, b3, b4, b5, b6, b7, b8, b9⟩ := allocateCell_spec a2 .cons (.pair (.ptr .cons false i) v)
  have hij : i ≠ j := by
    intro e; subst e; have := hfl.2.1; simp at this
  refine ⟨h2, ?_, b2, ⟨rfl, ?_, v, ?_, ?_⟩, ?_, by rw [b3, a3], by rw [b4, a4]⟩
  · simp only [envSet, e, cons, a1, isSymbol, b1]
    simp
  · show (h2.cells i).content = _
    rw [b9 i hij, a8]
  · show (h2.cells j).content = _
    rw [b8]
  · refine envAt_congr (h := h) (fun c hc => ?_) he
    have := hsep c hc
    simp at this
    rw [b9 c this.2.1, a9 c this.1]
  · intro c hi hj; rw [b9 c hj, a9 c hi]

/-! ### Removing -/

/-- The bindings without the first binding of the key. -/
def erase (key : Val) : List Bind → List Bind
  | [] => []
  | b :: l => if b.key = key then l else b :: erase key l

theorem erase_sublist (key : Val) (l : List Bind) : (erase key l).Sublist l := by
  induction l with
  | nil => exact .slnil
  | cons b l ih =>
    simp only [erase]; split
    · exact List.sublist_cons_self _ _
    · exact ih.cons_cons _

theorem cellsOf_sublist {l l' : List Bind} (hs : l'.Sublist l) : (cellsOf l').Sublist (cellsOf l) := by
  induction hs with
  | slnil => exact .slnil
  | cons b _ ih => rw [cellsOf_cons]; exact (ih.cons _).cons _
  | cons_cons b _ ih => rw [cellsOf_cons, cellsOf_cons]; exact (ih.cons_cons _).cons_cons _

theorem value_none {l : List Bind} {key : Val} (h : key ∉ l.map (·.key)) : value l key = none := by
  simp only [value, Option.map_eq_none_iff, List.find?_eq_none]
  intro b hb; simp; intro e; exact h (List.mem_map.2 ⟨b, hb, e⟩)

theorem value_none_iff {l : List Bind} {key : Val} : value l key = none ↔ key ∉ l.map (·.key) := by
  refine ⟨fun h hm => ?_, value_none⟩
  obtain ⟨b, hb, e⟩ := List.mem_map.1 hm
  simp only [value, Option.map_eq_none_iff, List.find?_eq_none] at h
  exact h b hb (by simp [e])

theorem value_erase {l : List Bind} (key key' : Val) (hnd : (l.map (·.key)).Nodup) :
    value (erase key l) key' = if key' = key then none else value l key' := by
  induction l with
  | nil => simp [erase, value]
  | cons b l ih =>
    simp only [List.map_cons, List.nodup_cons] at hnd
    simp only [erase]
    by_cases hk : b.key = key
    · rw [if_pos hk]
      by_cases h' : key' = key
      · rw [if_pos h', h', ← hk]; exact value_none hnd.1
      · rw [if_neg h']
        have : ¬ b.key = key' := by rw [hk]; exact fun e => h' e.symm
        simp [value, this]
    · rw [if_neg hk]
      have ih := ih hnd.2
      by_cases h' : b.key = key'
      · have : ¬ key' = key := by rw [← h']; exact hk
        simp [value, h', this]
      · simp only [value, List.find?_cons, h', decide_false] at ih ⊢
        exact ih

theorem dropLoop_none {h : Heap} {key tail : Val} (ht : isSymbol tail) : ∀ {l : List Bind} {v prev : Val} (f : Nat),
    EnvAt h v l tail → l.length < f → value l key = none → dropLoop h key f prev v = some none := by
  intro l
  induction l with
  | nil =>
    rintro v prev f he hf _
    cases he
    obtain ⟨f, rfl⟩ := Nat.exists_eq_succ_of_ne_zero (by omega : f ≠ 0)
    cases tail <;> simp [isSymbol] at ht
    simp [dropLoop, isConsRW]
  | cons b l ih =>
    rintro v prev f ⟨rfl, h2, d, h3, h4⟩ hf hv
    simp at hf
    obtain ⟨f, rfl⟩ := Nat.exists_eq_succ_of_ne_zero (by omega : f ≠ 0)
    have hk : ¬ b.key = key := by intro hk; simp [value, hk] at hv
    simp only [dropLoop, isConsRW, if_true, car_pair h3, car_pair h2, cdr_pair h3, hk, if_false]
    exact ih f h4 (by omega) (by simpa [value, hk] using hv)

theorem dropLoop_some {h : Heap} {key tail : Val} : ∀ {l : List Bind} {v a : Val} {i : Nat} (f : Nat),
    EnvAt h v l tail → l.length < f → (cellsOf l).Nodup → i ∉ cellsOf l → (h.cells i).content = .pair a v →
    value l key ≠ none →
    ∃ h' c x d, (c = i ∨ c ∈ cellsOf l) ∧ dropLoop h key f (.ptr .cons false i) v = some (some h') ∧
      Poke h h' c x ∧ (h'.cells i).content = .pair a d ∧ EnvAt h' d (erase key l) tail := by
  intro l
  induction l with
  | nil => intro v a i f _ _ _ _ _ hv; simp [value] at hv
  | cons b l ih =>
    rintro v a i f ⟨rfl, h2, d, h3, h4⟩ hf hnd hi hci hv
    simp at hf
    obtain ⟨f, rfl⟩ := Nat.exists_eq_succ_of_ne_zero (by omega : f ≠ 0)
    rw [cellsOf_cons, List.nodup_cons, List.nodup_cons] at hnd
    obtain ⟨hn1, hn2, hn3⟩ := hnd
    rw [cellsOf_cons] at hi
    simp only [List.mem_cons, not_or] at hi hn1
    by_cases hk : b.key = key
    · have p := setCdr_poke (v := d) hci
      refine ⟨_, i, _, d, Or.inl rfl, by
        simp only [dropLoop, isConsRW, if_true, car_pair h3, car_pair h2, cdr_pair h3, hk], p, p.at_, ?_⟩
      simp only [erase, hk, if_true]
      exact envAt_congr (fun c hc => by rw [p.other c (by rintro rfl; exact hi.2.2 hc)]) h4
    · have hv' : value l key ≠ none := by simpa [value, hk] using hv
      obtain ⟨h', c, x, d', hc, e, p, hd, he⟩ := ih f h4 (by omega) hn3 hn1.2 h3 hv'
      have hci' : c ≠ i := by
        rintro rfl
        rcases hc with hc | hc
        · exact hi.1 hc
        · exact hi.2.2 hc
      have hcp : b.pair ≠ c := by
        rintro rfl
        rcases hc with hc | hc
        · exact hn1.1 hc.symm
        · exact hn2 hc
      refine ⟨h', c, x, .ptr .cons false b.spine, ?_, by
        simp only [dropLoop, isConsRW, if_true, car_pair h3, car_pair h2, cdr_pair h3, hk, if_false]; exact e, p, ?_, ?_⟩
      · rw [cellsOf_cons]
        rcases hc with rfl | hc
        · right; simp
        · right; simp [hc]
      · rw [p.other i (Ne.symm hci')]; exact hci
      · simp only [erase, hk, if_false]
        refine ⟨rfl, by rw [p.other _ hcp]; exact h2, d', hd, he⟩

end Verif.Env
