import Verif.Heap.Model

/-!
# `set-car` and `set-cdr` (C131)
-/

namespace Verif.Heap

/-- `lbm_set_car_and_cdr`, `src/heap.c:1050-1059`. -/
def setCarAndCdr (h : Heap) (c a d : Val) : Heap × Bool :=
  match c with
  | .ptr .cons false i =>
    match (h.cells i).content with
    | .pair _ _ => (h.setCell i { h.cells i with content := .pair a d }, true)
    | _ => (h, true)
  | _ => (h, false)

/-- A call of one of the functions that change a pair. -/
inductive SetOp where
  | car (c v : Val)
  | cdr (c v : Val)
  | both (c a d : Val)

/-- The pair that is to be changed. -/
def SetOp.target : SetOp → Val
  | .car c _ => c
  | .cdr c _ => c
  | .both c _ _ => c

/-- `fundamental_set_car`, `src/fundamental.c:830-837`; `fundamental_set_cdr`, `src/fundamental.c:839-846`, with two arguments; the answer is `true` or `nil`. -/
def setOp (h : Heap) : SetOp → Heap × Bool
  | .car c v => setCar h c v
  | .cdr c v => setCdr h c v
  | .both c a d => setCarAndCdr h c a d

/-- Several calls, one after the other, with their answers. -/
def setOps (h : Heap) : List SetOp → Heap × List Bool
  | [] => (h, [])
  | o :: os => ((setOps (setOp h o).1 os).1, (setOp h o).2 :: (setOps (setOp h o).1 os).2)

/-! ## Specification -/

/-- The value is a pair that can be written: a cell of the heap in RAM. -/
def writable : Val → Option Nat
  | .ptr .cons false i => some i
  | _ => none

/-- The field of pair `i` after some calls: the value given last, or the one from before. -/
def carAfter (i : Nat) (before : Val) : List SetOp → Val
  | [] => before
  | .car c v :: os => carAfter i (if writable c = some i then v else before) os
  | .cdr _ _ :: os => carAfter i before os
  | .both c v _ :: os => carAfter i (if writable c = some i then v else before) os

def cdrAfter (i : Nat) (before : Val) : List SetOp → Val
  | [] => before
  | .car _ _ :: os => cdrAfter i before os
  | .cdr c v :: os => cdrAfter i (if writable c = some i then v else before) os
  | .both c _ v :: os => cdrAfter i (if writable c = some i then v else before) os

/-- All pairs that are to be changed are pairs. -/
def Targets (h : Heap) (os : List SetOp) : Prop := ∀ o ∈ os, ∀ i, writable o.target = some i → ∃ a d, (h.cells i).content = .pair a d

/-! ## Proofs -/

theorem writable_cases (c : Val) : (∃ i, c = .ptr .cons false i) ∨ writable c = none := by
  rcases c with _ | _ | ⟨t, k, i⟩ | _
  · exact Or.inr rfl
  · exact Or.inr rfl
  · cases t <;> cases k <;> first | exact Or.inr rfl | exact Or.inl ⟨i, rfl⟩
  · exact Or.inr rfl

theorem setOp_refused (h : Heap) (o : SetOp) (ho : writable o.target = none) : setOp h o = (h, false) := by
  cases o <;> simp only [SetOp.target] at ho <;> simp only [setOp, setCar, setCdr, setCarAndCdr] <;> split <;>
    first | rfl | (exfalso; simp [writable] at ho)

theorem setOp_write (h : Heap) (o : SetOp) (i : Nat) (a d : Val) (ho : writable o.target = some i) (hp : (h.cells i).content = .pair a d) :
    setOp h o = (h.setCell i { h.cells i with content := .pair (carAfter i a [o]) (cdrAfter i d [o]) }, true) := by
  have hc : o.target = .ptr .cons false i := by
    rcases writable_cases o.target with ⟨j, hj⟩ | hn
    · rw [hj] at ho; cases ho; exact hj
    · rw [hn] at ho; cases ho
  cases o <;> simp only [SetOp.target] at hc <;> subst hc <;> simp [setOp, setCar, setCdr, setCarAndCdr, hp, carAfter, cdrAfter, writable]

theorem carAfter_cons (i : Nat) (b : Val) (o : SetOp) (os : List SetOp) : carAfter i b (o :: os) = carAfter i (carAfter i b [o]) os := by
  cases o <;> simp [carAfter]

theorem cdrAfter_cons (i : Nat) (b : Val) (o : SetOp) (os : List SetOp) : cdrAfter i b (o :: os) = cdrAfter i (cdrAfter i b [o]) os := by
  cases o <;> simp [cdrAfter]

theorem after_other (i : Nat) (a d : Val) (o : SetOp) (ho : writable o.target ≠ some i) : carAfter i a [o] = a ∧ cdrAfter i d [o] = d := by
  cases o <;> simp only [SetOp.target] at ho <;> simp [carAfter, cdrAfter, ho]

/-- C131: after any sequence of calls, each field of each pair holds the value that was given last for this field of this pair, or the value from before;
the answer is true exactly for the pairs in RAM; and nothing else changes: no cell that is not a target, no constant cell, not the free list. -/
theorem C131_set (h : Heap) (os : List SetOp) (ht : Targets h os) :
    (setOps h os).2 = os.map (fun o => (writable o.target).isSome) ∧
    (∀ i a d, (h.cells i).content = .pair a d → ((setOps h os).1.cells i).content = .pair (carAfter i a os) (cdrAfter i d os)) ∧
    (∀ i, (∀ o ∈ os, writable o.target ≠ some i) → (setOps h os).1.cells i = h.cells i) ∧
    (∀ i, ((setOps h os).1.cells i).mark = (h.cells i).mark) ∧
    (setOps h os).1 = { h with cells := (setOps h os).1.cells } := by
  induction os generalizing h with
  | nil => exact ⟨rfl, fun i a d hp => hp, fun _ _ => rfl, fun _ => rfl, rfl⟩
  | cons o os ih =>
    simp only [setOps]
    rcases hw : writable o.target with _ | j
    · rw [setOp_refused h o hw]
      obtain ⟨h1, h2, h3, h4, h5⟩ := ih h (fun o' ho' => ht o' (by simp [ho']))
      refine ⟨by simp [h1, hw], ?_, fun i hi => h3 i (fun o' ho' => hi o' (by simp [ho'])), h4, h5⟩
      intro i a d hp
      rw [carAfter_cons, cdrAfter_cons, (after_other i a d o (by rw [hw]; simp)).1, (after_other i a d o (by rw [hw]; simp)).2]
      exact h2 i a d hp
    · obtain ⟨a0, d0, hp0⟩ := ht o (by simp) j hw
      rw [setOp_write h o j a0 d0 hw hp0]
      simp only
      generalize hh : h.setCell j { h.cells j with content := .pair (carAfter j a0 [o]) (cdrAfter j d0 [o]) } = h'
      have hcells : ∀ i, h'.cells i = if i = j then { h.cells j with content := .pair (carAfter j a0 [o]) (cdrAfter j d0 [o]) } else h.cells i := by
        intro i; rw [← hh]; rfl
      have hrest : h' = { h with cells := h'.cells } := by rw [← hh]; rfl
      have hpair : ∀ i a d, (h.cells i).content = .pair a d → (h'.cells i).content = .pair (carAfter i a [o]) (cdrAfter i d [o]) := by
        intro i a d hp
        rw [hcells]
        by_cases hij : i = j
        · subst hij
          rw [if_pos rfl]
          rw [hp0] at hp
          cases hp
          rfl
        · rw [if_neg hij, (after_other i a d o (by rw [hw]; simpa using fun h => hij h.symm)).1, (after_other i a d o (by rw [hw]; simpa using fun h => hij h.symm)).2, hp]
      have ht' : Targets h' os := by
        intro o' ho' i hi
        obtain ⟨a, d, hp⟩ := ht o' (by simp [ho']) i hi
        exact ⟨_, _, hpair i a d hp⟩
      obtain ⟨h1, h2, h3, h4, h5⟩ := ih h' ht'
      refine ⟨by simp [h1, hw], ?_, ?_, ?_, ?_⟩
      · intro i a d hp
        rw [carAfter_cons, cdrAfter_cons]
        exact h2 i _ _ (hpair i a d hp)
      · intro i hi
        rw [h3 i (fun o' ho' => hi o' (by simp [ho'])), hcells, if_neg]
        intro hij
        exact hi o (by simp) (by rw [hw, hij])
      · intro i
        rw [h4 i, hcells]
        split
        · rename_i hij; subst hij; rfl
        · rfl
      · rw [h5, hrest]

example : Targets (init 4 16) [.car (.ptr .cons false 1) (.sym 5), .cdr (.ptr .cons false 1) nil, .car (.ptr .cons true 1) nil, .car nil nil] ∧
    ((setOps (init 4 16) [.car (.ptr .cons false 1) (.sym 5), .cdr (.ptr .cons false 1) nil, .car (.ptr .cons true 1) nil, .car nil nil]).1.cells 1).content = .pair (.sym 5) nil := by
  refine ⟨?_, by decide +kernel⟩
  intro o ho i hi
  simp only [List.mem_cons, List.not_mem_nil, or_false] at ho
  rcases ho with rfl | rfl | rfl | rfl <;> cases hi <;> exact ⟨_, _, rfl⟩

end Verif.Heap
