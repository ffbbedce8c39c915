import Verif.Eval.Own2

/-!
# The fundamental operations on cells
-/

namespace Verif.Eval

/-- The result of a fundamental operation; error symbols are errors, `call_fundamental`, `src/eval_cps.c:667-687`, `lbm_is_error`, `include/heap.h`. -/
def cellRes (s : St) (v : V) : PRes :=
  match v with
  | .sym n => if 0x20 ≤ n ∧ n ≤ 0x2F then .err s v else .ok s v
  | _ => .ok s v

/-- `fundamental_list`, `src/fundamental.c:688-697`. -/
def cellList (s : St) : List V → St × V
  | [] => (s, .nil)
  | x :: l => (cellList s l).1.cons x (cellList s l).2

/-- `fundamental_cons`, `fundamental_car`, `fundamental_cdr`, `fundamental_list`, `fundamental_set_car`, `fundamental_set_cdr`,
`src/fundamental.c:645-697,830-846`; and a `+` for two numbers. There is always a free cell, see `Prims`. -/
def cellPrims : Prims where
  run n args _ s :=
    match n, args with
    | 0x20000, [.atom a, .atom b] => .ok s (.atom (a + b))
    | 0x20011, [a, b] => cellRes (s.cons a b).1 (s.cons a b).2
    | 0x20012, [a] => cellRes s ((s.gcar a).getD .terror)
    | 0x20013, [a] => cellRes s ((s.gcdr a).getD .terror)
    | 0x20014, l => cellRes (cellList s l).1 (cellList s l).2
    | 0x2001C, [a, b] => cellRes (s.setCar a b) (if a.isCons then .tru else .nil)
    | 0x2001D, [a, b] => cellRes (s.setCdr a b) (if a.isCons then .tru else .nil)
    | _, _ => .err s .eerror
  eq _ a b := decide (a = b)

variable {N : Nat → Prop}

theorem cellRes_local {s s' : St} {v : V} (h : Apart N s') (hk : Kept N s s') (hv : Away N s'.next v) : PFine N s (cellRes s' v) := by
  unfold cellRes
  split
  · split
    · exact ⟨h, hk, hv⟩
    · exact ⟨h, hk, hv⟩
  · exact ⟨h, hk, hv⟩

theorem cellList_local {s : St} (h : Apart N s) : ∀ (l : List V), (∀ v ∈ l, Away N s.next v) →
    Apart N (cellList s l).1 ∧ Kept N s (cellList s l).1 ∧ Away N (cellList s l).1.next (cellList s l).2
  | [], _ => ⟨h, kept_refl _, away_sym _⟩
  | x :: l, hl => by
    obtain ⟨a1, a2, a3⟩ := cellList_local h l fun v hv => hl v (List.mem_cons_of_mem _ hv)
    obtain ⟨b1, b2, b3⟩ := a1.cons ((hl x List.mem_cons_self).up a2) a3
    exact ⟨b1, a2.trans b3, b2⟩

/-- These operations leave alone what they cannot reach. -/
theorem cellPrims_local : Local cellPrims := by
  intro N n args env s h ha _
  simp only [cellPrims]
  split
  · exact ⟨h, kept_refl _, away_atom _⟩
  · obtain ⟨a1, a2, a3⟩ := h.cons (ha _ List.mem_cons_self) (ha _ (List.mem_cons_of_mem _ List.mem_cons_self))
    exact cellRes_local a1 a3 a2
  · refine cellRes_local h (kept_refl _) ?_
    rename_i a
    cases e : s.gcar a with
    | none => exact away_sym _
    | some x => exact h.gcar (ha _ List.mem_cons_self) e
  · refine cellRes_local h (kept_refl _) ?_
    rename_i a
    cases e : s.gcdr a with
    | none => exact away_sym _
    | some x => exact h.gcdr (ha _ List.mem_cons_self) e
  · obtain ⟨a1, a2, a3⟩ := cellList_local h _ ha
    exact cellRes_local a1 a2 a3
  · obtain ⟨a1, a2⟩ := h.setCar (ha _ List.mem_cons_self) (ha _ (List.mem_cons_of_mem _ List.mem_cons_self))
    exact cellRes_local a1 a2 (by split <;> exact away_sym _)
  · obtain ⟨a1, a2⟩ := h.setCdr (ha _ List.mem_cons_self) (ha _ (List.mem_cons_of_mem _ List.mem_cons_self))
    exact cellRes_local a1 a2 (by split <;> exact away_sym _)
  · exact ⟨h, kept_refl _, away_sym _⟩

end Verif.Eval
