import Verif.Sym.Spec

namespace Verif.Sym

/-! ### Facts about the fixed table -/

/-- Aliases as a boolean. -/
def sameB (a b : Name) : Bool :=
  a == b || aliases.any fun p => (a == str p.1 && b == str p.2) || (a == str p.2 && b == str p.1)

theorem sameB_iff {a b : Name} : sameB a b = true ↔ SameSymbol a b := by
  simp [sameB, SameSymbol, List.any_eq_true]

set_option maxRecDepth 20000 in
theorem special_checks :
    (specialTable.all fun e => specialTable.all fun d => (e.1 != d.1 || e.2 == d.2) && (e.2 != d.2 || sameB e.1 d.1)) = true := by
  decide +kernel

set_option maxRecDepth 20000 in
theorem special_checks2 :
    (specialTable.all fun e => !(e.1.contains 0) && (e.2 < 0x10000 || (0x20000 ≤ e.2 && e.2 < 0x40000))) = true := by
  decide +kernel

theorem special_fn {n : Name} {i j : Nat} (h1 : (n, i) ∈ specialTable) (h2 : (n, j) ∈ specialTable) : i = j := by
  have := List.all_eq_true.1 (List.all_eq_true.1 special_checks _ h1) _ h2
  simp at this
  exact this.1

theorem special_inj {a b : Name} {i : Nat} (h1 : (a, i) ∈ specialTable) (h2 : (b, i) ∈ specialTable) : SameSymbol a b := by
  have := List.all_eq_true.1 (List.all_eq_true.1 special_checks _ h1) _ h2
  simp at this
  exact sameB_iff.1 this

theorem special_range {a : Name} {i : Nat} (h : (a, i) ∈ specialTable) : i < 0x10000 ∨ (0x20000 ≤ i ∧ i < 0x40000) := by
  have := List.all_eq_true.1 special_checks2 _ h
  simp at this
  exact this.2

theorem special_cstr {a : Name} {i : Nat} (h : (a, i) ∈ specialTable) : CStr a := by
  have := List.all_eq_true.1 special_checks2 _ h
  simp at this
  exact this.1

end Verif.Sym
