import Verif.Set.Model
import Verif.Lists.Spec
import Verif.Eq.Spec

/-!
# Sets as lists of trees

A set is a list of values; two values are the same element if `eq` says so.
-/

namespace Verif.Set
open Verif.Heap Verif.Lists

/-- The heap without the free cells. -/
def used (M : Mem) (h : Heap) (fl : List Nat) : Eq.Heap := fun k ix => if k = false ∧ ix ∈ fl then .other else view M h k ix

/-- The value `v` is the tree `t`, and none of its cells is free. -/
def Shows (M : Mem) (h : Heap) (fl : List Nat) (v : Val) (t : Eq.T) : Prop := Eq.Rep (used M h fl) (tr v) t

/-- The value `v` is a list of the trees `ts`, and none of its cells is free. -/
def Holds (M : Mem) (h : Heap) (fl : List Nat) (v : Val) (ts : List Eq.T) : Prop := ∃ l : List (Val × Eq.T), LiveList h fl v (l.map (·.1)) ∧ (∀ p ∈ l, Shows M h fl p.1 p.2) ∧ l.map (·.2) = ts

/-- Everything that `h` shows is still there in `h'`. -/
def Keeps (M : Mem) (h : Heap) (fl : List Nat) (h' : Heap) (fl' : List Nat) : Prop :=
  (∀ v t, Shows M h fl v t → Shows M h' fl' v t) ∧ ∀ v ts, Holds M h fl v ts → Holds M h' fl' v ts

/-- `t` is an element. -/
def Has (F : Eq.Flt) (ts : List Eq.T) (t : Eq.T) : Prop := ∃ s ∈ ts, Eq.same F s t = true

/-- No element occurs twice. -/
def Distinct (F : Eq.Flt) (ts : List Eq.T) : Prop := ts.Pairwise fun s t => Eq.same F s t = false

end Verif.Set
