import Verif.Rand.Model

/-!
# What random numbers should be like
-/

namespace Verif.Rand

open Verif.Val (Build payload)
open Verif.Arith (V Num FOps)

/-- The number that a call of `random` gives, of type u. -/
def number {b : Build} : V b → Option Nat
  | .num (.u x) => some x.toNat
  | _ => none

/-- `f i` is the result of call number `i` of `random` in a device whose seed is `s`, with no other calls in between. -/
def Sequence {b : Build} (F : FOps) (s : BitVec b.w) (f : Nat → Nat) : Prop :=
  ∀ k (cs : List (List (V b))), cs.length = k → (calls F s (cs.map .random)).1.map number = (List.range k).map (fun i => some (f i))

end Verif.Rand
