import Verif.Arith.Model

/-!
# The random number extensions

Model of `src/extensions/random_extensions.c`, for both builds. Numbers are those of `Verif.Arith`.
-/

namespace Verif.Rand

open Verif.Val (Build payload)
open Verif.Arith (V Num FOps)

/-- `M`, `A` and `C` (`src/extensions/random_extensions.c:21-23`). -/
def cM : Nat := 268435183
def cA : Nat := 268435043
def cC : Nat := 268434949

/-- The initial value of `random_seed` (`src/extensions/random_extensions.c:26`). -/
def seed0 (b : Build) : BitVec b.w := BitVec.ofNat b.w 177739

/-- `ext_seed` (`src/extensions/random_extensions.c:28-34`): result and new `random_seed`. -/
def extSeed {b : Build} (F : FOps) (st : BitVec b.w) : List (V b) → V b × BitVec b.w
  | [v] => if v.isNumber then (.sym Arith.symTRUE, (Arith.decAsU32 F v).setWidth b.w) else (.sym Arith.symEERROR, st)
  | _ => (.sym Arith.symEERROR, st)

/-- `ext_random` (`src/extensions/random_extensions.c:36-41`): the constants are of type int and are converted to `lbm_uint`, in which the calculation is done. -/
def extRandom {b : Build} (st : BitVec b.w) : V b × BitVec b.w :=
  let st' := (BitVec.ofNat b.w cA * st + BitVec.ofNat b.w cC) % BitVec.ofNat b.w cM
  (.num (Arith.encU st'), st')

/-- A call of one of the extensions. -/
inductive Call (b : Build) where
  | seed (args : List (V b))
  | random (args : List (V b))

/-- One call. -/
def call {b : Build} (F : FOps) (st : BitVec b.w) : Call b → V b × BitVec b.w
  | .seed args => extSeed F st args
  | .random _ => extRandom st

/-- A history of calls: the results and the last state. -/
def calls {b : Build} (F : FOps) : BitVec b.w → List (Call b) → List (V b) × BitVec b.w
  | st, [] => ([], st)
  | st, c :: cs =>
    let (v, st') := call F st c
    let (vs, st'') := calls F st' cs
    (v :: vs, st'')

end Verif.Rand
