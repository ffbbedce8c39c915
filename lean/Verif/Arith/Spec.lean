import Verif.Arith.Model

/-!
# Specification vocabulary for numbers

Numbers as integers.  Nothing here refers to how the operations compute.
-/

namespace Verif.Arith

open Verif.Val (Build payload)

/-- Is it an integer type? -/
def Ty.int : Ty → Bool
  | .float | .double => false
  | _ => true

/-- Is it a signed integer type? -/
def Ty.signed : Ty → Bool
  | .i | .i32 | .i64 => true
  | _ => false

/-- The number of bits of a type. -/
def Ty.bits (b : Build) : Ty → Nat
  | .char => 8
  | .i | .u => payload b
  | .i32 | .u32 | .float => 32
  | .i64 | .u64 | .double => 64

/-- The documented promotion order, smallest first (the comment at the head of
src/fundamental.c). -/
def documentedOrder : Build → List Ty
  | .b32 => [.char, .i, .u, .i32, .u32, .i64, .u64, .float, .double]
  | .b64 => [.char, .i32, .u32, .i, .u, .i64, .u64, .float, .double]

/-- The larger of two types in the documented order. -/
def bigger (b : Build) (s t : Ty) : Ty :=
  if (documentedOrder b).idxOf s < (documentedOrder b).idxOf t then t else s

/-- The integer a number of an integer type stands for (0 for floats). -/
def Num.val {b : Build} : Num b → Int
  | .char x => x.toNat
  | .i x => x.toInt
  | .u x => x.toNat
  | .i32 x => x.toInt
  | .u32 x => x.toNat
  | .i64 x => x.toInt
  | .u64 x => x.toNat
  | .float _ => 0
  | .double _ => 0

/-- Reduce an integer to the range of an integer type: the representative modulo
`2 ^ bits` in `0 … 2^bits - 1` or `-2^(bits-1) … 2^(bits-1) - 1`. -/
def wrap (b : Build) (t : Ty) (z : Int) : Int :=
  if t.signed then Int.bmod z (2 ^ t.bits b) else z % 2 ^ t.bits b

/-- Is the integer in the range of the type? -/
def InRange (b : Build) (t : Ty) (z : Int) : Prop :=
  if t.signed then -(2 ^ (t.bits b - 1)) ≤ z ∧ z < 2 ^ (t.bits b - 1)
  else 0 ≤ z ∧ z < 2 ^ t.bits b

instance (b : Build) (t : Ty) (z : Int) : Decidable (InRange b t z) := by
  unfold InRange; infer_instance

/-- `Is n t z`: `n` is the number of integer type `t` that stands for `z`
reduced to the range of `t`. -/
def Is {b : Build} (n : Num b) (t : Ty) (z : Int) : Prop :=
  n.ty = t ∧ n.val = wrap b t z

/-- The widths in which C computes at a type: the word for `i`, the type's own
width otherwise. -/
def cBits (b : Build) : Ty → Nat
  | .i => b.w
  | t => t.bits b

/-- C's signed arithmetic at type `t` does not overflow on the exact result `z`
(unsigned arithmetic never does). -/
def NoOverflow (b : Build) (t : Ty) (z : Int) : Prop :=
  t.signed = true → -(2 ^ (cBits b t - 1)) ≤ z ∧ z < 2 ^ (cBits b t - 1)

/-- The integers behind a list of arguments. -/
def vals {b : Build} (ns : List (Num b)) : List Int := ns.map Num.val

/-- The largest type of a list of arguments, at least `t`. -/
def biggest (b : Build) (t : Ty) (ns : List (Num b)) : Ty :=
  ns.foldl (fun s n => bigger b s n.ty) t

end Verif.Arith
