import Verif.Buf.F32
import Verif.Buf.Spec

/-!
# Specification vocabulary for `f32` elements: IEEE 754 binary32
-/

namespace Verif.Buf

/-- The exponent field of a pattern. -/
def expo (x : BitVec 32) : Nat := x.toNat / 2 ^ 23 % 256

/-- The fraction field of a pattern. -/
def frac (x : BitVec 32) : Nat := x.toNat % 2 ^ 23

/-- Neither an infinity nor a NaN. -/
def Finite (x : BitVec 32) : Prop := expo x ≠ 255

instance (x : BitVec 32) : Decidable (Finite x) := inferInstanceAs (Decidable (_ ≠ _))

/-- The absolute value of a finite number, times 2^149. -/
def absVal (x : BitVec 32) : Nat := if expo x = 0 then frac x else (2 ^ 23 + frac x) * 2 ^ (expo x - 1)

/-- The absolute value is less than 1.5e-38: `absVal x * 2^-149 < 15 * 10^-39`. -/
def Small (x : BitVec 32) : Prop := absVal x * 10 ^ 39 < 15 * 2 ^ 149

instance (x : BitVec 32) : Decidable (Small x) := inferInstanceAs (Decidable (_ < _))

/-- A subnormal number: not zero, and less than the smallest normal number. -/
def Subnormal (x : BitVec 32) : Prop := expo x = 0 ∧ frac x ≠ 0

/-- A NaN. -/
def IsNaN (x : BitVec 32) : Prop := expo x = 255 ∧ frac x ≠ 0

/-- An infinity. -/
def IsInf (x : BitVec 32) : Prop := expo x = 255 ∧ frac x = 0

end Verif.Buf
