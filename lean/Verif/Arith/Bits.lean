import Verif.Arith.Div

namespace Verif.Arith

open Verif.Val (Build payload)

/-- Bit `i` of an integer in two's complement. -/
def bitOf (z : Int) (i : Nat) : Bool := decide (z / 2 ^ i % 2 = 1)

theorem bitOf_emod (z : Int) {i w : Nat} (h : i < w) : bitOf (z % 2 ^ w) i = bitOf z i := by
  have e : (2 : Int) ^ w = 2 ^ i * (2 * 2 ^ (w - i - 1)) := by
    rw [← Int.mul_assoc, ← Int.pow_succ, ← Int.pow_add]; congr 1; omega
  have hp := pow_pos' i
  have key : z % 2 ^ w / 2 ^ i = z / 2 ^ i - 2 * (2 ^ (w - i - 1) * (z / 2 ^ w)) := by
    rw [Int.emod_def]
    rw [show z - 2 ^ w * (z / 2 ^ w) = z + 2 ^ i * (-(2 * (2 ^ (w - i - 1) * (z / 2 ^ w)))) by
      generalize z / 2 ^ w = q
      rw [e]
      simp only [Int.mul_assoc, Int.mul_neg]; omega]
    rw [Int.add_mul_ediv_left _ _ (by omega)]; omega
  simp only [bitOf, key]
  congr 1
  apply propext
  omega

theorem bitOf_wrap {b : Build} (t : Ty) (z : Int) {i : Nat} (h : i < t.bits b) :
    bitOf (wrap b t z) i = bitOf z i := by
  rw [← bitOf_emod (wrap b t z) h, wrap_mod, bitOf_emod z h]

theorem bitOf_natCast (n i : Nat) : bitOf (n : Int) i = n.testBit i := by
  have e : ((n : Int) / 2 ^ i % 2) = ((n / 2 ^ i % 2 : Nat) : Int) := by push_cast; rfl
  rw [bitOf, e, Nat.testBit_eq_decide_div_mod_eq]
  congr 1
  apply propext
  omega

theorem getLsbD_ofInt' {w : Nat} (z : Int) {i : Nat} (h : i < w) :
    (BitVec.ofInt w z).getLsbD i = bitOf z i := by
  rw [← bitOf_emod z h, ← toNat_ofInt' w z, bitOf_natCast]
  rfl

/-- The bits of a number of integer type. -/
theorem bitOf_val {b : Build} (t : Ty) (z : Int) (ht : t.int = true) {i : Nat} (h : i < t.bits b) :
    bitOf (ofZ b t z).val i = bitOf z i := by
  rw [(ofZ_is ht z).2]; exact bitOf_wrap t z h

theorem bitOf_toInt {w : Nat} (x : BitVec w) {i : Nat} (h : i < w) :
    bitOf x.toInt i = x.getLsbD i := by
  rw [← getLsbD_ofInt' _ h, BitVec.ofInt_toInt]

theorem bitOf_toNat {w : Nat} (x : BitVec w) (i : Nat) : bitOf (x.toNat : Int) i = x.getLsbD i := by
  rw [bitOf_natCast]; rfl

/-- The Boolean operation behind a bit operation. -/
def BitOp.bool : BitOp → Bool → Bool → Bool
  | .and => (· && ·)
  | .or => (· || ·)
  | .xor => Bool.xor

theorem BitOp.ap_bit {w : Nat} (o : BitOp) (x y : BitVec w) (i : Nat) :
    (o.ap x y).getLsbD i = o.bool (x.getLsbD i) (y.getLsbD i) := by
  cases o <;> simp [BitOp.ap, BitOp.bool]

theorem bits_le_w {b : Build} {i : Nat} (h : i < payload b) : i < b.w :=
  Nat.lt_of_lt_of_le h (payload_le b)

theorem ofInt_shl {w : Nat} (z : Int) (n : Nat) : BitVec.ofInt w z <<< n = BitVec.ofInt w (z * 2 ^ n) := by
  rw [BitVec.ofInt_mul, BitVec.shiftLeft_eq_mul_twoPow]
  congr 1
  apply BitVec.eq_of_toNat_eq
  have h := toNat_ofInt' w (2 ^ n)
  rw [BitVec.toNat_twoPow]
  have : ((2 ^ n % 2 ^ w : Nat) : Int) = 2 ^ n % 2 ^ w := by push_cast; rfl
  omega

end Verif.Arith
