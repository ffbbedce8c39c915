import Verif.Val.Spec

namespace Verif.Val

theorem lsb_of_lt {w : Nat} {x : BitVec w} {k i : Nat} (h : x.toNat < 2 ^ k) (hi : k ≤ i) :
    x.getLsbD i = false := by
  rw [← BitVec.testBit_toNat]
  exact Nat.testBit_lt_two_pow (Nat.lt_of_lt_of_le h (Nat.pow_le_pow_right (by omega) hi))

/-! Unboxed words -/

/-- masking an encoded word with a low mask leaves the tag -/
theorem low_mask {w s : Nat} (x t m : BitVec w) (hm : m.toNat < 2 ^ s) :
    ((x <<< s) ||| t) &&& m = t &&& m := by
  apply BitVec.eq_of_getLsbD_eq
  intro i hi
  by_cases h : s ≤ i
  · simp [lsb_of_lt hm h]
  · simp [show i < s by omega]

theorem bit_hi {w s : Nat} (x t : BitVec w) (ht : t.toNat < 2 ^ s) (i : Nat) :
    ((x <<< s) ||| t).getLsbD (s + i) = (decide (s + i < w) && x.getLsbD i) := by
  rw [BitVec.getLsbD_or, lsb_of_lt ht (by omega), BitVec.getLsbD_shiftLeft]
  simp [show ¬ s + i < s by omega, show s + i - s = i by omega]

theorem shr_tag {w s : Nat} (x t : BitVec w) (ht : t.toNat < 2 ^ s) :
    (((x <<< s) ||| t) >>> s).toNat = x.toNat % 2 ^ (w - s) := by
  have : ((x <<< s) ||| t) >>> s = (x.setWidth (w - s)).setWidth w := by
    apply BitVec.eq_of_getLsbD_eq
    intro i hi
    rw [BitVec.getLsbD_ushiftRight, bit_hi x t ht, BitVec.getLsbD_setWidth, BitVec.getLsbD_setWidth]
    by_cases h : s + i < w
    · simp [h, hi, show i < w - s by omega]
    · simp [h, show ¬ i < w - s by omega]
  rw [this]
  simp only [BitVec.toNat_setWidth]
  rw [Nat.mod_eq_of_lt]
  exact Nat.lt_of_lt_of_le (Nat.mod_lt _ (Nat.two_pow_pos _)) (Nat.pow_le_pow_right (by omega) (by omega))

theorem sshr_tag {w s : Nat} (hs : s < w) (x t : BitVec w) (ht : t.toNat < 2 ^ s) :
    ((((x <<< s) ||| t)).sshiftRight s) = (x.setWidth (w - s)).signExtend w := by
  apply BitVec.eq_of_getLsbD_eq
  intro i hi
  have hmsb : ((x <<< s) ||| t).msb = x.getLsbD (w - s - 1) := by
    rw [BitVec.msb_eq_getLsbD_last, show w - 1 = s + (w - s - 1) by omega, bit_hi x t ht]
    simp only [show s + (w - s - 1) < w by omega, decide_true, Bool.true_and]
  rw [BitVec.getLsbD_sshiftRight, BitVec.getLsbD_signExtend, hmsb, bit_hi x t ht]
  have hm2 : (x.setWidth (w - s)).msb = x.getLsbD (w - s - 1) := by
    rw [BitVec.msb_eq_getLsbD_last, BitVec.getLsbD_setWidth]
    simp only [show w - s - 1 < w - s by omega, decide_true, Bool.true_and]
  rw [hm2, BitVec.getLsbD_setWidth]
  by_cases h : s + i < w
  · simp [h, hi, show i < w - s by omega]
  · simp [h, hi, show ¬ i < w - s by omega]

/-! Bits of the constants -/

theorem bits_ptrBit (b : Build) : ∀ i, i < b.w → (ptrBit b).getLsbD i = decide (i = 0) := by
  cases b <;> decide
theorem bits_ptrValMask (b : Build) : ∀ i, i < b.w →
    (ptrValMask b).getLsbD i = decide (2 ≤ i ∧ i < constShift b) := by
  cases b <;> decide
theorem bits_ptrTypeMask (b : Build) : ∀ i, i < b.w →
    (ptrTypeMask b).getLsbD i = decide (constShift b ≤ i) := by
  cases b <;> decide
theorem bits_constBit (b : Build) : ∀ i, i < b.w →
    (constBit b).getLsbD i = decide (i = constShift b) := by
  cases b <;> decide
theorem bits_gcMask (b : Build) : ∀ i, i < b.w → (gcMask b).getLsbD i = decide (i = 1) := by
  cases b <;> decide
theorem bits_tCons (b : Build) : ∀ i, i < b.w →
    (tCons b).getLsbD i = decide (i = constShift b + 2) := by
  cases b <;> decide
theorem bits_valTypeMask (b : Build) : ∀ i, i < b.w →
    (valTypeMask b).getLsbD i = decide (2 ≤ i ∧ i < valShift b) := by
  cases b <;> decide

theorem constShift_eq (b : Build) : constShift b + 6 = b.w := by cases b <;> rfl
theorem indexBits_eq (b : Build) : indexBits b + 2 = constShift b := by cases b <;> rfl
theorem payload_eq (b : Build) : payload b + valShift b = b.w := by cases b <;> rfl
theorem valShift_lt (b : Build) : 2 ≤ valShift b ∧ valShift b ≤ 8 := by cases b <;> decide
theorem addressShift_eq (b : Build) : addressShift b = 2 := by cases b <;> rfl
theorem w_ge (b : Build) : 32 ≤ b.w := by cases b <;> decide

/-- A type constant for a pointer: only type bits set. -/
def TypeBits (b : Build) (t : Word b) : Prop := t &&& ptrTypeMask b = t

theorem TypeBits.low {b : Build} {t : Word b} (h : TypeBits b t) {i : Nat} (hi : i < constShift b) :
    t.getLsbD i = false := by
  have hw := constShift_eq b
  rw [← h, BitVec.getLsbD_and, bits_ptrTypeMask b i (by omega)]
  simp [show ¬ constShift b ≤ i by omega]

theorem tag_typeBits (b : Build) (k : PtrKind) (c : Bool)
    (h : (Kind.ptr k c).exists b = true) : TypeBits b ((Kind.ptr k c).tag b) := by
  unfold TypeBits
  revert h
  cases b <;> cases k <;> cases c <;> decide

/-- The bits of a freshly encoded pointer. -/
theorem ptr_bits (b : Build) {ix : Nat} (hix : ix < 2 ^ indexBits b) {t : Word b}
    (ht : TypeBits b t) : ∀ i, i < b.w →
    (setPtrType b (encConsPtr b (BitVec.ofNat _ ix)) t).getLsbD i =
      (decide (i = 0) || (decide (2 ≤ i ∧ i < constShift b) && ix.testBit (i - 2)) ||
        (decide (constShift b ≤ i) && t.getLsbD i)) := by
  intro i hi
  have hw := constShift_eq b
  have hp := indexBits_eq b
  have hw2 := w_ge b
  have hlt : ix < 2 ^ b.w := Nat.lt_of_lt_of_le hix (Nat.pow_le_pow_right (by omega) (by omega))
  simp only [setPtrType, encConsPtr, BitVec.getLsbD_or, BitVec.getLsbD_and, BitVec.getLsbD_shiftLeft,
    addressShift_eq, bits_ptrBit b i hi, bits_ptrValMask b i hi, bits_tCons b i hi,
    BitVec.getLsbD_ofNat]
  by_cases h0 : constShift b ≤ i
  · simp [h0, show ¬ i < constShift b by omega, show i ≠ 0 by omega]
  · rw [ht.low (show i < constShift b by omega)]
    by_cases h2 : 2 ≤ i
    · simp [show i < constShift b by omega, h2, show ¬ i < 2 by omega, show i ≠ 0 by omega, hi,
        show i ≠ constShift b + 2 by omega, show i - 2 < b.w by omega, h0]
    · simp [h2, show ¬ constShift b ≤ i by omega]

theorem ptr_isPtr (b : Build) {ix : Nat} (hix : ix < 2 ^ indexBits b) {t : Word b}
    (ht : TypeBits b t) :
    (setPtrType b (encConsPtr b (BitVec.ofNat _ ix)) t) &&& ptrBit b = ptrBit b := by
  apply BitVec.eq_of_getLsbD_eq
  intro i hi
  rw [BitVec.getLsbD_and, ptr_bits b hix ht i hi, bits_ptrBit b i hi]
  by_cases h : i = 0 <;> simp [h]

theorem ptr_typeMask (b : Build) {ix : Nat} (hix : ix < 2 ^ indexBits b) {t : Word b}
    (ht : TypeBits b t) :
    (setPtrType b (encConsPtr b (BitVec.ofNat _ ix)) t) &&& ptrTypeMask b = t := by
  apply BitVec.eq_of_getLsbD_eq
  intro i hi
  have hw := constShift_eq b
  have hw2 := w_ge b
  rw [BitVec.getLsbD_and, ptr_bits b hix ht i hi, bits_ptrTypeMask b i hi]
  by_cases h : constShift b ≤ i
  · simp [h, show i ≠ 0 by omega, show ¬ i < constShift b by omega]
  · simp [h, ht.low (show i < constShift b by omega)]

theorem ptr_decPtr (b : Build) {ix : Nat} (hix : ix < 2 ^ indexBits b) {t : Word b}
    (ht : TypeBits b t) :
    decPtr b (setPtrType b (encConsPtr b (BitVec.ofNat _ ix)) t) = BitVec.ofNat _ ix := by
  apply BitVec.eq_of_getLsbD_eq
  intro i hi
  have hw := constShift_eq b
  have hp := indexBits_eq b
  simp only [decPtr, addressShift_eq, BitVec.getLsbD_ushiftRight, BitVec.getLsbD_and,
    BitVec.getLsbD_ofNat]
  by_cases h : 2 + i < b.w
  · rw [ptr_bits b hix ht _ h, bits_ptrValMask b _ h]
    by_cases h2 : 2 + i < constShift b
    · simp [h2, hi, show ¬ constShift b ≤ 2 + i by omega]
    · simp [h2]
      intro _
      exact Nat.testBit_lt_two_pow (Nat.lt_of_lt_of_le hix (Nat.pow_le_pow_right (by omega) (by omega)))
  · rw [BitVec.getLsbD_of_ge _ _ (by omega : b.w ≤ 2 + i)]
    simp [hi]
    exact Nat.testBit_lt_two_pow (Nat.lt_of_lt_of_le hix (Nat.pow_le_pow_right (by omega) (by omega)))

theorem ptr_constBit (b : Build) {ix : Nat} (hix : ix < 2 ^ indexBits b) {t : Word b}
    (ht : TypeBits b t) :
    (setPtrType b (encConsPtr b (BitVec.ofNat _ ix)) t) &&& constBit b = t &&& constBit b := by
  apply BitVec.eq_of_getLsbD_eq
  intro i hi
  have hw := constShift_eq b
  have hw2 := w_ge b
  simp only [BitVec.getLsbD_and]
  rw [ptr_bits b hix ht i hi, bits_constBit b i hi]
  by_cases h : i = constShift b
  · simp [h, show constShift b ≠ 0 by omega]
  · simp [h]

theorem ptrBit_ne (b : Build) : (ptrBit b != 0) = true := by cases b <;> decide

end Verif.Val
