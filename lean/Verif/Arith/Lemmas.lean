import Verif.Arith.Spec

namespace Verif.Arith

open Verif.Val (Build payload)

/-- Position in the documented order. -/
def idx (b : Build) (t : Ty) : Nat := (documentedOrder b).idxOf t

/-- The number of integer type `t` standing for `z` modulo its width. -/
def ofZ (b : Build) (t : Ty) (z : Int) : Num b :=
  match t with
  | .char => .char (BitVec.ofInt 8 z)
  | .i => .i (BitVec.ofInt _ z)
  | .u => .u (BitVec.ofInt _ z)
  | .i32 => .i32 (BitVec.ofInt 32 z)
  | .u32 => .u32 (BitVec.ofInt 32 z)
  | .i64 => .i64 (BitVec.ofInt 64 z)
  | .u64 => .u64 (BitVec.ofInt 64 z)
  | .float => .float 0
  | .double => .double 0

theorem toNat_ofInt' (w : Nat) (z : Int) : ((BitVec.ofInt w z).toNat : Int) = z % 2 ^ w := by
  have h : (0 : Int) ≤ z % 2 ^ w := Int.emod_nonneg _ (by have := Int.pow_pos (n := 2) (m := w) (by omega); omega)
  rw [BitVec.toNat_ofInt]
  simp only [Int.natCast_pow]
  show ((z % ((2 : Int) ^ w)).toNat : Int) = z % 2 ^ w
  omega

theorem ofZ_is {b : Build} {t : Ty} (ht : t.int = true) (z : Int) : Is (ofZ b t z) t z := by
  cases t <;> simp [Ty.int] at ht <;>
    simp only [Is, ofZ, Num.ty, Num.val, wrap, Ty.signed, Ty.bits, BitVec.toInt_ofInt,
      toNat_ofInt', if_true, Bool.false_eq_true, if_false, Int.natCast_pow, true_and] <;> rfl

theorem ofZ_ty {b : Build} (t : Ty) (z : Int) : (ofZ b t z).ty = t := by cases t <;> rfl

theorem is_unique {b : Build} {m n : Num b} {t : Ty} {z : Int} (ht : t.int = true)
    (hm : Is m t z) (hn : Is n t z) : m = n := by
  obtain ⟨h1, h2⟩ := hm
  obtain ⟨h3, h4⟩ := hn
  have hv : m.val = n.val := h2.trans h4.symm
  have hty : m.ty = n.ty := h1.trans h3.symm
  clear h2 h4
  subst h1
  cases m <;> cases n <;> simp [Num.ty] at hty <;> simp [Ty.int, Num.ty] at ht <;>
    simp only [Num.val] at hv <;> congr 1
  all_goals first
    | exact BitVec.eq_of_toInt_eq hv
    | exact BitVec.eq_of_toNat_eq (by omega)

theorem ofZ_val {b : Build} (n : Num b) (h : n.ty.int = true) : ofZ b n.ty n.val = n := by
  cases n <;> simp [Ty.int, Num.ty] at h <;> simp [ofZ, Num.ty, Num.val]

/-! ### Decoding -/

theorem ofInt_toInt_se {w v : Nat} (x : BitVec w) : x.signExtend v = BitVec.ofInt v x.toInt := rfl

theorem ofInt_toNat_sw {w v : Nat} (x : BitVec w) : x.setWidth v = BitVec.ofInt v (x.toNat : Int) := by
  rw [BitVec.ofInt_natCast]
  apply BitVec.eq_of_toNat_eq
  simp

theorem setWidth_ofInt {w v : Nat} (h : v ≤ w) (z : Int) :
    (BitVec.ofInt w z).setWidth v = BitVec.ofInt v z := by
  apply BitVec.eq_of_toNat_eq
  rw [BitVec.toNat_setWidth]
  have h1 := toNat_ofInt' w z
  have h2 := toNat_ofInt' v z
  have : (((BitVec.ofInt w z).toNat % 2 ^ v : Nat) : Int) = z % 2 ^ v := by
    push_cast
    rw [h1]
    refine Int.emod_emod_of_dvd _ ⟨2 ^ (w - v), ?_⟩
    rw [← Int.pow_add, Nat.add_sub_cancel' h]
  omega

theorem ofInt_eq_of_toInt {w : Nat} (x : BitVec w) : x = BitVec.ofInt w x.toInt := by simp

theorem ofInt_eq_of_toNat {w : Nat} (x : BitVec w) : x = BitVec.ofInt w (x.toNat : Int) := by simp

theorem setWidth_toInt {w v : Nat} (h : v ≤ w) (x : BitVec w) :
    x.setWidth v = BitVec.ofInt v x.toInt := by
  conv => lhs; rw [ofInt_eq_of_toInt x]
  exact setWidth_ofInt h _

theorem payload_le (b : Build) : payload b ≤ b.w := by cases b <;> decide
theorem le_w (b : Build) : 32 ≤ b.w := by cases b <;> decide
theorem w_le (b : Build) : b.w ≤ 64 := by cases b <;> decide
theorem le_payload (b : Build) : 8 ≤ payload b := by cases b <;> decide
theorem payload_pos (b : Build) : 0 < payload b := by cases b <;> decide

theorem decI_eq {b : Build} (x : BitVec (payload b)) : decI x = BitVec.ofInt b.w x.toInt := rfl
theorem decU_eq {b : Build} (x : BitVec (payload b)) : decU x = BitVec.ofInt b.w (x.toNat : Int) :=
  ofInt_toNat_sw x

theorem decI_toInt {b : Build} (x : BitVec (payload b)) : (decI x).toInt = x.toInt := by
  rw [decI, BitVec.toInt_signExtend_of_le (payload_le b)]
theorem decU_toNat {b : Build} (x : BitVec (payload b)) : (decU x).toNat = x.toNat := by
  rw [decU, BitVec.toNat_setWidth_of_le (payload_le b)]

section
variable {b : Build} (F : FOps)

theorem decAsChar_eq (n : Num b) (h : n.ty.int = true) :
    decAsChar F (.num n) = BitVec.ofInt 8 n.val := by
  have h8 : (8 : Nat) ≤ b.w := Nat.le_trans (by omega) (le_w b)
  cases n <;> simp [Ty.int, Num.ty] at h <;> simp only [decAsChar, Num.val]
  case char x => exact ofInt_eq_of_toNat x
  case i x => rw [decI_eq]; exact setWidth_ofInt h8 _
  case u x => rw [decU_eq]; exact setWidth_ofInt h8 _
  case i32 x => exact setWidth_toInt (by omega) x
  case u32 x => exact ofInt_toNat_sw x
  case i64 x => exact setWidth_toInt (by omega) x
  case u64 x => exact ofInt_toNat_sw x

theorem decAsU32_eq (n : Num b) (h : n.ty.int = true) :
    decAsU32 F (.num n) = BitVec.ofInt 32 n.val := by
  cases n <;> simp [Ty.int, Num.ty] at h <;> simp only [decAsU32, Num.val]
  case char x => exact ofInt_toNat_sw x
  case i x => rw [decI_eq]; exact setWidth_ofInt (le_w b) _
  case u x => rw [decU_eq]; exact setWidth_ofInt (le_w b) _
  case i32 x => exact ofInt_eq_of_toInt x
  case u32 x => exact ofInt_eq_of_toNat x
  case i64 x => exact setWidth_toInt (by omega) x
  case u64 x => exact ofInt_toNat_sw x

theorem decAsI32_eq (n : Num b) (h : n.ty.int = true) :
    decAsI32 F (.num n) = BitVec.ofInt 32 n.val := by
  cases n <;> simp [Ty.int, Num.ty] at h <;> simp only [decAsI32, Num.val]
  case char x => exact ofInt_toNat_sw x
  case i x => rw [decI_eq]; exact setWidth_ofInt (le_w b) _
  case u x => rw [decU_eq]; exact setWidth_ofInt (le_w b) _
  case i32 x => exact ofInt_eq_of_toInt x
  case u32 x => exact ofInt_eq_of_toNat x
  case i64 x => exact setWidth_toInt (by omega) x
  case u64 x => exact ofInt_toNat_sw x

theorem decAsI64_eq (n : Num b) (h : n.ty.int = true) :
    decAsI64 F (.num n) = BitVec.ofInt 64 n.val := by
  cases n <;> simp [Ty.int, Num.ty] at h <;> simp only [decAsI64, Num.val]
  case char x => exact ofInt_toNat_sw x
  case i x => rw [ofInt_toInt_se, decI_toInt]
  case u x => rw [ofInt_toNat_sw, decU_toNat]
  case i32 x => rfl
  case u32 x => exact ofInt_toNat_sw x
  case i64 x => exact ofInt_eq_of_toInt x
  case u64 x => exact ofInt_eq_of_toNat x

theorem decAsU64_eq (n : Num b) (h : n.ty.int = true) :
    decAsU64 F (.num n) = BitVec.ofInt 64 n.val := by
  cases n <;> simp [Ty.int, Num.ty] at h <;> simp only [decAsU64, Num.val]
  case char x => exact ofInt_toNat_sw x
  case i x => rw [ofInt_toInt_se, decI_toInt]
  case u x => rw [ofInt_toNat_sw, decU_toNat]
  case i32 x => rfl
  case u32 x => exact ofInt_toNat_sw x
  case i64 x => exact ofInt_eq_of_toInt x
  case u64 x => exact ofInt_eq_of_toNat x

theorem decAsIW_eq (n : Num b) (h : n.ty.int = true) :
    decAsIW F (.num n) = BitVec.ofInt b.w n.val := by
  cases b
  · exact decAsI32_eq F n h
  · exact decAsI64_eq F n h

theorem decAsUW_eq (n : Num b) (h : n.ty.int = true) :
    decAsUW F (.num n) = BitVec.ofInt b.w n.val := by
  cases b
  · exact decAsU32_eq F n h
  · exact decAsU64_eq F n h

theorem decCharRaw_eq (n : Num b) (h : n.ty = .char) :
    decCharRaw (.num n) = BitVec.ofInt 8 n.val := by
  cases n <;> simp [Num.ty] at h
  exact ofInt_eq_of_toNat _

theorem encI_ofInt (z : Int) : encI (b := b) (BitVec.ofInt b.w z) = ofZ b .i z := by
  simp only [encI, ofZ]; rw [setWidth_ofInt (payload_le b)]
theorem encU_ofInt (z : Int) : encU (b := b) (BitVec.ofInt b.w z) = ofZ b .u z := by
  simp only [encU, ofZ]; rw [setWidth_ofInt (payload_le b)]

theorem enc_ok (n : Num b) : enc true n = .num n := by simp [enc]

/-! ### Promotion -/

theorem tag_lt_iff (b : Build) (s t : Ty) (hs : s.int = true) (ht : t.int = true) :
    s.tag b < t.tag b ↔ idx b s < idx b t := by
  revert s t; cases b <;> intro s t <;> cases s <;> cases t <;> decide

theorem tag_ne_float (b : Build) (t : Ty) (ht : t.int = true) : ¬ t.tag b = Ty.float.tag b := by
  cases b <;> revert t <;> intro t <;> cases t <;> decide

theorem bigger_def (b : Build) (s t : Ty) : bigger b s t = if idx b s < idx b t then t else s := rfl

theorem bigger_int {b : Build} {s t : Ty} (hs : s.int = true) (ht : t.int = true) :
    (bigger b s t).int = true := by
  rw [bigger_def]; split <;> assumption

theorem idx_inj (b : Build) (s t : Ty) (h : idx b s = idx b t) : s = t := by
  cases b <;> cases s <;> cases t <;> first | rfl | (exact absurd h (by decide))

theorem promoteSwap_int (x y : Num b) (hx : x.ty.int = true) (hy : y.ty.int = true) :
    promoteSwap (.num x) (.num y) =
      if idx b x.ty < idx b y.ty then (.num y, .num x) else (.num x, .num y) := by
  cases b
  · simp only [promoteSwap, V.tag, tag_lt_iff .b32 _ _ hx hy]
  · have h1 := tag_ne_float .b64 _ hx
    have h2 := tag_ne_float .b64 _ hy
    simp only [promoteSwap, V.tag, h2, false_and, if_false, h1, tag_lt_iff .b64 _ _ hx hy]

theorem promote_int (s t : Ty) (hs : s.int = true) (ht : t.int = true) :
    promote (b := b) s t = bigger b s t := by
  rw [bigger_def]
  cases b
  · simp only [promote, tag_lt_iff .b32 _ _ hs ht]
  · simp only [promote, tag_ne_float .b64 _ ht, if_false, tag_lt_iff .b64 _ _ hs ht]

theorem idx_char (b : Build) (t : Ty) (h : idx b t ≤ idx b .char) : t = .char := by
  cases b <;> cases t <;> first | rfl | (exact absurd h (by decide))

/-! ### Ranges -/

theorem val_range (n : Num b) (h : n.ty.int = true) : InRange b n.ty n.val := by
  cases n <;> simp [Ty.int, Num.ty] at h <;>
    simp only [InRange, Num.ty, Num.val, Ty.signed, Ty.bits, if_true, Bool.false_eq_true, if_false]
  case char x => have := x.isLt; omega
  case i x =>
    have h1 := BitVec.le_toInt x
    have h2 := BitVec.toInt_lt (x := x)
    cases b <;> simp only [payload] at * <;> omega
  case u x => have := x.isLt; cases b <;> simp only [payload] at * <;> omega
  case i32 x => have h1 := BitVec.le_toInt x; have h2 := BitVec.toInt_lt (x := x); simp at *; omega
  case u32 x => have := x.isLt; omega
  case i64 x => have h1 := BitVec.le_toInt x; have h2 := BitVec.toInt_lt (x := x); simp at *; omega
  case u64 x => have := x.isLt; omega

/-- Integers that C's signed arithmetic at type `t` can hold. -/
def CFits (b : Build) (t : Ty) (z : Int) : Prop :=
  -(2 ^ (cBits b t - 1)) ≤ z ∧ z < 2 ^ (cBits b t - 1)

/-- Every smaller type embeds in a signed type. -/
theorem fits_signed (s t : Ty) (z : Int) (hs : s.int = true) (ht : t.signed = true)
    (hi : idx b s ≤ idx b t) (hz : InRange b s z) : CFits b t z := by
  cases b <;> cases t <;> simp [Ty.signed] at ht <;> cases s <;> simp [Ty.int] at hs <;>
    first
    | (exact absurd hi (by decide))
    | (simp [InRange, Ty.signed, Ty.bits, payload, CFits, cBits] at *; omega)

theorem toInt_ofInt_fits {w : Nat} {z : Int} (hw : 0 < w) (h1 : -(2 ^ (w - 1)) ≤ z)
    (h2 : z < 2 ^ (w - 1)) : (BitVec.ofInt w z).toInt = z := by
  rw [BitVec.toInt_ofInt]
  have h3 : (2 : Int) ^ w = 2 * 2 ^ (w - 1) := by
    conv => lhs; rw [show w = (w - 1) + 1 by omega]
    rw [Int.pow_succ]; omega
  have e : ((2 ^ w : Nat) : Int) = 2 * 2 ^ (w - 1) := by simpa using h3
  apply Int.bmod_eq_of_le
  · rw [e]; omega
  · rw [e]; omega

theorem sadd_ofInt {w : Nat} (wrapv : Bool) (x y : Int)
    (h : wrapv = true ∨ (0 < w ∧ (-(2 ^ (w - 1)) ≤ x ∧ x < 2 ^ (w - 1)) ∧
      (-(2 ^ (w - 1)) ≤ y ∧ y < 2 ^ (w - 1)) ∧ -(2 ^ (w - 1)) ≤ x + y ∧ x + y < 2 ^ (w - 1))) :
    sadd wrapv (BitVec.ofInt w x) (BitVec.ofInt w y) = some (BitVec.ofInt w (x + y)) := by
  rw [sadd, if_neg, BitVec.ofInt_add]
  rintro ⟨h1, h2⟩
  rcases h with h | ⟨hw, hx, hy, h3, h4⟩
  · simp [h] at h1
  · rw [BitVec.saddOverflow, toInt_ofInt_fits hw hx.1 hx.2, toInt_ofInt_fits hw hy.1 hy.2] at h2
    simp at h2
    omega

theorem ssub_ofInt {w : Nat} (wrapv : Bool) (x y : Int)
    (h : wrapv = true ∨ (0 < w ∧ (-(2 ^ (w - 1)) ≤ x ∧ x < 2 ^ (w - 1)) ∧
      (-(2 ^ (w - 1)) ≤ y ∧ y < 2 ^ (w - 1)) ∧ -(2 ^ (w - 1)) ≤ x - y ∧ x - y < 2 ^ (w - 1))) :
    ssub wrapv (BitVec.ofInt w x) (BitVec.ofInt w y) = some (BitVec.ofInt w (x - y)) := by
  rw [ssub, if_neg]
  · congr 1
    rw [BitVec.sub_eq_add_neg, Int.sub_eq_add_neg, BitVec.ofInt_add, BitVec.ofInt_neg]
  rintro ⟨h1, h2⟩
  rcases h with h | ⟨hw, hx, hy, h3, h4⟩
  · simp [h] at h1
  · rw [BitVec.ssubOverflow, toInt_ofInt_fits hw hx.1 hx.2, toInt_ofInt_fits hw hy.1 hy.2] at h2
    simp at h2
    omega

theorem smul_ofInt {w : Nat} (wrapv : Bool) (x y : Int)
    (h : wrapv = true ∨ (0 < w ∧ (-(2 ^ (w - 1)) ≤ x ∧ x < 2 ^ (w - 1)) ∧
      (-(2 ^ (w - 1)) ≤ y ∧ y < 2 ^ (w - 1)) ∧ -(2 ^ (w - 1)) ≤ x * y ∧ x * y < 2 ^ (w - 1))) :
    smul wrapv (BitVec.ofInt w x) (BitVec.ofInt w y) = some (BitVec.ofInt w (x * y)) := by
  rw [smul, if_neg, BitVec.ofInt_mul]
  rintro ⟨h1, h2⟩
  rcases h with h | ⟨hw, hx, hy, h3, h4⟩
  · simp [h] at h1
  · rw [BitVec.smulOverflow, toInt_ofInt_fits hw hx.1 hx.2, toInt_ofInt_fits hw hy.1 hy.2] at h2
    simp at h2
    omega

end

end Verif.Arith
