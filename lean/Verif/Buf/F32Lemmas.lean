import Verif.Buf.F32
import Verif.Buf.Props

/-!
# Lemmas about `f32` elements
-/

namespace Verif.Buf

open Verif.Val (Build payload)
open Verif.Arith (Num V FOps decAsU32 decAsFloat symTRUE symTERROR symEERROR)

theorem rne_exact {m b : Nat} (hb : 0 < b) : rne (m * b) b = m := by
  simp only [rne, Nat.mul_mod_left, Nat.mul_zero, hb, if_true, Nat.mul_div_cancel _ hb]

theorem log2_scaled {m j : Nat} (h1 : 2 ^ 23 ≤ m) (h2 : m < 2 ^ 24) : Nat.log2 (m * 2 ^ j) = 23 + j := by
  have h0 : m * 2 ^ j ≠ 0 := Nat.mul_ne_zero (by omega) (Nat.ne_of_gt (Nat.two_pow_pos j))
  have hp := Nat.two_pow_pos j
  apply Nat.le_antisymm
  · have : Nat.log2 (m * 2 ^ j) < 24 + j := by
      rw [Nat.log2_lt h0, Nat.pow_add]
      exact Nat.mul_lt_mul_of_pos_right h2 hp
    omega
  · rw [Nat.le_log2 h0, Nat.pow_add]
    exact Nat.mul_le_mul_right _ h1

theorem toBits_exact {m j b : Nat} (h2 : m < 2 ^ 24) (h1 : 2 ^ 23 ≤ m ∨ j = 0) (hj : j ≤ 253) (hb : 0 < b) : toBits (m * 2 ^ j * b) b = j * 2 ^ 23 + m := by
  have key : (if Nat.log2 (m * 2 ^ j) ≤ 23 then rne (m * 2 ^ j * b) b
      else (Nat.log2 (m * 2 ^ j) - 23) * 2 ^ 23 + rne (m * 2 ^ j * b) (b * 2 ^ (Nat.log2 (m * 2 ^ j) - 23))) = j * 2 ^ 23 + m := by
    by_cases h0 : j = 0
    · subst h0
      have : Nat.log2 (m * 2 ^ 0) ≤ 23 := by
        by_cases hm : m = 0
        · subst hm; decide
        · have : Nat.log2 (m * 2 ^ 0) < 24 := by rw [Nat.pow_zero, Nat.mul_one, Nat.log2_lt hm]; exact h2
          omega
      rw [if_pos this, rne_exact hb]; omega
    · have hm : 2 ^ 23 ≤ m := h1.resolve_right h0
      have hl := log2_scaled (j := j) hm h2
      rw [if_neg (by omega), hl, Nat.add_sub_cancel_left, Nat.mul_assoc, Nat.mul_comm (2 ^ j) b, rne_exact (Nat.mul_pos hb (Nat.two_pow_pos j))]
  unfold toBits
  rw [Nat.mul_div_cancel _ hb]
  simp only [key]
  rw [if_neg]
  have : j * 2 ^ 23 ≤ 253 * 2 ^ 23 := Nat.mul_le_mul_right _ hj
  omega

theorem magOf_exact {m j : Nat} (h2 : m < 2 ^ 24) (h1 : 2 ^ 23 ≤ m ∨ j = 0) : magOf (j * 2 ^ 23 + m) = m * 2 ^ j := by
  unfold magOf
  by_cases hm : 2 ^ 23 ≤ m
  · have e1 : (j * 2 ^ 23 + m) / 2 ^ 23 = j + 1 := by omega
    have e2 : (j * 2 ^ 23 + m) % 2 ^ 23 = m - 2 ^ 23 := by omega
    rw [e1, e2, if_neg (by omega), Nat.add_sub_cancel, Nat.add_sub_cancel' hm]
  · have hj := h1.resolve_left hm
    subst hj
    rw [if_pos (by omega)]
    rw [Nat.mod_eq_of_lt (by omega)]; omega

theorem normalise (j : Nat) : ∀ m : Nat, m < 2 ^ 24 → ∃ m' j', m * 2 ^ j = m' * 2 ^ j' ∧ m' < 2 ^ 24 ∧ (2 ^ 23 ≤ m' ∨ j' = 0) ∧ j' ≤ j := by
  induction j with
  | zero => intro m hm; exact ⟨m, 0, rfl, hm, .inr rfl, Nat.le_refl _⟩
  | succ j ih =>
    intro m hm
    by_cases h : 2 ^ 23 ≤ m
    · exact ⟨m, j + 1, rfl, hm, .inl h, Nat.le_refl _⟩
    · obtain ⟨m', j', h1, h2, h3, h4⟩ := ih (m * 2) (by omega)
      exact ⟨m', j', by rw [← h1, Nat.pow_succ, Nat.mul_comm (2 ^ j) 2, Nat.mul_assoc], h2, h3, by omega⟩

/-- Operations whose exact result has a significand of at most 24 bits do not round. -/
theorem fl_exact {m j b : Nat} (hm : m < 2 ^ 24) (hj : j ≤ 253) (hb : 0 < b) : fl (m * 2 ^ j * b) b = m * 2 ^ j := by
  obtain ⟨m', j', h1, h2, h3, h4⟩ := normalise j m hm
  unfold fl
  rw [h1, toBits_exact h2 h3 (by omega) hb, magOf_exact h2 h3]

theorem fl_one {n : Nat} (m j : Nat) (h : n = m * 2 ^ j) (hm : m < 2 ^ 24) (hj : j ≤ 253) : fl n 1 = n := by
  have := fl_exact (b := 1) hm hj (by omega)
  rw [Nat.mul_one] at this
  rw [h, this]

theorem and_mask (a k : Nat) : a &&& (2 ^ k - 1) = a % 2 ^ k := Nat.and_two_pow_sub_one_eq_mod a k

theorem pack {e f : Nat} (he : e < 256) (hf : f < 2 ^ 23) : (((BitVec.ofNat 32 e) &&& 0xFF) <<< 23) ||| (BitVec.ofNat 32 f &&& 0x7FFFFF) =
    BitVec.ofNat 32 (e * 2 ^ 23 + f) := by
  apply BitVec.eq_of_toNat_eq
  simp only [BitVec.toNat_or, BitVec.toNat_shiftLeft, BitVec.toNat_and, BitVec.toNat_ofNat]
  have h1 : e % 2 ^ 32 &&& BitVec.toNat (255 : BitVec 32) = e := by
    have := and_mask (e % 2 ^ 32) 8
    rw [show BitVec.toNat (255 : BitVec 32) = 2 ^ 8 - 1 from rfl, this]; omega
  have h2 : f % 2 ^ 32 &&& BitVec.toNat (8388607 : BitVec 32) = f := by
    have := and_mask (f % 2 ^ 32) 23
    rw [show BitVec.toNat (8388607 : BitVec 32) = 2 ^ 23 - 1 from rfl, this]; omega
  rw [h1, h2]
  have h3 : e <<< 23 % 2 ^ 32 = e <<< 23 := by rw [Nat.shiftLeft_eq]; omega
  rw [h3, ← Nat.shiftLeft_add_eq_or_of_lt hf, Nat.shiftLeft_eq]
  omega

theorem signed {u : Nat} (hu : u < 2 ^ 31) : BitVec.ofNat 32 u ||| 1 <<< 31 = BitVec.ofNat 32 (2 ^ 31 + u) := by
  apply BitVec.eq_of_toNat_eq
  simp only [BitVec.toNat_or, BitVec.toNat_ofNat]
  have h1 : (1 <<< 31 : BitVec 32).toNat = 1 <<< 31 := by decide
  rw [h1, Nat.mod_eq_of_lt (by omega : u < 2 ^ 32), Nat.or_comm, ← Nat.shiftLeft_add_eq_or_of_lt hu, Nat.shiftLeft_eq]
  omega

theorem field_e (v : BitVec 32) : ((v >>> 23) &&& 0xFF).toNat = v.toNat % 2 ^ 31 / 2 ^ 23 := by
  have := v.isLt
  simp only [BitVec.toNat_and, BitVec.toNat_ushiftRight, BitVec.toNat_ofNat, Nat.shiftRight_eq_div_pow]
  have := and_mask (v.toNat / 2 ^ 23) 8
  rw [show BitVec.toNat (255 : BitVec 32) = 2 ^ 8 - 1 from rfl, this]; omega

theorem field_f (v : BitVec 32) : (v &&& 0x7FFFFF).toNat = v.toNat % 2 ^ 31 % 2 ^ 23 := by
  simp only [BitVec.toNat_and, BitVec.toNat_ofNat]
  have := and_mask v.toNat 23
  rw [show BitVec.toNat (8388607 : BitVec 32) = 2 ^ 23 - 1 from rfl, this]; omega

theorem field_s (v : BitVec 32) : decide (v &&& (1 <<< 31) ≠ 0) = decide (2 ^ 31 ≤ v.toNat) := by
  have hlt := v.isLt
  have hm : v.getLsbD 31 = decide (2 ^ 31 ≤ v.toNat) := by
    rw [BitVec.getLsbD, Nat.testBit_eq_decide_div_mod_eq]
    congr 1
    rw [eq_iff_iff]; omega
  rw [← hm]
  have h1 : v &&& (1 <<< 31) = if v.getLsbD 31 then 1 <<< 31 else 0 := by
    apply BitVec.eq_of_getLsbD_eq
    intro i hi
    have : i < 31 ∨ i = 31 := by omega
    rcases this with h | rfl
    · have hb : (1 <<< 31 : BitVec 32).getLsbD i = false := by
        have : ∀ j : Fin 31, (1 <<< 31 : BitVec 32).getLsbD j.val = false := by decide
        exact this ⟨i, h⟩
      rw [BitVec.getLsbD_and, hb, Bool.and_false]
      cases v.getLsbD 31
      · simp
      · rw [if_pos rfl, hb]
    · have hb : (1 <<< 31 : BitVec 32).getLsbD 31 = true := by decide
      rw [BitVec.getLsbD_and, hb, Bool.and_true]
      cases hv : v.getLsbD 31
      · simp
      · rw [if_pos rfl, hb]
  rw [h1]
  cases v.getLsbD 31 <;> decide

theorem join (x : BitVec 32) : (if decide (2 ^ 31 ≤ x.toNat) then BitVec.ofNat 32 (x.toNat % 2 ^ 31) ||| 1 <<< 31 else BitVec.ofNat 32 (x.toNat % 2 ^ 31)) = x := by
  have := x.isLt
  by_cases h : 2 ^ 31 ≤ x.toNat
  · rw [if_pos (by simpa using h), signed (by omega)]
    apply BitVec.eq_of_toNat_eq
    rw [BitVec.toNat_ofNat]; omega
  · rw [if_neg (by simpa using h)]
    apply BitVec.eq_of_toNat_eq
    rw [BitVec.toNat_ofNat]; omega

/-- Normal numbers that are not set to zero are converted to their IEEE pattern. -/
theorem floatToU_normal {ue : Int} {x : BitVec 32} {e f : Nat} (he : x.toNat % 2 ^ 31 / 2 ^ 23 = e) (hf : x.toNat % 2 ^ 31 % 2 ^ 23 = f) (h1 : 1 ≤ e) (h2 : e ≤ 254)
    (hs : 5746858278247083 ≤ magOf (x.toNat % 2 ^ 31) * 2 ^ 29) : floatToU ue x = some x := by
  have hu : e * 2 ^ 23 + f = x.toNat % 2 ^ 31 := by omega
  have hfl : f < 2 ^ 23 := by omega
  have hmag : magOf (x.toNat % 2 ^ 31) = (2 ^ 23 + f) * 2 ^ (e - 1) := by
    unfold magOf; rw [he, hf, if_neg (by omega)]
  have hdec : decode x = .fin (decide (2 ^ 31 ≤ x.toNat)) (magOf (x.toNat % 2 ^ 31)) := by
    simp only [decode]
    rw [if_neg (by omega)]
  have hn0 : (2 ^ 23 + f) * 2 ^ (e - 1) ≠ 0 := Nat.mul_ne_zero (by omega) (Nat.ne_of_gt (Nat.two_pow_pos _))
  have hlog : Nat.log2 ((2 ^ 23 + f) * 2 ^ (e - 1)) = 23 + (e - 1) := log2_scaled (by omega) (by omega)
  have hfr : frexp ((2 ^ 23 + f) * 2 ^ (e - 1)) = ((2 ^ 23 + f) * 2 ^ 125, (e : Int) - 126) := by
    unfold frexp
    rw [if_neg hn0, hlog]
    congr 1
    · have e1 : 23 + (e - 1) + 1 = (e - 1) + 24 := by omega
      rw [e1, Nat.pow_add, Nat.mul_assoc, Nat.mul_comm (2 ^ (e - 1)) (2 ^ 149), ← Nat.mul_assoc, Nat.mul_comm (2 ^ (e - 1)) (2 ^ 24),
        Nat.mul_div_mul_right _ _ (Nat.two_pow_pos _)]
      rw [show (2 : Nat) ^ 149 = 2 ^ 125 * 2 ^ 24 from by rw [← Nat.pow_add], ← Nat.mul_assoc, Nat.mul_div_cancel _ (Nat.two_pow_pos _)]
    · omega
  have hsub : (2 ^ 23 + f) * 2 ^ 125 - half = f * 2 ^ 125 := by
    unfold half
    rw [Nat.add_mul, ← Nat.pow_add, Nat.add_sub_cancel_left]
  have hle : half ≤ (2 ^ 23 + f) * 2 ^ 125 := by
    unfold half; rw [Nat.add_mul, ← Nat.pow_add]; exact Nat.le_add_right _ _
  have f1 : fl (f * 2 ^ 125) 1 = f * 2 ^ 125 := fl_one f 125 rfl (by omega) (by omega)
  have f2 : fl (f * 2 ^ 125 * 2) 1 = f * 2 ^ 125 * 2 := fl_one f 126 (by rw [Nat.mul_assoc, ← Nat.pow_succ]) (by omega) (by omega)
  have f3 : f * 2 ^ 125 * 2 * 8388608 = f * 2 ^ 149 := by rw [Nat.mul_assoc, Nat.mul_assoc, show (2 : Nat) * 8388608 = 2 ^ 24 from rfl, ← Nat.pow_add]
  have f4 : fl (f * 2 ^ 149) 1 = f * 2 ^ 149 := fl_one f 149 rfl (by omega) (by omega)
  have hpos : 0 < (2 ^ 23 + f) * 2 ^ 125 := Nat.mul_pos (by omega) (Nat.two_pow_pos _)
  have hsm : decide (magOf (x.toNat % 2 ^ 31) * 2 ^ 29 < 5746858278247083) = false := by
    rw [decide_eq_false_iff_not]; exact Nat.not_lt.mpr hs
  unfold floatToU
  rw [hdec]
  simp only [hsm, Bool.not_false, Bool.true_and, Bool.false_eq_true, if_false]
  rw [hmag, hfr]
  simp only [hsub, f1, f2, f3, f4, hle, if_true, Nat.mul_div_cancel _ (Nat.two_pow_pos 149), hpos, decide_true, Bool.and_true]
  rw [show (e : Int) - 126 + 126 = (e : Int) by omega, BitVec.ofInt_natCast, pack (by omega) hfl]
  rw [hu, join]

/-- Numbers that are set to zero. -/
theorem floatToU_small {ue : Int} {x : BitVec 32} (he : x.toNat % 2 ^ 31 / 2 ^ 23 ≠ 255)
    (hs : magOf (x.toNat % 2 ^ 31) * 2 ^ 29 < 5746858278247083) : floatToU ue x = some 0 := by
  have hdec : decode x = .fin (decide (2 ^ 31 ≤ x.toNat)) (magOf (x.toNat % 2 ^ 31)) := by
    simp only [decode]
    rw [if_neg he]
  have hsm : decide (magOf (x.toNat % 2 ^ 31) * 2 ^ 29 < 5746858278247083) = true := by
    rw [decide_eq_true_iff]; exact hs
  unfold floatToU
  rw [hdec]
  simp only [hsm, Bool.not_true, Bool.false_and, if_true, Bool.false_eq_true, if_false]
  have h1 : frexp 0 = (0, 0) := rfl
  rw [h1]
  have h2 : ¬ half ≤ 0 := by decide
  simp only [h2, if_false]
  rfl

/-- The significand that `u_to_float` computes. -/
theorem uSig {f : Nat} (hf : f < 2 ^ 23) : fl (fl (fl (f * 2 ^ 149) 1) (8388608 * 2) + half) 1 = (2 ^ 23 + f) * 2 ^ 125 := by
  have f1 : fl (f * 2 ^ 149) 1 = f * 2 ^ 149 := fl_one f 149 rfl (by omega) (by omega)
  have f2 : fl (f * 2 ^ 149) (8388608 * 2) = f * 2 ^ 125 := by
    have := fl_exact (m := f) (j := 125) (b := 8388608 * 2) (by omega) (by omega) (by omega)
    rw [Nat.mul_assoc] at this
    exact this
  have f3 : f * 2 ^ 125 + half = (2 ^ 23 + f) * 2 ^ 125 := by
    unfold half
    rw [Nat.add_mul, ← Nat.pow_add, Nat.add_comm]
  rw [f1, f2, f3]
  exact fl_one (2 ^ 23 + f) 125 rfl (by omega) (by omega)

/-- Patterns of normal numbers are read as those numbers. -/
theorem uToFloat_normal {v : BitVec 32} {e f : Nat} (he : v.toNat % 2 ^ 31 / 2 ^ 23 = e) (hf : v.toNat % 2 ^ 31 % 2 ^ 23 = f) (h1 : 1 ≤ e) (h2 : e ≤ 254) :
    uToFloat v = v := by
  have hfl : f < 2 ^ 23 := by omega
  have hld : ldexp ((2 ^ 23 + f) * 2 ^ 125) ((e : Int) - 126) = e * 2 ^ 23 + f := by
    have hv : ∀ b, 0 < b → toBits ((2 ^ 23 + f) * 2 ^ (e - 1) * b) b = e * 2 ^ 23 + f := by
      intro b hb
      rw [toBits_exact (by omega) (.inl (by omega)) (by omega) hb]
      have : e = (e - 1) + 1 := by omega
      omega
    unfold ldexp
    by_cases hc : 126 ≤ e
    · rw [if_pos (by omega)]
      have := hv 1 (by omega)
      rw [Nat.mul_one] at this
      have e1 : 125 + ((e : Int) - 126).toNat = e - 1 := by omega
      rw [Nat.mul_assoc, ← Nat.pow_add, e1, this]
    · rw [if_neg (by omega)]
      have := hv (2 ^ (-((e : Int) - 126)).toNat) (Nat.two_pow_pos _)
      have e1 : e - 1 + (-((e : Int) - 126)).toNat = 125 := by omega
      rw [Nat.mul_assoc, ← Nat.pow_add, e1] at this
      exact this
  unfold uToFloat
  simp only [field_e, field_f, field_s, he, hf]
  have hc : e ≠ 0 ∨ f ≠ 0 := .inl (by omega)
  simp only [hc, if_true, uSig hfl, hld]
  have : e * 2 ^ 23 + f = v.toNat % 2 ^ 31 := by omega
  rw [this, join]

theorem uToFloat_zero {v : BitVec 32} (h : v.toNat % 2 ^ 31 = 0) : uToFloat v = v := by
  have hld : ldexp 0 0 = 0 := by decide +kernel
  unfold uToFloat
  simp only [field_e, field_f, field_s, h]
  have hc : ¬ (0 / 2 ^ 23 ≠ 0 ∨ 0 % 2 ^ 23 ≠ 0) := by decide
  simp only [hc, if_false]
  simp only [Nat.zero_div, Int.natCast_zero, hld]
  have := join v
  rw [h] at this
  exact this

end Verif.Buf
