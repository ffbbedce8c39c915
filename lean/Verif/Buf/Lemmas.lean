import Verif.Buf.Spec
import Verif.Arith.Lemmas

namespace Verif.Buf

open Verif.Val (Build payload)
open Verif.Arith

theorem w_cases (b : Build) : b.w = 32 ∨ b.w = 64 := by cases b <;> simp [Build.w]

theorem toNat_byteZ (z : Int) (k : Nat) : ((byteZ z k).toNat : Int) = z / 256 ^ k % 256 := by
  have := toNat_ofInt' 8 (z / 256 ^ k)
  simpa [byteZ] using this

theorem byteAt_eq {w : Nat} (v : BitVec w) (z : Int) (hw : 32 ≤ w) (h : v.setWidth 32 = BitVec.ofInt 32 z) (k : Nat) (hk : k < 4) :
    byteAt v (8 * k) = byteZ z k := by
  apply BitVec.eq_of_toNat_eq
  have h2 := congrArg BitVec.toNat h
  simp only [BitVec.toNat_setWidth] at h2
  have h3 := toNat_ofInt' 32 z
  have h4 := toNat_byteZ z k
  rw [← h2] at h3
  simp only [byteAt, BitVec.toNat_setWidth, BitVec.toNat_ushiftRight, Nat.shiftRight_eq_div_pow]
  have hk4 : k = 0 ∨ k = 1 ∨ k = 2 ∨ k = 3 := by omega
  generalize (byteZ z k).toNat = y at *
  generalize v.toNat = x at *
  rcases hk4 with rfl | rfl | rfl | rfl <;> simp only [Nat.reduceMul, Nat.reducePow, Int.reducePow, Nat.mul_zero, Nat.pow_zero, Int.pow_zero] at h3 h4 ⊢ <;> omega

/-- The bytes written by `buffer_append_bytes`. -/
theorem append_ok {b : Build} {d : List Byte} {be : Bool} {idx n : Nat} {v : BitVec b.w} {z : Int} (hn : 1 ≤ n ∧ n ≤ 4) (hd : d.length < 2 ^ b.w)
    (hin : idx + n ≤ d.length) (hv : v.setWidth 32 = BitVec.ofInt 32 z) :
    ∃ d', appendBytes d be (BitVec.ofNat b.w idx) n v = some (some d') ∧ Holds d' idx n be z ∧ SameElse d d' idx n := by
  have hw : 32 ≤ b.w := by rcases w_cases b with h | h <;> omega
  have hix : ∀ k, k < n → (BitVec.ofNat b.w idx + BitVec.ofNat b.w k).toNat = idx + k := by
    intro k hk
    simp only [BitVec.toNat_add, BitVec.toNat_ofNat, Nat.add_mod_mod, Nat.mod_add_mod]
    exact Nat.mod_eq_of_lt (by omega)
  have b0 := byteAt_eq v z hw hv 0 (by omega)
  have b1 := byteAt_eq v z hw hv 1 (by omega)
  have b2 := byteAt_eq v z hw hv 2 (by omega)
  have b3 := byteAt_eq v z hw hv 3 (by omega)
  simp only [Nat.mul_zero, Nat.mul_one, Nat.reduceMul] at b0 b1 b2 b3
  have hl : (BitVec.ofNat b.w idx + BitVec.ofNat b.w (n - 1)).toNat < d.length := by rw [hix _ (by omega)]; omega
  have i0 : (BitVec.ofNat b.w idx).toNat = idx := by
    simp only [BitVec.toNat_ofNat]; exact Nat.mod_eq_of_lt (by omega)
  unfold appendBytes
  dsimp only
  rw [if_pos hl]
  have hn4 : n = 1 ∨ n = 2 ∨ n = 3 ∨ n = 4 := by omega
  rcases hn4 with rfl | rfl | rfl | rfl
  · refine ⟨d.set idx (byteZ z 0), ?_, ?_, ?_⟩
    · simp only [put, i0, b0]
      rw [if_pos (by omega)]; rfl
    · intro k hk
      obtain rfl : k = 0 := by omega
      simp [List.getElem?_set, show idx < d.length by omega]
    · exact ⟨by simp, fun j hj => by simp [List.getElem?_set, show idx ≠ j by omega]⟩
  · have i1 : (BitVec.ofNat b.w idx + 1).toNat = idx + 1 := hix 1 (by omega)
    cases be
    · refine ⟨(d.set idx (byteZ z 0)).set (idx + 1) (byteZ z 1), ?_, ?_, ?_⟩
      · generalize BitVec.ofNat b.w idx + 1 = j1 at *
        simp [put, i0, i1, b0, b1, show idx < d.length by omega, show idx + 1 < d.length by omega]
      · intro k hk
        have : k = 0 ∨ k = 1 := by omega
        rcases this with rfl | rfl <;> simp [List.getElem?_set, show idx < d.length by omega, show idx + 1 < d.length by omega]
      · exact ⟨by simp, fun j hj => by simp [List.getElem?_set, show idx ≠ j by omega, show idx + 1 ≠ j by omega]⟩
    · refine ⟨(d.set (idx + 1) (byteZ z 0)).set idx (byteZ z 1), ?_, ?_, ?_⟩
      · generalize BitVec.ofNat b.w idx + 1 = j1 at *
        simp [put, i0, i1, b0, b1, show idx < d.length by omega, show idx + 1 < d.length by omega]
      · intro k hk
        have : k = 0 ∨ k = 1 := by omega
        rcases this with rfl | rfl <;> simp [List.getElem?_set, show idx < d.length by omega, show idx + 1 < d.length by omega]
      · exact ⟨by simp, fun j hj => by simp [List.getElem?_set, show idx ≠ j by omega, show idx + 1 ≠ j by omega]⟩
  · have i1 : (BitVec.ofNat b.w idx + 1).toNat = idx + 1 := hix 1 (by omega)
    have i2 : (BitVec.ofNat b.w idx + 2).toNat = idx + 2 := hix 2 (by omega)
    cases be
    · refine ⟨((d.set idx (byteZ z 0)).set (idx + 1) (byteZ z 1)).set (idx + 2) (byteZ z 2), ?_, ?_, ?_⟩
      · generalize BitVec.ofNat b.w idx + 1 = j1 at *
        generalize BitVec.ofNat b.w idx + 2 = j2 at *
        simp [put, i0, i1, i2, b0, b1, b2, show idx < d.length by omega, show idx + 1 < d.length by omega, show idx + 2 < d.length by omega]
      · intro k hk
        have : k = 0 ∨ k = 1 ∨ k = 2 := by omega
        rcases this with rfl | rfl | rfl <;>
          simp [List.getElem?_set, show idx < d.length by omega, show idx + 1 < d.length by omega, show idx + 2 < d.length by omega]
      · exact ⟨by simp, fun j hj => by simp [List.getElem?_set, show idx ≠ j by omega, show idx + 1 ≠ j by omega, show idx + 2 ≠ j by omega]⟩
    · refine ⟨((d.set (idx + 2) (byteZ z 0)).set (idx + 1) (byteZ z 1)).set idx (byteZ z 2), ?_, ?_, ?_⟩
      · generalize BitVec.ofNat b.w idx + 1 = j1 at *
        generalize BitVec.ofNat b.w idx + 2 = j2 at *
        simp [put, i0, i1, i2, b0, b1, b2, show idx < d.length by omega, show idx + 1 < d.length by omega, show idx + 2 < d.length by omega]
      · intro k hk
        have : k = 0 ∨ k = 1 ∨ k = 2 := by omega
        rcases this with rfl | rfl | rfl <;>
          simp [List.getElem?_set, show idx < d.length by omega, show idx + 1 < d.length by omega, show idx + 2 < d.length by omega]
      · exact ⟨by simp, fun j hj => by simp [List.getElem?_set, show idx ≠ j by omega, show idx + 1 ≠ j by omega, show idx + 2 ≠ j by omega]⟩
  · have i1 : (BitVec.ofNat b.w idx + 1).toNat = idx + 1 := hix 1 (by omega)
    have i2 : (BitVec.ofNat b.w idx + 2).toNat = idx + 2 := hix 2 (by omega)
    have i3 : (BitVec.ofNat b.w idx + 3).toNat = idx + 3 := hix 3 (by omega)
    cases be
    · refine ⟨(((d.set idx (byteZ z 0)).set (idx + 1) (byteZ z 1)).set (idx + 2) (byteZ z 2)).set (idx + 3) (byteZ z 3), ?_, ?_, ?_⟩
      · generalize BitVec.ofNat b.w idx + 1 = j1 at *
        generalize BitVec.ofNat b.w idx + 2 = j2 at *
        generalize BitVec.ofNat b.w idx + 3 = j3 at *
        simp [put, i0, i1, i2, i3, b0, b1, b2, b3, show idx < d.length by omega, show idx + 1 < d.length by omega, show idx + 2 < d.length by omega,
          show idx + 3 < d.length by omega]
      · intro k hk
        have : k = 0 ∨ k = 1 ∨ k = 2 ∨ k = 3 := by omega
        rcases this with rfl | rfl | rfl | rfl <;>
          simp [List.getElem?_set, show idx < d.length by omega, show idx + 1 < d.length by omega, show idx + 2 < d.length by omega,
            show idx + 3 < d.length by omega]
      · exact ⟨by simp, fun j hj => by
          simp [List.getElem?_set, show idx ≠ j by omega, show idx + 1 ≠ j by omega, show idx + 2 ≠ j by omega, show idx + 3 ≠ j by omega]⟩
    · refine ⟨(((d.set (idx + 3) (byteZ z 0)).set (idx + 2) (byteZ z 1)).set (idx + 1) (byteZ z 2)).set idx (byteZ z 3), ?_, ?_, ?_⟩
      · generalize BitVec.ofNat b.w idx + 1 = j1 at *
        generalize BitVec.ofNat b.w idx + 2 = j2 at *
        generalize BitVec.ofNat b.w idx + 3 = j3 at *
        simp [put, i0, i1, i2, i3, b0, b1, b2, b3, show idx < d.length by omega, show idx + 1 < d.length by omega, show idx + 2 < d.length by omega,
          show idx + 3 < d.length by omega]
      · intro k hk
        have : k = 0 ∨ k = 1 ∨ k = 2 ∨ k = 3 := by omega
        rcases this with rfl | rfl | rfl | rfl <;>
          simp [List.getElem?_set, show idx < d.length by omega, show idx + 1 < d.length by omega, show idx + 2 < d.length by omega,
            show idx + 3 < d.length by omega]
      · exact ⟨by simp, fun j hj => by
          simp [List.getElem?_set, show idx ≠ j by omega, show idx + 1 ≠ j by omega, show idx + 2 ≠ j by omega, show idx + 3 ≠ j by omega]⟩

/-- `a | b << i` for numbers that do not overlap. -/
theorem or_shift {a c i : Nat} (h : a < 2 ^ i) : a ||| c <<< i = a + 2 ^ i * c := by
  rw [Nat.shiftLeft_eq, Nat.mul_comm c, Nat.or_comm, ← Nat.two_pow_add_eq_or_of_lt h]; omega

/-- The number read by `buffer_get_uint`. -/
theorem get_ok {b : Build} {d : List Byte} {be : Bool} {idx n : Nat} {z : Int} (hn : 1 ≤ n ∧ n ≤ 4) (hd : d.length < 2 ^ b.w) (h : Holds d idx n be z) :
    ∃ x : BitVec b.w, getUint d be (BitVec.ofNat b.w idx) n = some (some x) ∧ (x.toNat : Int) = z % 2 ^ (8 * n) := by
  have hw : 32 ≤ b.w := by rcases w_cases b with h | h <;> omega
  have hin : idx + n ≤ d.length := by
    have := h (n - 1) (by omega)
    have := (List.getElem?_eq_some_iff.1 this).1
    omega
  have hix : ∀ k, k < n → (BitVec.ofNat b.w idx + BitVec.ofNat b.w k).toNat = idx + k := by
    intro k hk
    simp only [BitVec.toNat_add, BitVec.toNat_ofNat, Nat.add_mod_mod, Nat.mod_add_mod]
    exact Nat.mod_eq_of_lt (by omega)
  have hl : (BitVec.ofNat b.w idx + BitVec.ofNat b.w (n - 1)).toNat < d.length := by rw [hix _ (by omega)]; omega
  have i0 : (BitVec.ofNat b.w idx).toNat = idx := by
    simp only [BitVec.toNat_ofNat]; exact Nat.mod_eq_of_lt (by omega)
  have hp : 2 ^ 32 ≤ 2 ^ b.w := Nat.pow_le_pow_right (by omega) hw
  have sw : ∀ x : Byte, (x.setWidth b.w).toNat = x.toNat := fun x => by
    simp only [BitVec.toNat_setWidth]; exact Nat.mod_eq_of_lt (by have := x.isLt; omega)
  unfold getUint
  dsimp only
  rw [if_pos hl]
  have hn4 : n = 1 ∨ n = 2 ∨ n = 3 ∨ n = 4 := by omega
  rcases hn4 with rfl | rfl | rfl | rfl
  · have h0 := h 0 (by omega)
    simp only [Nat.add_zero, Nat.sub_self, ite_self] at h0
    refine ⟨(byteZ z 0).setWidth b.w, by simp [get, i0, h0], ?_⟩
    rw [sw, toNat_byteZ]; simp
  · have i1 : (BitVec.ofNat b.w idx + 1).toNat = idx + 1 := hix 1 (by omega)
    have h0 := h 0 (by omega)
    have h1 := h 1 (by omega)
    have z0 := toNat_byteZ z 0
    have z1 := toNat_byteZ z 1
    have l0 := (byteZ z 0).isLt
    have l1 := (byteZ z 1).isLt
    refine ⟨(byteZ z 0).setWidth b.w ||| (byteZ z 1).setWidth b.w <<< 8, ?_, ?_⟩
    · cases be <;> simp only [Nat.add_zero, Bool.false_eq_true, if_false, if_true, Nat.reduceSub] at h0 h1 <;>
        simp only [get, i0, i1, h0, h1, Option.map_some, Option.bind_some, Bool.false_eq_true, if_false, if_true]
    · simp only [BitVec.toNat_or, BitVec.toNat_shiftLeft, sw]
      generalize (byteZ z 0).toNat = y0 at *
      generalize (byteZ z 1).toNat = y1 at *
      rw [Nat.mod_eq_of_lt (by rw [Nat.shiftLeft_eq]; omega), or_shift (by omega)]
      simp only [Nat.reduceMul, Nat.reducePow, Int.reducePow, Int.pow_zero] at z0 z1 ⊢
      omega
  · have i1 : (BitVec.ofNat b.w idx + 1).toNat = idx + 1 := hix 1 (by omega)
    have i2 : (BitVec.ofNat b.w idx + 2).toNat = idx + 2 := hix 2 (by omega)
    have h0 := h 0 (by omega)
    have h1 := h 1 (by omega)
    have h2 := h 2 (by omega)
    have z0 := toNat_byteZ z 0
    have z1 := toNat_byteZ z 1
    have z2 := toNat_byteZ z 2
    have l0 := (byteZ z 0).isLt
    have l1 := (byteZ z 1).isLt
    have l2 := (byteZ z 2).isLt
    refine ⟨(byteZ z 0).setWidth b.w ||| (byteZ z 1).setWidth b.w <<< 8 ||| (byteZ z 2).setWidth b.w <<< 16, ?_, ?_⟩
    · cases be <;> simp only [Nat.add_zero, Bool.false_eq_true, if_false, if_true, Nat.reduceSub] at h0 h1 h2 <;>
        simp only [get, i0, i1, i2, h0, h1, h2, Option.map_some, Option.bind_some, Bool.false_eq_true, if_false, if_true]
    · simp only [BitVec.toNat_or, BitVec.toNat_shiftLeft, sw]
      generalize (byteZ z 0).toNat = y0 at *
      generalize (byteZ z 1).toNat = y1 at *
      generalize (byteZ z 2).toNat = y2 at *
      rw [Nat.mod_eq_of_lt (by rw [Nat.shiftLeft_eq]; omega), Nat.mod_eq_of_lt (by rw [Nat.shiftLeft_eq]; omega), or_shift (a := y0) (by omega), or_shift (i := 16) (by omega)]
      simp only [Nat.reduceMul, Nat.reducePow, Int.reducePow, Int.pow_zero] at z0 z1 z2 ⊢
      omega
  · have i1 : (BitVec.ofNat b.w idx + 1).toNat = idx + 1 := hix 1 (by omega)
    have i2 : (BitVec.ofNat b.w idx + 2).toNat = idx + 2 := hix 2 (by omega)
    have i3 : (BitVec.ofNat b.w idx + 3).toNat = idx + 3 := hix 3 (by omega)
    have h0 := h 0 (by omega)
    have h1 := h 1 (by omega)
    have h2 := h 2 (by omega)
    have h3 := h 3 (by omega)
    have z0 := toNat_byteZ z 0
    have z1 := toNat_byteZ z 1
    have z2 := toNat_byteZ z 2
    have z3 := toNat_byteZ z 3
    have l0 := (byteZ z 0).isLt
    have l1 := (byteZ z 1).isLt
    have l2 := (byteZ z 2).isLt
    have l3 := (byteZ z 3).isLt
    have sw2 : ∀ x : Byte, ((x.setWidth b.w).setWidth 32).toNat = x.toNat := fun x => by
      rw [BitVec.toNat_setWidth, sw]; exact Nat.mod_eq_of_lt (by have := x.isLt; omega)
    refine ⟨(((byteZ z 0).setWidth b.w).setWidth 32 ||| ((byteZ z 1).setWidth b.w).setWidth 32 <<< 8 ||| ((byteZ z 2).setWidth b.w).setWidth 32 <<< 16 |||
      ((byteZ z 3).setWidth b.w).setWidth 32 <<< 24).setWidth b.w, ?_, ?_⟩
    · cases be <;> simp only [Nat.add_zero, Bool.false_eq_true, if_false, if_true, Nat.reduceSub] at h0 h1 h2 h3 <;>
        simp only [get, i0, i1, i2, i3, h0, h1, h2, h3, Option.map_some, Option.bind_some, Bool.false_eq_true, if_false, if_true]
    · rw [BitVec.toNat_setWidth]
      rw [Nat.mod_eq_of_lt (Nat.lt_of_lt_of_le (BitVec.isLt _) hp)]
      simp only [BitVec.toNat_or, BitVec.toNat_shiftLeft, sw2]
      generalize (byteZ z 0).toNat = y0 at *
      generalize (byteZ z 1).toNat = y1 at *
      generalize (byteZ z 2).toNat = y2 at *
      generalize (byteZ z 3).toNat = y3 at *
      rw [Nat.mod_eq_of_lt (by rw [Nat.shiftLeft_eq]; omega), Nat.mod_eq_of_lt (by rw [Nat.shiftLeft_eq]; omega), Nat.mod_eq_of_lt (by rw [Nat.shiftLeft_eq]; omega),
        or_shift (a := y0) (by omega), or_shift (i := 16) (by omega), or_shift (i := 24) (by omega)]
      simp only [Nat.reduceMul, Nat.reducePow, Int.reducePow, Int.pow_zero] at z0 z1 z2 z3 ⊢
      omega

end Verif.Buf
