import Verif.Buf.F32Spec
import Verif.Buf.F32Lemmas

/-!
# Properties of `f32` elements (C45)
-/

namespace Verif.Buf

open Verif.Val (Build payload)
open Verif.Arith (Num V FOps decAsU32 decAsFloat symTRUE symTERROR symEERROR)

variable {b : Build} {F : FOps} {le : Nat}

theorem expo_eq (x : BitVec 32) : x.toNat % 2 ^ 31 / 2 ^ 23 = expo x := by unfold expo; omega
theorem frac_eq (x : BitVec 32) : x.toNat % 2 ^ 31 % 2 ^ 23 = frac x := by unfold frac; omega
theorem absVal_eq (x : BitVec 32) : magOf (x.toNat % 2 ^ 31) = absVal x := by
  unfold magOf absVal; rw [expo_eq, frac_eq]

theorem small_iff (n : Nat) : n * 10 ^ 39 < 15 * 2 ^ 149 ↔ n * 2 ^ 29 < 5746858278247083 := by
  have h1 : n * 10 ^ 39 < 15 * 2 ^ 149 ↔ n ≤ 10704357 := by
    constructor
    · intro h
      apply Classical.byContradiction
      intro hc
      have := Nat.mul_le_mul_right (10 ^ 39) (show 10704358 ≤ n by omega)
      exact absurd (Nat.lt_of_le_of_lt this h) (by decide +kernel)
    · intro h
      exact Nat.lt_of_le_of_lt (Nat.mul_le_mul_right (10 ^ 39) h) (by decide +kernel)
  rw [h1]; omega

theorem normal_of {x : BitVec 32} (hs : ¬ Small x) : 1 ≤ expo x := by
  apply Classical.byContradiction
  intro hc
  apply hs
  unfold Small
  rw [small_iff]
  have : frac x < 2 ^ 23 := by unfold frac; omega
  unfold absVal
  rw [if_pos (by omega)]
  omega

theorem floatToU_eq {ue : Int} {x : BitVec 32} (hx : Finite x) : floatToU ue x = some (if Small x then 0 else x) := by
  by_cases hs : Small x
  · rw [if_pos hs]
    apply floatToU_small
    · rw [expo_eq]; exact hx
    · rw [absVal_eq]; exact (small_iff _).mp hs
  · rw [if_neg hs]
    have h1 : expo x < 256 := by unfold expo; omega
    have h2 : expo x ≠ 255 := hx
    apply floatToU_normal (expo_eq x) (frac_eq x) (normal_of hs) (by omega)
    rw [absVal_eq]
    exact Nat.not_lt.mp fun h => hs ((small_iff _).mpr h)

theorem uToFloat_eq {v : BitVec 32} (h1 : expo v ≠ 255) (h2 : ¬ Subnormal v) : uToFloat v = v := by
  have h3 : expo v < 256 := by unfold expo; omega
  by_cases h : expo v = 0
  · have h4 : frac v = 0 := Classical.byContradiction fun hc => h2 ⟨h, hc⟩
    apply uToFloat_zero
    rw [← expo_eq] at h; rw [← frac_eq] at h4; omega
  · exact uToFloat_normal (expo_eq v) (frac_eq v) (by omega) (by omega)

theorem ofInt_toNat (u : BitVec 32) : (u.setWidth b.w).setWidth 32 = BitVec.ofInt 32 (u.toNat : Int) := by
  have hw : 32 ≤ b.w := by rcases w_cases b with h | h <;> omega
  rw [BitVec.setWidth_setWidth_of_le _ hw, BitVec.setWidth_eq, BitVec.ofInt_natCast, BitVec.ofNat_toNat, BitVec.setWidth_eq]

/-- `bufset-f32` of a number that is the float `y`, inside of the buffer: the four bytes become the IEEE 754 pattern of `y`, in the selected order; the pattern of 0 if
the absolute value of `y` is less than 1.5e-38. Nothing else changes. -/
theorem C45_f32_set (ue : Int) {m : Mem} {id : Nat} {d : List Byte} (hm : m id = some d) (hd : d.length < 2 ^ b.w) {i x : Num b} (hi : i.ty.int = true)
    {y : BitVec 32} (hy : decAsFloat F (.num x) = y) (hf : Finite y) {idx : Nat} (hidx : i.val = idx) (h32 : idx < 2 ^ 32) (hin : idx + 4 ≤ d.length)
    {ord : List (Arg b)} {be : Bool} (hord : Order le ord be) :
    ∃ m' d', bufsetF32 F le ue m (.arr id false :: .v (.num i) :: .v (.num x) :: ord) = .ret m' (.sym symTRUE) ∧ OnlyArr m m' id ∧ m' id = some d' ∧
      SameElse d d' idx 4 ∧ Holds d' idx 4 be ((if Small y then 0 else y).toNat) := by
  obtain ⟨d', h1, h2, h3⟩ := append_ok (b := b) (be := be) (n := 4) (v := (if Small y then 0 else y).setWidth b.w) (by omega) hd hin (ofInt_toNat _)
  refine ⟨m.set id d', d', ?_, fun j hj => by simp [Mem.set, hj], by simp [Mem.set], h3, h2⟩
  simp only [bufsetF32, order_append hord, decodeAppend.go, rw, hm, Option.map_some, Arg.isNumber, V.isNumber, Arg.val, Bool.and_self, if_true, index_eq hi hidx h32, hy,
    floatToU_eq hf, h1]

/-- `bufget-f32` where the buffer holds the pattern `v` of a normal number or of zero: the result is that number, exactly. Partial: see `C45_f32_get_violated`
for the other patterns; a cell is available on 32-bit builds. -/
theorem C45_f32_get_partial {m : Mem} {id : Nat} {d : List Byte} (hm : m id = some d) (hd : d.length < 2 ^ b.w) {i : Num b} (hi : i.ty.int = true)
    {idx : Nat} (hidx : i.val = idx) (h32 : idx < 2 ^ 32) {ord : List (Arg b)} {be : Bool} (hord : Order le ord be) {v : BitVec 32} (h : Holds d idx 4 be v.toNat)
    (h1 : Finite v) (h2 : ¬ Subnormal v) (const : Bool) :
    bufgetF32 F le true m (.arr id const :: .v (.num i) :: ord) = .ret m (.num (.float v)) := by
  obtain ⟨x, hx1, hx2⟩ := get_ok (b := b) (n := 4) (by omega) hd h
  have hx : x.setWidth 32 = v := by
    apply BitVec.eq_of_toNat_eq
    rw [BitVec.toNat_setWidth]
    have := v.isLt
    omega
  simp only [bufgetF32, order_get hord, decodeGet.go, rd, hm, Arg.isNumber, V.isNumber, Arg.val, if_true, index_eq hi hidx h32, hx1, hx, uToFloat_eq h1 h2]
  cases b <;> rfl

/-- What `bufset-f32` stores is what `bufget-f32` returns, for every finite float of at least 1.5e-38; smaller ones are read back as 0. Partial: see
`C45_f32_small_violated` and `C45_f32_inf_violated`. -/
theorem C45_f32_roundtrip_partial (ue : Int) {m : Mem} {id : Nat} {d : List Byte} (hm : m id = some d) (hd : d.length < 2 ^ b.w) {i x : Num b} (hi : i.ty.int = true)
    {y : BitVec 32} (hy : decAsFloat F (.num x) = y) (hf : Finite y) {idx : Nat} (hidx : i.val = idx) (h32 : idx < 2 ^ 32) (hin : idx + 4 ≤ d.length)
    {ord : List (Arg b)} {be : Bool} (hord : Order le ord be) :
    ∃ m', bufsetF32 F le ue m (.arr id false :: .v (.num i) :: .v (.num x) :: ord) = .ret m' (.sym symTRUE) ∧
      bufgetF32 F le true m' (.arr id false :: .v (.num i) :: ord) = .ret m' (.num (.float (if Small y then 0 else y))) := by
  obtain ⟨m', d', h1, _, h3, h4, h5⟩ := C45_f32_set (F := F) ue hm hd hi hy hf hidx h32 hin hord
  refine ⟨m', h1, C45_f32_get_partial h3 (by rw [h4.1]; exact hd) hi hidx h32 hord h5 ?_ ?_ false⟩
  · split
    · decide
    · exact hf
  · split
    · rintro ⟨_, h⟩; exact h (by decide)
    · rename_i hs
      rintro ⟨h, _⟩
      have := normal_of hs
      omega

/-- Outside of the buffer nothing is written, and both accessors return an error. Partial: the same limit as in `C45_outside_partial`. -/
theorem C45_f32_outside_partial (ue : Int) {m : Mem} {id : Nat} {d : List Byte} (hm : m id = some d) {i x : Num b} (hi : i.ty.int = true)
    (hf : Finite (decAsFloat F (.num x))) {idx : Nat} (hidx : i.val = idx) (h32 : idx < 2 ^ 32) (hout : d.length < idx + 4) (hwrap : b = .b32 → idx + 4 ≤ 2 ^ 32)
    {ord : List (Arg b)} {be : Bool} (hord : Order le ord be) (ok : Bool) :
    bufsetF32 F le ue m (.arr id false :: .v (.num i) :: .v (.num x) :: ord) = .ret m (.sym symEERROR) ∧
      bufgetF32 F le ok m (.arr id false :: .v (.num i) :: ord) = .ret m (.sym symEERROR) := by
  have := last_out (b := b) (n := 4) (by omega) h32 hout hwrap
  constructor
  · simp only [bufsetF32, order_append hord, decodeAppend.go, rw, hm, Option.map_some, Arg.isNumber, V.isNumber, Arg.val, Bool.and_self, if_true, index_eq hi hidx h32,
      floatToU_eq hf, appendBytes, if_neg this]
  · simp only [bufgetF32, order_get hord, decodeGet.go, rd, hm, Arg.isNumber, V.isNumber, Arg.val, if_true, index_eq hi hidx h32, getUint, if_neg this]

/-- Example: `(bufset-f32 a 1 -2.5)` and back. -/
example : ∃ m', bufsetF32 noFp 99 0 (fun _ => some [0, 0, 0, 0, 0]) [.arr 0 false, .v (.num (.i 1)), .v (.num (.float 0xC0200000 : Num .b32))] = .ret m' (.sym symTRUE) ∧
    bufgetF32 noFp 99 true m' [.arr 0 false, .v (.num (.i 1))] = .ret m' (.num (.float (0xC0200000 : BitVec 32) : Num .b32)) := by
  obtain ⟨m', h1, h2⟩ := C45_f32_roundtrip_partial (b := .b32) (F := noFp) (le := 99) 0 (m := fun _ => some [0, 0, 0, 0, 0]) (id := 0) (d := [0, 0, 0, 0, 0]) rfl (by decide)
    (i := .i 1) (x := .float 0xC0200000) rfl (y := 0xC0200000) rfl (by decide) (idx := 1) rfl (by decide) (by decide) (ord := []) (be := true) (.inl ⟨rfl, rfl⟩)
  rw [if_neg (by decide +kernel)] at h2
  exact ⟨m', h1, h2⟩

/-- Not true of the code: numbers that are stored are read back unchanged. The normal number 2^-126 (about 1.18e-38) and -0.0 are stored as 0. -/
theorem C45_f32_small_violated (ue : Int) : floatToU ue 0x00800000 = some 0 ∧ Finite 0x00800000 ∧ ¬ Subnormal 0x00800000 ∧ floatToU ue 0x80000000 = some 0 ∧
    uToFloat 0 = 0 := by
  refine ⟨?_, by decide, ?_, ?_, uToFloat_zero (by decide)⟩
  · rw [floatToU_eq (by decide), if_pos (by decide +kernel)]
  · rintro ⟨h, _⟩; exact absurd h (by decide)
  · rw [floatToU_eq (by decide), if_pos (by decide +kernel)]

/-- Not true of the code: `bufset-f32` is defined for all floats. For an infinity a value that is out of range is converted to an integer. -/
theorem C45_f32_inf_violated (ue : Int) {m : Mem} {id : Nat} {d : List Byte} (hm : m id = some d) {i x : Num b} {y : BitVec 32} (hy : decAsFloat F (.num x) = y) (h : IsInf y) :
    bufsetF32 F le ue m [.arr id false, .v (.num i), .v (.num x)] = .ub := by
  have hdec : decode y = .inf (decide (2 ^ 31 ≤ y.toNat)) := by
    simp only [decode]
    rw [expo_eq, frac_eq, if_pos h.1, if_pos h.2]
  have : floatToU ue y = none := by unfold floatToU; rw [hdec]
  simp only [bufsetF32, decodeAppend, decodeAppend.go, rw, hm, Option.map_some, Arg.isNumber, V.isNumber, Arg.val, Bool.and_self, if_true, hy, this]

theorem toNat_sign {r : Nat} (hr : r < 2 ^ 31) (s : Bool) : (if s then BitVec.ofNat 32 r ||| 1 <<< 31 else BitVec.ofNat 32 r).toNat % 2 ^ 31 = r := by
  cases s
  · rw [if_neg (by simp), BitVec.toNat_ofNat]; omega
  · rw [if_pos rfl, signed hr, BitVec.toNat_ofNat]; omega

/-- What `u_to_float` makes of the pattern of a subnormal number with the fraction `f`. -/
theorem ldexp_sub {f : Nat} (hf : f < 2 ^ 23) : ldexp ((2 ^ 23 + f) * 2 ^ 125) ((0 : Nat) - 126) = rne (2 ^ 23 + f) 2 := by
  have hq : (2 ^ 23 + f) * 2 ^ 125 / 2 ^ 126 = (2 ^ 23 + f) / 2 := by
    rw [Nat.pow_succ (n := 2) (m := 125), Nat.mul_comm _ (2 ^ 125), Nat.mul_div_mul_left _ _ (Nat.two_pow_pos _)]
  have hr : (2 ^ 23 + f) * 2 ^ 125 % 2 ^ 126 = (2 ^ 23 + f) % 2 * 2 ^ 125 := by
    rw [Nat.pow_succ (n := 2) (m := 125), Nat.mul_comm _ (2 ^ 125), Nat.mul_mod_mul_left, Nat.mul_comm]
  have hrne : rne ((2 ^ 23 + f) * 2 ^ 125) (2 ^ 126) = rne (2 ^ 23 + f) 2 := by
    unfold rne
    rw [hq, hr]
    have : (2 ^ 23 + f) % 2 = 0 ∨ (2 ^ 23 + f) % 2 = 1 := by omega
    rcases this with h | h <;> rw [h]
    · rw [if_pos (by decide +kernel), if_pos (by decide)]
    · rw [if_neg (by decide +kernel), if_neg (by decide +kernel), if_neg (by decide), if_neg (by decide)]
  have hl : Nat.log2 ((2 ^ 23 + f) / 2) ≤ 23 := by
    have : Nat.log2 ((2 ^ 23 + f) / 2) < 24 := by rw [Nat.log2_lt (by omega)]; omega
    omega
  have hb : ¬ 255 * 2 ^ 23 ≤ rne (2 ^ 23 + f) 2 := by unfold rne; split <;> (try split) <;> omega
  have he : (-(((0 : Nat) : Int) - 126)).toNat = 126 := by decide
  unfold ldexp
  rw [if_neg (by decide), he]
  unfold toBits
  simp only [hq, hl, if_true, hrne, hb, if_false]

/-- Not true of the code: `bufget-f32` returns the number whose pattern the buffer holds. No subnormal number is read correctly, and a NaN is read as an infinity. -/
theorem C45_f32_get_violated (v : BitVec 32) : (Subnormal v → uToFloat v ≠ v) ∧ (IsNaN v → IsInf (uToFloat v)) := by
  have hfl : frac v < 2 ^ 23 := by unfold frac; omega
  constructor
  · rintro ⟨h1, h2⟩ hc
    have hl := ldexp_sub hfl
    have hu : uToFloat v = if decide (2 ^ 31 ≤ v.toNat) then BitVec.ofNat 32 (rne (2 ^ 23 + frac v) 2) ||| 1 <<< 31 else BitVec.ofNat 32 (rne (2 ^ 23 + frac v) 2) := by
      unfold uToFloat
      simp only [field_e, field_f, field_s, expo_eq, frac_eq, h1]
      have hc : (0 : Nat) ≠ 0 ∨ frac v ≠ 0 := .inr h2
      simp only [hc, if_true, uSig hfl, hl]
    have hr : rne (2 ^ 23 + frac v) 2 < 2 ^ 31 ∧ rne (2 ^ 23 + frac v) 2 ≠ frac v := by unfold rne; split <;> (try split) <;> omega
    have h3 := toNat_sign hr.1 (decide (2 ^ 31 ≤ v.toNat))
    rw [← hu, hc] at h3
    have h4 : v.toNat % 2 ^ 31 = frac v := by rw [← expo_eq] at h1; rw [← frac_eq]; omega
    exact hr.2 (by rw [← h3, h4])
  · rintro ⟨h1, h2⟩
    have hl : ldexp ((2 ^ 23 + frac v) * 2 ^ 125) ((255 : Nat) - 126) = 255 * 2 ^ 23 := by
      have he : (((255 : Nat) : Int) - 126).toNat = 129 := by decide
      unfold ldexp
      rw [if_pos (by decide), he, Nat.mul_assoc, ← Nat.pow_add]
      have hlog := log2_scaled (m := 2 ^ 23 + frac v) (j := 125 + 129) (by omega) (by omega)
      have hk : ¬ 23 + (125 + 129) ≤ 23 := by omega
      unfold toBits
      rw [Nat.div_one, hlog]
      simp only [hk, if_false, Nat.add_sub_cancel_left, Nat.one_mul, rne_exact (Nat.two_pow_pos _)]
      rw [if_pos (by omega)]
    have hu : uToFloat v = if decide (2 ^ 31 ≤ v.toNat) then BitVec.ofNat 32 (255 * 2 ^ 23) ||| 1 <<< 31 else BitVec.ofNat 32 (255 * 2 ^ 23) := by
      unfold uToFloat
      simp only [field_e, field_f, field_s, expo_eq, frac_eq, h1]
      have hc : (255 : Nat) ≠ 0 ∨ frac v ≠ 0 := .inl (by decide)
      simp only [hc, if_true, uSig hfl, hl]
    rw [hu]
    cases decide (2 ^ 31 ≤ v.toNat) <;> exact ⟨by decide, by decide⟩

/-- Example: the smallest positive number, and a NaN. -/
example : Subnormal 1 ∧ IsNaN 0x7FC00000 := ⟨⟨by decide, by decide⟩, by decide, by decide⟩

end Verif.Buf
