import Verif.Jpg.Model
import Mathlib.Analysis.SpecialFunctions.Trigonometric.Basic
import Mathlib.Tactic.NormNum
import Mathlib.Tactic.Linarith

/-!
# The factors of the transform (C108)

The table `Ipsf` is what the algorithm of Arai, Agui and Nakajima asks for.
-/

namespace Verif.Jpg

open Real

/-- The factor of row or column `k`: 1 for the first one, and the square root of 2 times the cosine of `kπ/16` for the others. -/
noncomputable def arai (k : Nat) : ℝ := if k = 0 then 1 else √2 * cos (k * π / 16)

/-- Bounds of the squares of the factors, in parts of a thousand million. -/
def lows : List Nat := [1000000000, 1923879530, 1707106780, 1382683430, 1000000000, 617316560, 292893215, 76120460]
def highs : List Nat := [1000000000, 1923879540, 1707106785, 1382683440, 1000000000, 617316570, 292893220, 76120470]

theorem sqrt2_bounds : 1.414213562 ≤ √2 ∧ √2 ≤ 1.414213563 :=
  ⟨Real.le_sqrt' (by norm_num) |>.2 (by norm_num), Real.sqrt_le_iff.2 ⟨by norm_num, by norm_num⟩⟩

theorem arai_sq {k : Nat} (hk : k ≠ 0) : arai k ^ 2 = 1 + cos (k * π / 8) := by
  rw [arai, if_neg hk, mul_pow, Real.sq_sqrt (by norm_num), Real.cos_sq, show 2 * ((k : ℝ) * π / 16) = k * π / 8 by ring]
  ring

theorem c1_bounds : 0.92387953 ≤ cos (π / 8) ∧ cos (π / 8) ≤ 0.92387954 := by
  obtain ⟨h1, h2⟩ := sqrt2_bounds
  rw [Real.cos_pi_div_eight]
  have a : 1.84775906 ≤ √(2 + √2) := Real.le_sqrt' (by norm_num) |>.2 (by norm_num at h1 ⊢; linarith)
  have b : √(2 + √2) ≤ 1.84775907 := Real.sqrt_le_iff.2 ⟨by norm_num, by norm_num at h2 ⊢; linarith⟩
  constructor <;> linarith

theorem s1_bounds : 0.38268343 ≤ sin (π / 8) ∧ sin (π / 8) ≤ 0.38268344 := by
  obtain ⟨h1, h2⟩ := sqrt2_bounds
  rw [Real.sin_pi_div_eight]
  have a : 0.76536686 ≤ √(2 - √2) := Real.le_sqrt' (by norm_num) |>.2 (by norm_num at h2 ⊢; linarith)
  have b : √(2 - √2) ≤ 0.76536688 := Real.sqrt_le_iff.2 ⟨by norm_num, by norm_num at h1 ⊢; linarith⟩
  constructor <;> linarith

theorem arai_bounds : ∀ k, k < 8 → (lows.getD k 0 : ℝ) ≤ 1000000000 * arai k ^ 2 ∧ 1000000000 * arai k ^ 2 ≤ (highs.getD k 0 : ℝ) := by
  obtain ⟨r1, r2⟩ := sqrt2_bounds
  obtain ⟨c1, c2⟩ := c1_bounds
  obtain ⟨s1, s2⟩ := s1_bounds
  intro k hk
  have h4 : cos (π / 4) = √2 / 2 := Real.cos_pi_div_four
  match k, hk with
  | 0, _ => simp [arai, lows, highs]
  | 1, _ =>
    rw [arai_sq (by decide), show ((1 : Nat) : ℝ) * π / 8 = π / 8 by push_cast; ring]
    rw [show lows.getD 1 0 = 1923879530 from rfl, show highs.getD 1 0 = 1923879540 from rfl]
    push_cast
    constructor <;> linarith
  | 2, _ =>
    rw [arai_sq (by decide), show ((2 : Nat) : ℝ) * π / 8 = π / 4 by push_cast; ring, h4]
    rw [show lows.getD 2 0 = 1707106780 from rfl, show highs.getD 2 0 = 1707106785 from rfl]
    push_cast
    constructor <;> linarith
  | 3, _ =>
    rw [arai_sq (by decide), show ((3 : Nat) : ℝ) * π / 8 = π / 2 - π / 8 by push_cast; ring, Real.cos_pi_div_two_sub]
    rw [show lows.getD 3 0 = 1382683430 from rfl, show highs.getD 3 0 = 1382683440 from rfl]
    push_cast
    constructor <;> linarith
  | 4, _ =>
    rw [arai_sq (by decide), show ((4 : Nat) : ℝ) * π / 8 = π / 2 by push_cast; ring, Real.cos_pi_div_two]
    simp [lows, highs]
  | 5, _ =>
    rw [arai_sq (by decide), show ((5 : Nat) : ℝ) * π / 8 = π - (π / 2 - π / 8) by push_cast; ring, Real.cos_pi_sub, Real.cos_pi_div_two_sub]
    rw [show lows.getD 5 0 = 617316560 from rfl, show highs.getD 5 0 = 617316570 from rfl]
    push_cast
    constructor <;> linarith
  | 6, _ =>
    rw [arai_sq (by decide), show ((6 : Nat) : ℝ) * π / 8 = π - π / 4 by push_cast; ring, Real.cos_pi_sub, h4]
    rw [show lows.getD 6 0 = 292893215 from rfl, show highs.getD 6 0 = 292893220 from rfl]
    push_cast
    constructor <;> linarith
  | 7, _ =>
    rw [arai_sq (by decide), show ((7 : Nat) : ℝ) * π / 8 = π - π / 8 by push_cast; ring, Real.cos_pi_sub]
    rw [show lows.getD 7 0 = 76120460 from rfl, show highs.getD 7 0 = 76120470 from rfl]
    push_cast
    constructor <;> linarith

theorem arai_nonneg {k : Nat} (hk : k < 8) : 0 ≤ arai k := by
  unfold arai
  split
  · norm_num
  · refine mul_nonneg (Real.sqrt_nonneg _) (Real.cos_nonneg_of_mem_Icc ⟨?_, ?_⟩)
    · have := Real.pi_pos
      have : (0 : ℝ) ≤ k := Nat.cast_nonneg k
      have : 0 ≤ (k : ℝ) * π / 16 := by positivity
      linarith
    · have hp := Real.pi_pos
      have : (k : ℝ) ≤ 8 := by exact_mod_cast hk.le
      have := mul_le_mul_of_nonneg_right this hp.le
      linarith

theorem table_bounds : ∀ i, i < 8 → ∀ j, j < 8 → 1 ≤ ipsf.getD (8 * i + j) 0 ∧
    (100 * ipsf.getD (8 * i + j) 0 - 1) ^ 2 * (1000000000 * 1000000000) ≤ 819200 ^ 2 * (lows.getD i 0 * lows.getD j 0) ∧
    819200 ^ 2 * (highs.getD i 0 * highs.getD j 0) ≤ (100 * ipsf.getD (8 * i + j) 0 + 95) ^ 2 * (1000000000 * 1000000000) := by decide +kernel

/-- C108: the factor in row `i` and column `j` is 8192 times the product of the factors of the row and of the column, rounded down, where less than a hundredth below a whole number counts as the number. No other whole number meets this. -/
theorem C108_factors {i j : Nat} (hi : i < 8) (hj : j < 8) :
    (ipsf.getD (8 * i + j) 0 : ℝ) - 1 / 100 ≤ 8192 * (arai i * arai j) ∧ 8192 * (arai i * arai j) ≤ (ipsf.getD (8 * i + j) 0 : ℝ) + 95 / 100 := by
  obtain ⟨h0, h1, h2⟩ := table_bounds i hi j hj
  obtain ⟨a1, a2⟩ := arai_bounds i hi
  obtain ⟨b1, b2⟩ := arai_bounds j hj
  have ai := arai_nonneg hi
  have aj := arai_nonneg hj
  have h1' : (((100 * ipsf.getD (8 * i + j) 0 - 1 : Nat) : ℝ)) ^ 2 * (1000000000 * 1000000000) ≤ 819200 ^ 2 * (lows.getD i 0 * lows.getD j 0) := by exact_mod_cast h1
  have h2' : (819200 : ℝ) ^ 2 * (highs.getD i 0 * highs.getD j 0) ≤ (100 * (ipsf.getD (8 * i + j) 0 : ℝ) + 95) ^ 2 * (1000000000 * 1000000000) := by exact_mod_cast h2
  rw [Nat.cast_sub (by omega), Nat.cast_one, Nat.cast_mul, Nat.cast_ofNat] at h1'
  have lo := mul_le_mul a1 b1 (Nat.cast_nonneg _) (by positivity)
  have hi' := mul_le_mul a2 b2 (by positivity) (Nat.cast_nonneg _)
  have ht : (0 : ℝ) ≤ 100 * (ipsf.getD (8 * i + j) 0 : ℝ) + 95 := by positivity
  generalize (ipsf.getD (8 * i + j) 0 : ℝ) = t at *
  have e0 : (819200 * (arai i * arai j)) ^ 2 * (1000000000 * 1000000000) = 819200 ^ 2 * (1000000000 * arai i ^ 2 * (1000000000 * arai j ^ 2)) := by ring
  have e1 : (100 * t - 1) ^ 2 ≤ (819200 * (arai i * arai j)) ^ 2 := by
    have := mul_le_mul_of_nonneg_left lo (show (0 : ℝ) ≤ 819200 ^ 2 by positivity)
    nlinarith
  have e2 : (819200 * (arai i * arai j)) ^ 2 ≤ (100 * t + 95) ^ 2 := by
    have := mul_le_mul_of_nonneg_left hi' (show (0 : ℝ) ≤ 819200 ^ 2 by positivity)
    nlinarith
  have hp : 0 ≤ 819200 * (arai i * arai j) := by positivity
  have k1 := abs_le_of_sq_le_sq e1 hp
  have k2 := abs_le_of_sq_le_sq e2 ht
  constructor <;> linarith [le_abs_self (100 * t - 1), le_abs_self (819200 * (arai i * arai j))]

/-- The factor of the first row and the second column: 8192 times the root of 2 times the cosine of π/16 lies between 11361.99 and 11362.95. -/
example : (11362 : ℝ) - 1 / 100 ≤ 8192 * (arai 0 * arai 1) ∧ 8192 * (arai 0 * arai 1) ≤ (11362 : ℝ) + 95 / 100 := by
  have := C108_factors (i := 0) (j := 1) (by decide) (by decide)
  rw [show ipsf.getD (8 * 0 + 1) 0 = 11362 from rfl] at this
  exact_mod_cast this

/-! ## The order of the coefficients -/

/-- The place of an entry in the zigzag order: by diagonals, downwards on the odd ones and upwards on the even ones. -/
def zigzagKey (p : Nat) : Nat := (p / 8 + p % 8) * 8 + if (p / 8 + p % 8) % 2 = 1 then p / 8 else p % 8

/-- C108: the table has each of the 64 places once, in the zigzag order. No other list does. -/
theorem C108_zigzag : zig.length = 64 ∧ (∀ p ∈ zig, p < 64) ∧ zig.Pairwise (fun p q => zigzagKey p < zigzagKey q) := by decide +kernel

end Verif.Jpg
