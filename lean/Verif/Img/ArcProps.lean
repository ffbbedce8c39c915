import Verif.Img.Arc
import Verif.Img.Props
import Mathlib.Analysis.SpecialFunctions.Complex.Arg

/-!
# C119: a thin arc is the part of a thin circle between two directions

The directions are those of the two end points, as whole pixels. What a direction is, is said with Mathlib's sine and cosine.
-/

namespace Verif.Img

/-- The point lies in the direction `φ` from the centre. The rows of an image go downwards, so that angles go clockwise. -/
def Towards (x y : Int) (φ : ℝ) : Prop := ∃ ρ : ℝ, 0 < ρ ∧ (x : ℝ) = ρ * Real.cos φ ∧ (y : ℝ) = ρ * Real.sin φ

/-- Every point but the centre lies in a direction that is less than a turn behind a given one. -/
theorem towards_exists {x y : Int} (h : x ≠ 0 ∨ y ≠ 0) (φ : ℝ) : ∃ θ, φ ≤ θ ∧ θ < φ + 2 * Real.pi ∧ Towards x y θ := by
  have hz : (⟨x, y⟩ : ℂ) ≠ 0 := by
    intro e
    have h1 := congrArg Complex.re e
    have h2 := congrArg Complex.im e
    simp only [Complex.zero_re, Complex.zero_im, Int.cast_eq_zero] at h1 h2
    omega
  have hn : 0 < ‖(⟨x, y⟩ : ℂ)‖ := norm_pos_iff.2 hz
  have hm := toIcoMod_mem_Ico Real.two_pi_pos φ (Complex.arg ⟨x, y⟩)
  have hs := toIcoMod_add_toIcoDiv_zsmul Real.two_pi_pos φ (Complex.arg ⟨x, y⟩)
  refine ⟨toIcoMod Real.two_pi_pos φ (Complex.arg ⟨x, y⟩), hm.1, hm.2, ‖(⟨x, y⟩ : ℂ)‖, hn, ?_, ?_⟩
  · have h := Complex.norm_mul_cos_arg ⟨x, y⟩
    rw [← hs, zsmul_eq_mul, Real.cos_add_int_mul_two_pi] at h
    exact h.symm
  · have h := Complex.norm_mul_sin_arg ⟨x, y⟩
    rw [← hs, zsmul_eq_mul, Real.sin_add_int_mul_two_pi] at h
    exact h.symm

theorem cross_eq {a b x y : Int} {ρ s θ φ : ℝ} (ha : (a : ℝ) = ρ * Real.cos θ) (hb : (b : ℝ) = ρ * Real.sin θ) (hx : (x : ℝ) = s * Real.cos φ) (hy : (y : ℝ) = s * Real.sin φ) :
    ((a * y - b * x : Int) : ℝ) = -(ρ * s * Real.sin (θ - φ)) := by
  push_cast
  rw [ha, hb, hx, hy, Real.sin_sub]
  ring

theorem cross_neg {a b x y : Int} {θ φ : ℝ} (hp : Towards a b θ) (hq : Towards x y φ) : a * y - b * x < 0 ↔ 0 < Real.sin (θ - φ) := by
  obtain ⟨ρ, hρ, ha, hb⟩ := hp
  obtain ⟨s, hs, hx, hy⟩ := hq
  have h := cross_eq ha hb hx hy
  have hk : 0 < ρ * s := mul_pos hρ hs
  rw [← Int.cast_lt (R := ℝ), h, Int.cast_zero, neg_lt_zero]
  exact mul_pos_iff_of_pos_left hk

theorem cross_pos {a b x y : Int} {θ φ : ℝ} (hp : Towards a b θ) (hq : Towards x y φ) : 0 < a * y - b * x ↔ Real.sin (θ - φ) < 0 := by
  obtain ⟨ρ, hρ, ha, hb⟩ := hp
  obtain ⟨s, hs, hx, hy⟩ := hq
  have h := cross_eq ha hb hx hy
  have hk : 0 < ρ * s := mul_pos hρ hs
  rw [← Int.cast_lt (R := ℝ), h, Int.cast_zero, neg_pos]
  constructor
  · intro g
    by_contra k
    have := mul_nonneg hk.le (not_lt.1 k)
    linarith
  · exact fun g => mul_neg_of_pos_of_neg hk g

theorem same_of_eq {a b x y : Int} {θ : ℝ} (hp : Towards a b θ) (hq : Towards x y θ) : SameQuadrant a b x y := by
  obtain ⟨ρ, hρ, ha, hb⟩ := hp
  obtain ⟨s, hs, hx, hy⟩ := hq
  have hk : 0 < ρ * s := mul_pos hρ hs
  constructor
  · rw [← Int.cast_le (R := ℝ)]; push_cast; rw [ha, hx]
    nlinarith [mul_nonneg hk.le (mul_self_nonneg (Real.cos θ))]
  · rw [← Int.cast_le (R := ℝ)]; push_cast; rw [hb, hy]
    nlinarith [mul_nonneg hk.le (mul_self_nonneg (Real.sin θ))]

theorem not_same_of_opp {a b x y : Int} {θ φ : ℝ} (hp : Towards a b θ) (hq : Towards x y φ) (h : θ = φ + Real.pi) : ¬ SameQuadrant a b x y := by
  obtain ⟨ρ, hρ, ha, hb⟩ := hp
  obtain ⟨s, hs, hx, hy⟩ := hq
  have hk : 0 < ρ * s := mul_pos hρ hs
  rw [h, Real.cos_add_pi] at ha
  rw [h, Real.sin_add_pi] at hb
  rintro ⟨h1, h2⟩
  rw [← Int.cast_le (R := ℝ)] at h1 h2
  push_cast at h1 h2
  rw [ha, hx] at h1
  rw [hb, hy] at h2
  have := Real.sin_sq_add_cos_sq φ
  nlinarith

theorem sin_neg_turn {t : ℝ} (h1 : Real.pi < t) (h2 : t < 2 * Real.pi) : Real.sin t < 0 := by
  have := Real.sin_pos_of_pos_of_lt_pi (x := t - Real.pi) (by linarith) (by linarith)
  rw [Real.sin_sub_pi] at this
  linarith

/-- The test of a pixel is the test of its direction: it is drawn if it is in the rows and not behind the second end, as seen from the first one. -/
theorem inArc_iff {e : Ends} {a b : Int} {φ0 φ1 θ : ℝ} (h0 : Towards e.x0 e.y0 φ0) (h1 : Towards e.x1 e.y1 φ1) (hφ : φ0 < φ1 ∧ φ1 < φ0 + 2 * Real.pi) (hne : φ1 ≠ φ0 + Real.pi)
    (hc : e.closed = true ↔ φ0 + Real.pi < φ1) (hp : Towards a b θ) (hθ : φ0 ≤ θ ∧ θ < φ0 + 2 * Real.pi) : InArc e a b ↔ e.minY ≤ b ∧ b ≤ e.maxY ∧ θ ≤ φ1 := by
  have pp := Real.pi_pos
  unfold InArc
  refine and_congr Iff.rfl (and_congr Iff.rfl ?_)
  by_cases hcl : e.closed = true
  · rw [if_pos hcl]
    have hk := hc.1 hcl
    rw [gt_iff_lt, cross_pos hp h0, cross_neg hp h1]
    constructor
    · intro h
      by_contra k
      have k := not_le.1 k
      exact h ⟨sin_neg_turn (by linarith) (by linarith [hθ.2]), Real.sin_pos_of_pos_of_lt_pi (by linarith) (by linarith [hθ.2])⟩
    · rintro h ⟨g1, g2⟩
      have g3 : Real.pi < θ - φ0 := by
        by_contra k
        have := Real.sin_nonneg_of_nonneg_of_le_pi (x := θ - φ0) (by linarith [hθ.1]) (not_lt.1 k)
        linarith
      have := Real.sin_nonpos_of_nonpos_of_neg_pi_le (x := θ - φ1) (by linarith) (by linarith [hφ.2])
      linarith
  · rw [if_neg hcl]
    have hk : φ1 < φ0 + Real.pi := lt_of_le_of_ne (not_lt.1 fun h => hcl (hc.2 h)) hne
    constructor
    · rintro ⟨g1, g2, g3, g4⟩
      have g1' : 0 ≤ Real.sin (θ - φ0) := not_lt.1 fun h => absurd ((cross_pos hp h0).2 h) (by omega)
      have g2' : Real.sin (θ - φ1) ≤ 0 := not_lt.1 fun h => absurd ((cross_neg hp h1).2 h) (by omega)
      have k1 : θ - φ0 ≤ Real.pi := by
        by_contra k
        have := sin_neg_turn (t := θ - φ0) (not_le.1 k) (by linarith [hθ.2])
        linarith
      have k2 : θ ≠ φ0 + Real.pi := by
        intro k
        refine not_same_of_opp hp h0 k (g3 ?_)
        have hz : Real.sin (θ - φ0) = 0 := by rw [k, add_sub_cancel_left, Real.sin_pi]
        have n1 : ¬ (a * e.y0 - b * e.x0 < 0) := fun h => by have := (cross_neg hp h0).1 h; linarith
        omega
      by_contra k
      have := Real.sin_pos_of_pos_of_lt_pi (x := θ - φ1) (by linarith [not_le.1 k]) (by linarith [hφ.1])
      linarith
    · intro h
      have s0 : 0 ≤ Real.sin (θ - φ0) := Real.sin_nonneg_of_nonneg_of_le_pi (by linarith [hθ.1]) (by linarith)
      have s1 : Real.sin (θ - φ1) ≤ 0 := Real.sin_nonpos_of_nonpos_of_neg_pi_le (by linarith) (by linarith [hθ.1])
      refine ⟨?_, ?_, fun g => ?_, fun g => ?_⟩
      · have : ¬ (0 < a * e.y0 - b * e.x0) := fun h => by have := (cross_pos hp h0).1 h; linarith
        omega
      · have : ¬ (a * e.y1 - b * e.x1 < 0) := fun h => by have := (cross_neg hp h1).1 h; linarith
        omega
      · have : θ = φ0 := by
          by_contra k
          have : φ0 < θ := lt_of_le_of_ne hθ.1 (Ne.symm k)
          have := (cross_neg hp h0).2 (Real.sin_pos_of_pos_of_lt_pi (by linarith) (by linarith))
          omega
        rw [this] at hp
        exact same_of_eq hp h0
      · have : θ = φ1 := by
          by_contra k
          have : θ < φ1 := lt_of_le_of_ne h k
          have := (cross_pos hp h1).2 (Real.sin_neg_of_neg_of_neg_pi_lt (by linarith) (by linarith [hθ.1]))
          omega
        rw [this] at hp
        exact same_of_eq hp h1

/-- A thin arc that is shorter or longer than a half circle is what a thin circle has between the directions of the end points of the arc, in the rows of the arc. -/
theorem C119_arc_partial {m : Img} (wf : Ok m) {e : Ends} (he : e.Small) {cx cy r : Int} (hcx : -1073741824 ≤ cx ∧ cx ≤ 1073741824) (hcy : -1073741824 ≤ cy ∧ cy ≤ 1073741824)
    (hr : 2 ≤ r ∧ r ≤ 16383) {φ0 φ1 : ℝ} (h0 : Towards e.x0 e.y0 φ0) (h1 : Towards e.x1 e.y1 φ1) (hφ : φ0 < φ1 ∧ φ1 < φ0 + 2 * Real.pi) (hne : φ1 ≠ φ0 + Real.pi)
    (hc : e.closed = true ↔ φ0 + Real.pi < φ1) {c : Color} (hp : Plain m.fmt c) :
    ∃ m', thinArc e m cx cy r c = some m' ∧
      Painted m m' (Wrap fun i j => Rim r (i - cx) (j - cy) ∧ e.minY ≤ j - cy ∧ j - cy ≤ e.maxY ∧ ∃ θ, φ0 ≤ θ ∧ θ ≤ φ1 ∧ Towards (i - cx) (j - cy) θ) fun _ _ => c := by
  obtain ⟨m', e1, d⟩ := thinArc_drawn he wf hcx hcy ⟨by omega, hr.2⟩ c
  refine ⟨m', e1, (d.congr fun i j => ?_).paint hp⟩
  constructor
  · rintro ⟨g, k⟩
    have hz : i - cx ≠ 0 ∨ j - cy ≠ 0 := by
      by_contra hz
      have z1 : i - cx = 0 := by omega
      have z2 : j - cy = 0 := by omega
      rw [z1, z2] at g
      have h4 := sq_le (a := 2) (b := r) (by omega) hr.1
      refine g.2 ⟨?_, ?_, ?_, ?_⟩ <;> unfold Disk <;> omega
    obtain ⟨θ, t1, t2, t3⟩ := towards_exists hz φ0
    have := (inArc_iff h0 h1 hφ hne hc t3 ⟨t1, t2⟩).1 k
    exact ⟨g, this.1, this.2.1, θ, t1, this.2.2, t3⟩
  · rintro ⟨g, a, b, θ, t1, t2, t3⟩
    exact ⟨g, (inArc_iff h0 h1 hφ hne hc t3 ⟨t1, lt_of_le_of_lt t2 hφ.2⟩).2 ⟨a, b, t2⟩⟩

/-- The ends of a quarter of a circle of the radius 4, from the right downwards. -/
def quarter : Ends := ⟨4, 0, 0, 4, 0, 4, false⟩

theorem quarter_first : Towards quarter.x0 quarter.y0 0 := ⟨4, by norm_num, by simp [quarter], by simp [quarter]⟩
theorem quarter_second : Towards quarter.x1 quarter.y1 (Real.pi / 2) := ⟨4, by norm_num, by simp [quarter], by simp [quarter]⟩

example : ∃ m', thinArc quarter sample 3 2 4 3 = some m' ∧
    Painted sample m' (Wrap fun i j => Rim 4 (i - 3) (j - 2) ∧ 0 ≤ j - 2 ∧ j - 2 ≤ 4 ∧ ∃ θ, 0 ≤ θ ∧ θ ≤ Real.pi / 2 ∧ Towards (i - 3) (j - 2) θ) fun _ _ => 3 :=
  C119_arc_partial sample_ok (e := quarter) (by unfold Ends.Small quarter; decide) (by decide) (by decide) (by decide) quarter_first quarter_second
    ⟨by linarith [Real.pi_pos], by linarith [Real.pi_pos]⟩ (by linarith [Real.pi_pos]) ⟨fun h => by simp [quarter] at h, fun h => by linarith [Real.pi_pos]⟩ (plain2 (by decide))

/-- The other three quarters. -/
def threeQuarters : Ends := ⟨0, 4, 4, 0, -4, 4, true⟩

example : ∃ m', thinArc threeQuarters sample 3 2 4 3 = some m' ∧
    Painted sample m' (Wrap fun i j => Rim 4 (i - 3) (j - 2) ∧ -4 ≤ j - 2 ∧ j - 2 ≤ 4 ∧ ∃ θ, Real.pi / 2 ≤ θ ∧ θ ≤ 2 * Real.pi ∧ Towards (i - 3) (j - 2) θ) fun _ _ => 3 :=
  C119_arc_partial sample_ok (e := threeQuarters) (by unfold Ends.Small threeQuarters; decide) (by decide) (by decide) (by decide) quarter_second
    ⟨4, by norm_num, by simp [threeQuarters], by simp [threeQuarters]⟩
    ⟨by linarith [Real.pi_pos], by linarith [Real.pi_pos]⟩ (by intro h; linarith [Real.pi_pos]) ⟨fun _ => by linarith [Real.pi_pos], fun _ => rfl⟩ (plain2 (by decide))

example : Rim 4 3 1 ∧ Rim 4 2 2 ∧ ¬ Rim 4 1 1 ∧ ¬ Rim 4 3 3 := by unfold Rim Disk; decide

/-! ## A thin circle has no holes -/

/-- A walk to the left, to the right, up or down. -/
inductive Walk : Int → Int → List (Int × Int) → Int → Int → Prop
  | stay (a b : Int) : Walk a b [(a, b)] a b
  | left {a b l a' b'} : Walk (a - 1) b l a' b' → Walk a b ((a, b) :: l) a' b'
  | right {a b l a' b'} : Walk (a + 1) b l a' b' → Walk a b ((a, b) :: l) a' b'
  | up {a b l a' b'} : Walk a (b - 1) l a' b' → Walk a b ((a, b) :: l) a' b'
  | down {a b l a' b'} : Walk a (b + 1) l a' b' → Walk a b ((a, b) :: l) a' b'

theorem C119_no_holes {r a b a' b' : Int} {l : List (Int × Int)} (w : Walk a b l a' b') (h : Disk r a b) (h' : ¬ Disk r a' b') : ∃ p ∈ l, Rim r p.1 p.2 := by
  induction w with
  | stay a b => exact absurd h h'
  | @left a b l a' b' _ ih =>
    by_cases g : Disk r (a - 1) b
    · obtain ⟨p, hp, k⟩ := ih g h'
      exact ⟨p, List.mem_cons_of_mem _ hp, k⟩
    · exact ⟨(a, b), List.mem_cons_self, h, fun k => g k.1⟩
  | @right a b l a' b' _ ih =>
    by_cases g : Disk r (a + 1) b
    · obtain ⟨p, hp, k⟩ := ih g h'
      exact ⟨p, List.mem_cons_of_mem _ hp, k⟩
    · exact ⟨(a, b), List.mem_cons_self, h, fun k => g k.2.1⟩
  | @up a b l a' b' _ ih =>
    by_cases g : Disk r a (b - 1)
    · obtain ⟨p, hp, k⟩ := ih g h'
      exact ⟨p, List.mem_cons_of_mem _ hp, k⟩
    · exact ⟨(a, b), List.mem_cons_self, h, fun k => g k.2.2.1⟩
  | @down a b l a' b' _ ih =>
    by_cases g : Disk r a (b + 1)
    · obtain ⟨p, hp, k⟩ := ih g h'
      exact ⟨p, List.mem_cons_of_mem _ hp, k⟩
    · exact ⟨(a, b), List.mem_cons_self, h, fun k => g k.2.2.2⟩

example : ∃ p ∈ [((0 : Int), (0 : Int)), (0, 1), (1, 1), (1, 2)], Rim 2 p.1 p.2 :=
  C119_no_holes (.down (.right (.down (.stay 1 2)))) (by unfold Disk; decide) (by unfold Disk; decide)

end Verif.Img
