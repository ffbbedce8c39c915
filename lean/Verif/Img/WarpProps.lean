import Verif.Img.Props

/-! # C113: copying an image with scaling and rotation -/

namespace Verif.Img

/-- The place of a scaled pixel. -/
theorem tdiv_iff {u sc : Int} (hs : 0 < sc) (a : Nat) (hu : 0 ≤ u) : u.tdiv sc = a ↔ sc * a ≤ u ∧ u < sc * (a + 1) := by
  rw [Int.tdiv_eq_ediv_of_nonneg hu, Int.ediv_eq_iff_of_pos hs]
  rw [Int.mul_add, Int.mul_comm (a : Int) sc]
  constructor <;> intro h <;> omega

theorem tdiv_neg_small {u sc : Int} (h1 : -sc < u) (h2 : u < 0) : u.tdiv sc = 0 := by
  have h : (u.tdiv sc).natAbs = 0 := by
    rw [Int.natAbs_tdiv]
    exact Nat.div_eq_of_lt (by omega)
  omega

theorem tdiv_neg_large {u sc : Int} (hs : 0 < sc) (h1 : u ≤ -sc) : u.tdiv sc < 0 := by
  have h0 : (-u).tdiv sc = -(u.tdiv sc) := Int.neg_tdiv u sc
  rw [Int.tdiv_eq_ediv_of_nonneg (by omega)] at h0
  have : 1 ≤ (-u) / sc := by
    rw [Int.le_ediv_iff_mul_le hs]; omega
  omega

/-- `img-blit` with a scale of `sc` thousandths: a pixel of the source covers the pixels of the destination whose distance from the position, in thousandths, is between its column (row) times `sc` and the next column times `sc`.
Pixels outside of the scaled source stay as they are, apart from those less than one scaled pixel above or to the left of the position. -/
theorem scale_partial {m src : Img} (wf : Ok m) (ws : Ok src) (hf : src.fmt = m.fmt) (h16 : m.fmt ≠ 16) {x y xr yr sc : Int} (hx : -100000 ≤ x ∧ x ≤ 100000) (hy : -100000 ≤ y ∧ y ≤ 100000)
    (hxr : -100000 ≤ xr ∧ xr ≤ 100000) (hyr : -100000 ≤ yr ∧ yr ≤ 100000) (hs : 0 < sc) (tr : Color) :
    ∃ m', blitScale m src x y xr yr sc tr = some m' ∧ SameDims m m' ∧ ∀ i j k : Nat, i < m.w → j < m.h → k < m.fmt →
      (∀ a b : Nat, a < src.w → b < src.h → sc * a ≤ (i - x) * 1000 → (i - x) * 1000 < sc * (a + 1) → sc * b ≤ (j - y) * 1000 → (j - y) * 1000 < sc * (b + 1) →
        pix m' i j k = if getpixel src a b = some tr then pix m i j k else pix src a b k) ∧
      ((i - x) * 1000 ≤ -sc ∨ (j - y) * 1000 ≤ -sc ∨ sc * src.w ≤ (i - x) * 1000 ∨ sc * src.h ≤ (j - y) * 1000 → pix m' i j k = pix m i j k) := by
  have hd := wf.dims
  obtain ⟨m', e, sd, h⟩ := warp_same wf ws hf h16 (f := scaleSrc x y xr yr sc) (p := scaleAt x y sc) tr fun i j hi hj => scaleSrc_ok (x := x) (y := y) (xr := xr) (yr := yr) (sc := sc) (i := i) (j := j) hx hy hxr hyr (by omega) (by omega) (by omega)
  refine ⟨m', e, sd, fun i j k hi hj hk => ?_⟩
  obtain ⟨h1, h2⟩ := h i j k hi hj hk
  refine ⟨fun a b ha hb p1 p2 p3 p4 => ?_, fun hout => h2 fun a b ha hb hp => ?_⟩
  · have ga : 0 ≤ sc * a := Int.mul_nonneg (by omega) (by omega)
    have gb : 0 ≤ sc * b := Int.mul_nonneg (by omega) (by omega)
    have ea := (tdiv_iff hs a (by omega)).2 ⟨p1, p2⟩
    have eb := (tdiv_iff hs b (by omega)).2 ⟨p3, p4⟩
    by_cases ht : getpixel src a b = some tr
    · rw [if_pos ht]
      refine h2 fun a' b' _ _ hp => ?_
      rw [scaleAt, Prod.mk.injEq, ea, eb] at hp
      obtain ⟨q1, q2⟩ := hp
      rw [show a' = a by omega, show b' = b by omega]; exact ht
    · rw [if_neg ht]
      exact h1 a b ha hb (by rw [scaleAt, ea, eb]) ht
  · exfalso
    rw [scaleAt, Prod.mk.injEq] at hp
    obtain ⟨q1, q2⟩ := hp
    have mono : ∀ (c d : Nat), c < d → sc * ((c : Int) + 1) ≤ sc * d := fun c d hcd => Int.mul_le_mul_of_nonneg_left (by omega) (by omega)
    rcases hout with g | g | g | g
    · have := tdiv_neg_large hs g; omega
    · have := tdiv_neg_large hs g; omega
    · have g0 : 0 ≤ sc * (src.w : Int) := Int.mul_nonneg (by omega) (by omega)
      have := ((tdiv_iff hs a (by omega)).1 q1).2
      have := mono a src.w ha
      omega
    · have g0 : 0 ≤ sc * (src.h : Int) := Int.mul_nonneg (by omega) (by omega)
      have := ((tdiv_iff hs b (by omega)).1 q2).2
      have := mono b src.h hb
      omega

/-- Scaling by a whole factor makes each pixel a square. -/
theorem enlarge_partial {m src : Img} (wf : Ok m) (ws : Ok src) (hf : src.fmt = m.fmt) (h16 : m.fmt ≠ 16) {x y : Int} (hx : -100000 ≤ x ∧ x ≤ 100000) (hy : -100000 ≤ y ∧ y ≤ 100000) {n : Nat} (hn : 0 < n) (tr : Color) :
    ∃ m', blitScale m src x y 0 0 (1000 * n) tr = some m' ∧ SameDims m m' ∧ ∀ a b u v k : Nat, a < src.w → b < src.h → u < n → v < n → k < m.fmt →
      ∀ i j : Nat, i < m.w → j < m.h → (i : Int) = x + n * a + u → (j : Int) = y + n * b + v → pix m' i j k = if getpixel src a b = some tr then pix m i j k else pix src a b k := by
  obtain ⟨m', e, sd, h⟩ := scale_partial wf ws hf h16 (xr := 0) (yr := 0) (sc := 1000 * n) hx hy (by omega) (by omega) (by omega) tr
  refine ⟨m', e, sd, fun a b u v k ha hb hu hv hk i j hi hj ei ej => (h i j k hi hj hk).1 a b ha hb ?_ ?_ ?_ ?_⟩
  · rw [Int.mul_assoc]; omega
  · rw [Int.mul_assoc, Int.mul_add]; omega
  · rw [Int.mul_assoc]; omega
  · rw [Int.mul_assoc, Int.mul_add]; omega

example : ∃ m', blitScale sample stamp 1 (-1) 0 0 (1000 * (2 : Nat)) 0xFFFFFFFF = some m' ∧ SameDims sample m' ∧ ∀ a b u v k : Nat, a < stamp.w → b < stamp.h → u < 2 → v < 2 → k < sample.fmt →
    ∀ i j : Nat, i < sample.w → j < sample.h → (i : Int) = 1 + (2 : Nat) * a + u → (j : Int) = -1 + (2 : Nat) * b + v → pix m' i j k = if getpixel stamp a b = some 0xFFFFFFFF then pix sample i j k else pix stamp a b k :=
  enlarge_partial sample_ok stamp_ok rfl (by decide) (by decide) (by decide) (by decide) _

/-- The full claim fails: numbers are rounded towards zero, so the first column is shown to the left of the position too. Scaled by `n`, it is `2 * n - 1` pixels wide. -/
theorem scale_fringe_violated {m src : Img} (wf : Ok m) (ws : Ok src) (hf : src.fmt = m.fmt) (h16 : m.fmt ≠ 16) (hw : 0 < src.w) {x y : Int} (hx : -100000 ≤ x ∧ x ≤ 100000) (hy : -100000 ≤ y ∧ y ≤ 100000) {n : Nat} (hn : 0 < n) (tr : Color) :
    ∃ m', blitScale m src x y 0 0 (1000 * n) tr = some m' ∧ ∀ b v k : Nat, b < src.h → v < n → k < m.fmt →
      ∀ i j : Nat, i < m.w → j < m.h → x - n < i → (i : Int) < x → (j : Int) = y + n * b + v → getpixel src (0 : Nat) b ≠ some tr → pix m' i j k = pix src 0 b k := by
  have hd := wf.dims
  obtain ⟨m', e, -, h⟩ := warp_same wf ws hf h16 (f := scaleSrc x y 0 0 (1000 * n)) (p := scaleAt x y (1000 * n)) tr fun i j hi hj => scaleSrc_ok (i := i) (j := j) hx hy (by omega) (by omega) (by omega) (by omega) (by omega)
  refine ⟨m', e, fun b v k hb hv hk i j hi hj h1 h2 ej ht => (h i j k hi hj hk).1 0 b hw hb ?_ ht⟩
  have g : 0 ≤ (n : Int) * b := Int.mul_nonneg (by omega) (by omega)
  rw [scaleAt, tdiv_neg_small (by omega) (by omega), (tdiv_iff (sc := 1000 * n) (by omega) b (by omega)).2 ⟨by rw [Int.mul_assoc]; omega, by rw [Int.mul_assoc, Int.mul_add]; omega⟩]
  rfl

example : ∃ m', blitScale sample stamp 1 (-1) 0 0 (1000 * (2 : Nat)) 0xFFFFFFFF = some m' ∧ ∀ b v k : Nat, b < stamp.h → v < 2 → k < sample.fmt →
    ∀ i j : Nat, i < sample.w → j < sample.h → 1 - ((2 : Nat) : Int) < i → (i : Int) < 1 → (j : Int) = -1 + (2 : Nat) * b + v → getpixel stamp (0 : Nat) b ≠ some 0xFFFFFFFF → pix m' i j k = pix stamp 0 b k :=
  scale_fringe_violated sample_ok stamp_ok rfl (by decide) (by decide) (by decide) (by decide) (by decide) _

/-- A picture of one white pixel, shown twice as large at (1, 1): three times three pixels become white. -/
theorem scale_fringe_example : (blitScale ⟨4, 4, 8, List.replicate 16 0⟩ ⟨1, 1, 8, [0xFF]⟩ 1 1 0 0 2000 0).map (·.data) = some [0xFF, 0xFF, 0xFF, 0, 0xFF, 0xFF, 0xFF, 0, 0xFF, 0xFF, 0xFF, 0, 0, 0, 0, 0] := by decide +kernel

/-- A scale below a thousandth is a division by zero. -/
theorem scale_zero_violated {m src : Img} (hm : 0 < m.w ∧ 0 < m.h) (x y xr yr : Int) (tr : Color) : blitScale m src x y xr yr 0 tr = none := by
  obtain ⟨w, hw⟩ : ∃ w, m.w = w + 1 := ⟨m.w - 1, by omega⟩
  obtain ⟨h, hh⟩ : ∃ h, m.h = h + 1 := ⟨m.h - 1, by omega⟩
  have h0 : scaleSrc x y xr yr 0 0 0 = none := by
    unfold scaleSrc dv
    simp
  rw [blitScale, hw, hh, warpRows, warpRow, h0]
  rfl

/-- Rotation by a multiple of a right angle: `c` and `s` are the cosine and the sine. Each pixel of the source is copied to the place to which the rotation about the pixel (`xr`, `yr`) of the source moves it, and nothing else changes. -/
theorem turn_partial {m src : Img} (wf : Ok m) (ws : Ok src) (hf : src.fmt = m.fmt) (h16 : m.fmt ≠ 16) {x y xr yr : Int} (hx : -100000 ≤ x ∧ x ≤ 100000) (hy : -100000 ≤ y ∧ y ≤ 100000)
    (hxr : -100000 ≤ xr ∧ xr ≤ 100000) (hyr : -100000 ≤ yr ∧ yr ≤ 100000) {c s : Int} (hcs : c = 1 ∧ s = 0 ∨ c = 0 ∧ s = 1 ∨ c = -1 ∧ s = 0 ∨ c = 0 ∧ s = -1) (tr : Color) :
    ∃ m', blitTurn m src x y xr yr (1000 * s) (1000 * c) 1000 tr = some m' ∧ SameDims m m' ∧ ∀ i j k : Nat, i < m.w → j < m.h → k < m.fmt →
      (∀ a b : Nat, a < src.w → b < src.h → (i : Int) = x + xr + (c * (a - xr) - s * (b - yr)) → (j : Int) = y + yr + (s * (a - xr) + c * (b - yr)) → getpixel src a b ≠ some tr → pix m' i j k = pix src a b k) ∧
      ((∀ a b : Nat, a < src.w → b < src.h → (i : Int) = x + xr + (c * (a - xr) - s * (b - yr)) → (j : Int) = y + yr + (s * (a - xr) + c * (b - yr)) → getpixel src a b = some tr) → pix m' i j k = pix m i j k) := by
  have hd := wf.dims
  have hat : ∀ i j a b : Int, turnAt x y xr yr (1000 * s) (1000 * c) 1000 i j = (a, b) ↔ i = x + xr + (c * (a - xr) - s * (b - yr)) ∧ j = y + yr + (s * (a - xr) + c * (b - yr)) := by
    intro i j a b
    unfold turnAt
    rw [show (i - x - xr) * (1000 * c) + (j - y - yr) * (1000 * s) + xr * 1000 = ((i - x - xr) * c + (j - y - yr) * s + xr) * 1000 by grind,
      show -(i - x - xr) * (1000 * s) + (j - y - yr) * (1000 * c) + yr * 1000 = (-(i - x - xr) * s + (j - y - yr) * c + yr) * 1000 by grind, Int.mul_tdiv_cancel _ (by decide), Int.mul_tdiv_cancel _ (by decide), Prod.mk.injEq]
    rcases hcs with ⟨rfl, rfl⟩ | ⟨rfl, rfl⟩ | ⟨rfl, rfl⟩ | ⟨rfl, rfl⟩ <;> constructor <;> intro h <;> omega
  obtain ⟨m', e, sd, h⟩ := warp_same wf ws hf h16 (f := turnSrc x y xr yr (1000 * s) (1000 * c) 1000) (p := turnAt x y xr yr (1000 * s) (1000 * c) 1000) tr fun i j hi hj =>
    turnSrc_ok (i := i) (j := j) hx hy hxr hyr (by omega) (by omega) (by decide) (by omega) (by omega)
  refine ⟨m', e, sd, fun i j k hi hj hk => ?_⟩
  obtain ⟨h1, h2⟩ := h i j k hi hj hk
  exact ⟨fun a b ha hb ei ej ht => h1 a b ha hb ((hat i j a b).2 ⟨ei, ej⟩) ht, fun g => h2 fun a b ha hb hp => g a b ha hb ((hat i j a b).1 hp).1 ((hat i j a b).1 hp).2⟩

example : ∃ m', blitTurn sample stamp 1 2 1 0 (1000 * 1) (1000 * 0) 1000 0 = some m' ∧ SameDims sample m' ∧ ∀ i j k : Nat, i < sample.w → j < sample.h → k < sample.fmt →
    (∀ a b : Nat, a < stamp.w → b < stamp.h → (i : Int) = 1 + 1 + (0 * (a - 1) - 1 * (b - 0)) → (j : Int) = 2 + 0 + (1 * (a - 1) + 0 * (b - 0)) → getpixel stamp a b ≠ some 0 → pix m' i j k = pix stamp a b k) ∧
    ((∀ a b : Nat, a < stamp.w → b < stamp.h → (i : Int) = 1 + 1 + (0 * (a - 1) - 1 * (b - 0)) → (j : Int) = 2 + 0 + (1 * (a - 1) + 0 * (b - 0)) → getpixel stamp a b = some 0) → pix m' i j k = pix sample i j k) :=
  turn_partial sample_ok stamp_ok rfl (by decide) (by decide) (by decide) (by decide) (by decide) (by decide) _

/-- Any rotation and scale: a pixel of the destination gets the colour of the pixel of the source at the rotated place, and nothing else changes. The numbers are those of the code after the conversion to `int`. -/
theorem turn_any_partial {m src : Img} (wf : Ok m) (ws : Ok src) (hf : src.fmt = m.fmt) (h16 : m.fmt ≠ 16) {x y xr yr sr cr sc : Int} (hx : -100000 ≤ x ∧ x ≤ 100000) (hy : -100000 ≤ y ∧ y ≤ 100000)
    (hxr : -100000 ≤ xr ∧ xr ≤ 100000) (hyr : -100000 ≤ yr ∧ yr ≤ 100000) (hsr : -1000 ≤ sr ∧ sr ≤ 1000) (hcr : -1000 ≤ cr ∧ cr ≤ 1000) (hs : sc ≠ 0) (tr : Color) :
    ∃ m', blitTurn m src x y xr yr sr cr sc tr = some m' ∧ SameDims m m' ∧ ∀ i j k : Nat, i < m.w → j < m.h → k < m.fmt →
      ∀ px py : Int, px = ((i - x - xr) * cr + (j - y - yr) * sr + xr * 1000).tdiv sc → py = (-(i - x - xr) * sr + (j - y - yr) * cr + yr * 1000).tdiv sc →
        pix m' i j k = if 0 ≤ px ∧ px < src.w ∧ 0 ≤ py ∧ py < src.h ∧ getpixel src px py ≠ some tr then pix src px.toNat py.toNat k else pix m i j k := by
  have hd := wf.dims
  obtain ⟨m', e, sd, h⟩ := warp_same wf ws hf h16 (f := turnSrc x y xr yr sr cr sc) (p := turnAt x y xr yr sr cr sc) tr fun i j hi hj => turnSrc_ok (i := i) (j := j) hx hy hxr hyr hsr hcr hs (by omega) (by omega)
  refine ⟨m', e, sd, fun i j k hi hj hk px py hpx hpy => ?_⟩
  obtain ⟨h1, h2⟩ := h i j k hi hj hk
  have hat : turnAt x y xr yr sr cr sc i j = (px, py) := by rw [hpx, hpy]; rfl
  by_cases hc : 0 ≤ px ∧ px < src.w ∧ 0 ≤ py ∧ py < src.h ∧ getpixel src px py ≠ some tr
  · rw [if_pos hc]
    obtain ⟨c1, c2, c3, c4, c5⟩ := hc
    obtain ⟨a, ha⟩ := Int.eq_ofNat_of_zero_le c1
    obtain ⟨b, hb⟩ := Int.eq_ofNat_of_zero_le c3
    rw [ha, hb] at hat c5
    rw [h1 a b (by omega) (by omega) hat c5, ha, hb]
    rfl
  · rw [if_neg hc]
    refine h2 fun a b ha hb hp => ?_
    rw [hat, Prod.mk.injEq] at hp
    by_cases ht : getpixel src a b = some tr
    · exact ht
    · exfalso
      apply hc
      rw [hp.1, hp.2]
      exact ⟨by omega, by omega, by omega, by omega, ht⟩

example : ∃ m', blitTurn sample stamp 1 2 1 0 500 866 1500 0 = some m' ∧ SameDims sample m' ∧ ∀ i j k : Nat, i < sample.w → j < sample.h → k < sample.fmt →
    ∀ px py : Int, px = ((i - 1 - 1) * 866 + (j - 2 - 0) * 500 + 1 * 1000 : Int).tdiv 1500 → py = (-(i - 1 - 1) * 500 + (j - 2 - 0) * 866 + 0 * 1000 : Int).tdiv 1500 →
      pix m' i j k = if 0 ≤ px ∧ px < stamp.w ∧ 0 ≤ py ∧ py < stamp.h ∧ getpixel stamp px py ≠ some 0 then pix stamp px.toNat py.toNat k else pix sample i j k :=
  turn_any_partial sample_ok stamp_ok rfl (by decide) (by decide) (by decide) (by decide) (by decide) (by decide) (by decide) (by decide) _

end Verif.Img
