import Verif.Img.Ring

/-
# Thin arcs

Model of `thin_arc` (`src/extensions/display_extensions.c:999-1095`), which draws the arcs of a thickness of at most 1, and of its
helpers. The angles are used in floating point for five things: the two end points of the arc, the first and the last row, and whether the
arc is longer than a half circle. These are parameters of the model (`Ends`). The lines of sectors and segments
(lines 1087-1094) are calls of `line` and not part of this model.
-/

namespace Verif.Img

/-- What `thin_arc` computes from the angles, `src/extensions/display_extensions.c:1004-1052`: the end points `cap0_x`, ..., the rows
`min_y` and `max_y`, and `angle_is_closed`. -/
structure Ends where
  x0 : Int
  y0 : Int
  x1 : Int
  y1 : Int
  minY : Int
  maxY : Int
  closed : Bool

/-- `sign`, `src/extensions/display_extensions.c:321-329`. -/
def sgn (v : Int) : Int := if v > 0 then 1 else if v < 0 then -1 else 0

/-- `points_same_quadrant`, `src/extensions/display_extensions.c:355-358`. -/
def sameQuadrant (x0 y0 x1 y1 : Int) : Bool :=
  (sgn x0 == sgn x1 || sgn x0 == 0 || sgn x1 == 0) && (sgn y0 == sgn y1 || sgn y0 == 0 || sgn y1 == 0)

/-- `handle_thin_arc_pixel`, `src/extensions/display_extensions.c:969-996`. -/
def thinPixel (e : Ends) (c : Color) (cx cy x y : Int) (m : Img) : Option Img :=
  if y > e.maxY ∨ y < e.minY then some m
  else
    (pastLine x y 0 0 e.x0 e.y0).bind fun p0 => (pastLine x y 0 0 e.x1 e.y1).bind fun q =>
      let p1 := -q
      if (if e.closed then p0 = 1 ∧ p1 = 1
          else p0 = 1 ∨ p1 = 1 ∨ (p0 = 0 ∧ ¬ sameQuadrant x y e.x0 e.y0) ∨ (p1 = 0 ∧ ¬ sameQuadrant x y e.x1 e.y1)) then some m
      else (ck (cx + x)).bind fun px => (ck (cy + y)).bind fun py => putpixel m px py c

/-- The four calls for a place of a row, `src/extensions/display_extensions.c:1063-1071` and `1074-1082`. -/
def thinFour (e : Ends) (c : Color) (cx cy x y : Int) (m : Img) : Option Img :=
  (thinPixel e c cx cy x y m).bind fun m => (thinPixel e c cx cy (-x - 1) y m).bind fun m =>
    (thinPixel e c cx cy x (-y - 1) m).bind fun m => thinPixel e c cx cy (-x - 1) (-y - 1) m

/-- The loop for the places of a row from `x`, `src/extensions/display_extensions.c:1073-1083`: `n` places. -/
def thinSpan (e : Ends) (c : Color) (cx cy y : Int) : Nat → Int → Img → Option Img
  | 0, _, m => some m
  | n + 1, x, m => (thinFour e c cx cy x y m).bind fun m => thinSpan e c cx cy y n (x + 1) m

/-- The rows, `src/extensions/display_extensions.c:1056-1089`: row `n`, then the rows below `n`; `last` is `last_x`. The search for the first
place of a row is that of a thick circle. -/
def thinRows (e : Ends) (c : Color) (cx cy r : Int) : Nat → Int → Img → Option Img
  | 0, _, m => some m
  | n + 1, last, m =>
    match outerEnd (r * r * 4) ((2 * n + 1) * (2 * n + 1)) (r + 1).toNat (-r) with
    | some x =>
      (if last - x < 2 then thinFour e c cx cy x n m else thinSpan e c cx cy n (last - x).toNat x m).bind fun m => thinRows e c cx cy r n x m
    | none => thinRows e c cx cy r n last m

/-- `thin_arc` for a radius of at least 0 and angles that are not equal, without sector and segment,
`src/extensions/display_extensions.c:999-1085`. No square is larger than `8 * r * r`. -/
def thinArc (e : Ends) (m : Img) (cx cy r : Int) (c : Color) : Option Img :=
  if r = 0 then some m
  else (ck (r * r * 8)).bind fun _ => thinRows e c cx cy r r.toNat 0 m

/-! ## Specification -/

/-- The pixel is in the disk of the radius `r` whose centre is the upper left corner of the pixel 0 0. -/
def Disk (r a b : Int) : Prop := (2 * a + 1) * (2 * a + 1) + (2 * b + 1) * (2 * b + 1) ≤ 4 * (r * r)

/-- The pixel is in the disk, and the one to the left, to the right, above or below is not. -/
def Rim (r a b : Int) : Prop := Disk r a b ∧ ¬ (Disk r (a - 1) b ∧ Disk r (a + 1) b ∧ Disk r a (b - 1) ∧ Disk r a (b + 1))

/-- No coordinate of the two points has opposite signs. -/
def SameQuadrant (x y x' y' : Int) : Prop := 0 ≤ x * x' ∧ 0 ≤ y * y'

/-- The part of the circle that is drawn: between the rows, and, if the arc is longer than a half circle, not both before the first and
behind the second end point; else neither before the first nor behind the second one nor opposite to one of them. -/
def InArc (e : Ends) (a b : Int) : Prop :=
  e.minY ≤ b ∧ b ≤ e.maxY ∧
  if e.closed then ¬ (a * e.y0 - b * e.x0 > 0 ∧ a * e.y1 - b * e.x1 < 0)
  else a * e.y0 - b * e.x0 ≤ 0 ∧ a * e.y1 - b * e.x1 ≥ 0 ∧
    (a * e.y0 - b * e.x0 = 0 → SameQuadrant a b e.x0 e.y0) ∧ (a * e.y1 - b * e.x1 = 0 → SameQuadrant a b e.x1 e.y1)

/-- The end points are not farther away than 16384. -/
def Ends.Small (e : Ends) : Prop :=
  (-16384 ≤ e.x0 ∧ e.x0 ≤ 16384) ∧ (-16384 ≤ e.y0 ∧ e.y0 ≤ 16384) ∧ (-16384 ≤ e.x1 ∧ e.x1 ≤ 16384) ∧ (-16384 ≤ e.y1 ∧ e.y1 ≤ 16384)

/-! ## Lemmas -/

theorem prod_bound {a b n : Int} (ha : -n ≤ a ∧ a ≤ n) (hb : -n ≤ b ∧ b ≤ n) (hn : 0 ≤ n) : -(n * n) ≤ a * b ∧ a * b ≤ n * n := by
  have h1 : 0 ≤ (n - a) * (n + b) := Int.mul_nonneg (by omega) (by omega)
  have h2 : 0 ≤ (n + a) * (n - b) := Int.mul_nonneg (by omega) (by omega)
  have h3 : 0 ≤ (n - a) * (n - b) := Int.mul_nonneg (by omega) (by omega)
  have h4 : 0 ≤ (n + a) * (n + b) := Int.mul_nonneg (by omega) (by omega)
  have e1 : (n - a) * (n + b) = n * n + n * b - a * n - a * b := by grind
  have e2 : (n + a) * (n - b) = n * n - n * b + a * n - a * b := by grind
  have e3 : (n - a) * (n - b) = n * n - n * b - a * n + a * b := by grind
  have e4 : (n + a) * (n + b) = n * n + n * b + a * n + a * b := by grind
  omega

theorem pastOrigin_ok {x y ex ey : Int} (hx : -16384 ≤ x ∧ x ≤ 16384) (hy : -16384 ≤ y ∧ y ≤ 16384) (hex : -16384 ≤ ex ∧ ex ≤ 16384) (hey : -16384 ≤ ey ∧ ey ≤ 16384) :
    pastLine x y 0 0 ex ey = some (sgn (x * ey - y * ex)) := by
  have h1 := prod_bound hx hey (by omega)
  have h2 := prod_bound hy hex (by omega)
  unfold pastLine
  simp only [Int.sub_zero]
  rw [ck_ok (by omega), Option.bind_some, ck_ok (by omega), Option.bind_some, ck_ok (by omega), Option.bind_some, ck_ok (by omega), Option.bind_some,
    ck_ok (by omega), Option.bind_some, ck_ok (by omega), Option.bind_some, ck_ok (by omega)]
  rfl

theorem sgn_one (v : Int) : sgn v = 1 ↔ v > 0 := by unfold sgn; split <;> (try split) <;> omega
theorem sgn_zero (v : Int) : sgn v = 0 ↔ v = 0 := by unfold sgn; split <;> (try split) <;> omega
theorem sgn_neg (v : Int) : -sgn v = 1 ↔ v < 0 := by unfold sgn; split <;> (try split) <;> omega
theorem sgn_neg_zero (v : Int) : -sgn v = 0 ↔ v = 0 := by unfold sgn; split <;> (try split) <;> omega

theorem sgn_same (x x' : Int) : (sgn x == sgn x' || sgn x == 0 || sgn x' == 0) = true ↔ 0 ≤ x * x' := by
  simp only [Bool.or_eq_true, beq_iff_eq, sgn_zero]
  unfold sgn
  rcases Int.lt_trichotomy x 0 with h | h | h <;> rcases Int.lt_trichotomy x' 0 with g | g | g
  · have := Int.mul_pos_of_neg_of_neg h g
    simp [show ¬ x > 0 by omega, show ¬ x' > 0 by omega, h, g]; omega
  · simp [g]
  · have := Int.mul_neg_of_neg_of_pos h g
    simp [show ¬ x > 0 by omega, g, h]; omega
  · simp [h]
  · simp [h]
  · simp [h]
  · have := Int.mul_neg_of_pos_of_neg h g
    simp [show ¬ x' > 0 by omega, g, h]; omega
  · simp [g]
  · have := Int.mul_pos h g
    simp [g, h]; omega

theorem sameQuadrant_iff (x y x' y' : Int) : sameQuadrant x y x' y' = true ↔ SameQuadrant x y x' y' := by
  unfold sameQuadrant SameQuadrant
  rw [Bool.and_eq_true, sgn_same, sgn_same]

theorem thinPixel_drawn {e : Ends} (he : e.Small) (c : Color) {cx cy x y : Int} {m : Img} (wf : Ok m) (hcx : -1073741824 ≤ cx ∧ cx ≤ 1073741824) (hcy : -1073741824 ≤ cy ∧ cy ≤ 1073741824)
    (hx : -16384 ≤ x ∧ x ≤ 16384) (hy : -16384 ≤ y ∧ y ≤ 16384) :
    ∃ m', thinPixel e c cx cy x y m = some m' ∧ Drawn m m' (fun i j => i - cx = x ∧ j - cy = y ∧ InArc e x y) c := by
  obtain ⟨h1, h2, h3, h4⟩ := he
  unfold thinPixel
  by_cases hr : y > e.maxY ∨ y < e.minY
  · rw [if_pos hr]
    exact ⟨m, rfl, .none m fun i j h => by unfold InArc at h; omega⟩
  · rw [if_neg hr, pastOrigin_ok hx hy h1 h2, Option.bind_some, pastOrigin_ok hx hy h3 h4, Option.bind_some]
    have hb : InArc e x y ↔ ¬ (if e.closed then sgn (x * e.y0 - y * e.x0) = 1 ∧ -sgn (x * e.y1 - y * e.x1) = 1
          else sgn (x * e.y0 - y * e.x0) = 1 ∨ -sgn (x * e.y1 - y * e.x1) = 1 ∨ (sgn (x * e.y0 - y * e.x0) = 0 ∧ ¬ sameQuadrant x y e.x0 e.y0) ∨
            (-sgn (x * e.y1 - y * e.x1) = 0 ∧ ¬ sameQuadrant x y e.x1 e.y1)) := by
      simp only [sgn_one, sgn_neg, sgn_zero, sgn_neg_zero, sameQuadrant_iff]
      unfold InArc
      by_cases hc : e.closed = true
      · simp only [hc, if_true]
        constructor
        · rintro ⟨_, _, h⟩; exact h
        · intro h; exact ⟨by omega, by omega, h⟩
      · simp only [hc, if_false]
        generalize x * e.y0 - y * e.x0 = k0
        generalize x * e.y1 - y * e.x1 = k1
        constructor
        · rintro ⟨_, _, a, b, p, q⟩ (h | h | ⟨h, h'⟩ | ⟨h, h'⟩)
          · omega
          · omega
          · exact h' (p h)
          · exact h' (q h)
        · intro h
          refine ⟨by omega, by omega, Int.not_lt.1 fun k => h (.inl k), Int.not_lt.1 fun k => h (.inr (.inl k)), fun g => ?_, fun g => ?_⟩
          · by_cases k : SameQuadrant x y e.x0 e.y0
            · exact k
            · exact absurd (.inr (.inr (.inl ⟨g, k⟩))) h
          · by_cases k : SameQuadrant x y e.x1 e.y1
            · exact k
            · exact absurd (.inr (.inr (.inr ⟨g, k⟩))) h
    simp only
    by_cases hk : InArc e x y
    · rw [if_neg (hb.1 hk), ck_ok (by omega), Option.bind_some, ck_ok (by omega), Option.bind_some]
      obtain ⟨m', e', d⟩ := putpixel_drawn wf (cx + x) (cy + y) c
      refine ⟨m', e', d.congr fun i j => ?_⟩
      constructor
      · intro h; exact ⟨by omega, by omega, hk⟩
      · intro h; omega
    · have : ¬ ¬ _ := fun h => hk (hb.2 h)
      rw [if_pos (Classical.not_not.1 this)]
      exact ⟨m, rfl, .none m fun i j h => hk h.2.2⟩

theorem thinFour_drawn {e : Ends} (he : e.Small) (c : Color) {cx cy x y : Int} {m : Img} (wf : Ok m) (hcx : -1073741824 ≤ cx ∧ cx ≤ 1073741824) (hcy : -1073741824 ≤ cy ∧ cy ≤ 1073741824)
    (hx : -16383 ≤ x ∧ x ≤ 16383) (hy : -16383 ≤ y ∧ y ≤ 16383) :
    ∃ m', thinFour e c cx cy x y m = some m' ∧
      Drawn m m' (fun i j => (i - cx = x ∨ i - cx = -x - 1) ∧ (j - cy = y ∨ j - cy = -y - 1) ∧ InArc e (i - cx) (j - cy)) c := by
  obtain ⟨m1, e1, d1⟩ := thinPixel_drawn he c wf hcx hcy (x := x) (y := y) (by omega) (by omega)
  have w1 := d1.same.ok wf
  obtain ⟨m2, e2, d2⟩ := thinPixel_drawn he c w1 hcx hcy (x := -x - 1) (y := y) (by omega) (by omega)
  have w2 := d2.same.ok w1
  obtain ⟨m3, e3, d3⟩ := thinPixel_drawn he c w2 hcx hcy (x := x) (y := -y - 1) (by omega) (by omega)
  have w3 := d3.same.ok w2
  obtain ⟨m4, e4, d4⟩ := thinPixel_drawn he c w3 hcx hcy (x := -x - 1) (y := -y - 1) (by omega) (by omega)
  refine ⟨m4, by unfold thinFour; rw [e1, Option.bind_some, e2, Option.bind_some, e3, Option.bind_some, e4], (((d1.trans d2).trans d3).trans d4).congr fun i j => ?_⟩
  constructor
  · rintro (((⟨a, b, h⟩ | ⟨a, b, h⟩) | ⟨a, b, h⟩) | ⟨a, b, h⟩) <;> rw [a, b] <;> exact ⟨by omega, by omega, h⟩
  · rintro ⟨a | a, b | b, h⟩ <;> rw [a, b] at h
    · exact .inl (.inl (.inl ⟨a, b, h⟩))
    · exact .inl (.inr ⟨a, b, h⟩)
    · exact .inl (.inl (.inr ⟨a, b, h⟩))
    · exact .inr ⟨a, b, h⟩

theorem thinSpan_drawn {e : Ends} (he : e.Small) (c : Color) {cx cy y : Int} (hcx : -1073741824 ≤ cx ∧ cx ≤ 1073741824) (hcy : -1073741824 ≤ cy ∧ cy ≤ 1073741824)
    (hy : -16383 ≤ y ∧ y ≤ 16383) : ∀ (n : Nat) (x : Int) (m : Img), Ok m → -16383 ≤ x → x + n ≤ 0 →
    ∃ m', thinSpan e c cx cy y n x m = some m' ∧
      Drawn m m' (fun i j => ((x ≤ i - cx ∧ i - cx < x + n) ∨ (x ≤ -(i - cx) - 1 ∧ -(i - cx) - 1 < x + n)) ∧ (j - cy = y ∨ j - cy = -y - 1) ∧ InArc e (i - cx) (j - cy)) c
  | 0, x, m, _, _, _ => ⟨m, rfl, .none m fun i j h => by omega⟩
  | n + 1, x, m, wf, h1, h2 => by
    obtain ⟨m1, e1, d1⟩ := thinFour_drawn he c wf hcx hcy (x := x) (y := y) (by omega) hy
    obtain ⟨m2, e2, d2⟩ := thinSpan_drawn he c hcx hcy hy n (x + 1) m1 (d1.same.ok wf) (by omega) (by omega)
    refine ⟨m2, by unfold thinSpan; rw [e1, Option.bind_some, e2], (d1.trans d2).congr fun i j => ?_⟩
    constructor
    · rintro (⟨a, b, h⟩ | ⟨a, b, h⟩)
      · exact ⟨by omega, b, h⟩
      · exact ⟨by omega, b, h⟩
    · rintro ⟨a, b, h⟩
      by_cases g : i - cx = x ∨ i - cx = -x - 1
      · exact .inl ⟨g, b, h⟩
      · exact .inr ⟨by omega, b, h⟩

/-- `last` is the first place of row `y` of the disk, or 0 if the row is empty. -/
def RowAt (r last y : Int) : Prop := -r ≤ last ∧ last ≤ 0 ∧ ∀ a, (last ≤ a ∧ a < -last) ↔ Disk r a y

theorem rowAt_top {r : Int} (hr : 0 ≤ r) : RowAt r 0 r := by
  refine ⟨by omega, by omega, fun a => ⟨fun h => by omega, fun h => ?_⟩⟩
  unfold Disk at h
  have h1 := sq_nonneg (2 * a + 1)
  have h2 := sq_p r
  omega

theorem disk_flip_x (r a b : Int) : Disk r (-a - 1) b ↔ Disk r a b := by unfold Disk; rw [odd_neg]
theorem disk_flip_y (r a b : Int) : Disk r a (-b - 1) ↔ Disk r a b := by unfold Disk; rw [odd_neg]

theorem rim_flip_x (r a b : Int) : Rim r (-a - 1) b ↔ Rim r a b := by
  unfold Rim
  rw [disk_flip_x, disk_flip_x, disk_flip_x, show -a - 1 - 1 = -(a + 1) - 1 by omega, show -a - 1 + 1 = -(a - 1) - 1 by omega, disk_flip_x, disk_flip_x]
  constructor <;> rintro ⟨h, g⟩ <;> exact ⟨h, fun k => g ⟨k.2.1, k.1, k.2.2⟩⟩

theorem rim_flip_y (r a b : Int) : Rim r a (-b - 1) ↔ Rim r a b := by
  unfold Rim
  rw [disk_flip_y, disk_flip_y, disk_flip_y, show -b - 1 - 1 = -(b + 1) - 1 by omega, show -b - 1 + 1 = -(b - 1) - 1 by omega, disk_flip_y, disk_flip_y]
  constructor <;> rintro ⟨h, g⟩ <;> exact ⟨h, fun k => g ⟨k.1, k.2.1, k.2.2.2, k.2.2.1⟩⟩

/-- The rim in a quarter of the plane. -/
theorem rim_row {r x last : Int} {y : Int} (hy : 0 ≤ y) (hx : x < 0) (h1 : RowAt r x y) (h2 : RowAt r last (y + 1)) {a : Int} (ha : a < 0) :
    Rim r a y ↔ x ≤ a ∧ (a = x ∨ a < last) := by
  unfold Rim
  rw [← h1.2.2 a, ← h1.2.2 (a - 1), ← h1.2.2 (a + 1), ← h2.2.2 a]
  have hb : (x ≤ a ∧ a < -x) → Disk r a (y - 1) := by
    intro h
    have h3 := (h1.2.2 a).1 h
    unfold Disk at h3 ⊢
    by_cases h0 : y = 0
    · subst h0; simpa using h3
    · have := odd_mono' (a := y - 1) (b := y) (by omega) (by omega)
      omega
  constructor
  · rintro ⟨h, g⟩
    refine ⟨h.1, ?_⟩
    by_cases e : a = x
    · exact .inl e
    · right
      by_cases k : a < last
      · exact k
      · exact absurd ⟨⟨by omega, by omega⟩, ⟨by omega, by omega⟩, hb h, by omega, by omega⟩ g
  · rintro ⟨h, g⟩
    refine ⟨by omega, fun k => ?_⟩
    omega

theorem thinRows_drawn {e : Ends} (he : e.Small) (c : Color) {cx cy r : Int} (hcx : -1073741824 ≤ cx ∧ cx ≤ 1073741824) (hcy : -1073741824 ≤ cy ∧ cy ≤ 1073741824)
    (hr : r ≤ 16383) : ∀ (n : Nat) (last : Int) (m : Img), Ok m → n ≤ r → RowAt r last n →
    ∃ m', thinRows e c cx cy r n last m = some m' ∧
      Drawn m m' (fun i j => ((0 ≤ j - cy ∧ j - cy < n) ∨ (0 ≤ -(j - cy) - 1 ∧ -(j - cy) - 1 < n)) ∧ Rim r (i - cx) (j - cy) ∧ InArc e (i - cx) (j - cy)) c
  | 0, last, m, _, _, _ => ⟨m, rfl, .none m fun i j h => by omega⟩
  | n + 1, last, m, wf, hn, hl => by
    obtain ⟨x, eo, hx0, hx1, hiff⟩ := outer_row (r := r) (y0 := n) (by omega) (by omega)
    have hrow : RowAt r x n := ⟨hx0, by omega, hiff⟩
    have hl' : RowAt r last ((n : Int) + 1) := hl
    have hmono : x ≤ last := by
      rcases Int.lt_or_le last x with h | h
      · exfalso
        have h3 := (hl'.2.2 last).1 ⟨by omega, by omega⟩
        have : Disk r last n := by
          unfold Disk at h3 ⊢
          have := odd_mono' (a := (n : Int)) (b := n + 1) (by omega) (by omega)
          omega
        have := (hrow.2.2 last).2 this
        omega
      · exact h
    have key : ∃ m1, (if last - x < 2 then thinFour e c cx cy x n m else thinSpan e c cx cy n (last - x).toNat x m) = some m1 ∧
        Drawn m m1 (fun i j => (j - cy = n ∨ j - cy = -n - 1) ∧ Rim r (i - cx) (j - cy) ∧ InArc e (i - cx) (j - cy)) c := by
      have hset : ∀ a b : Int, (b = n ∨ b = -n - 1) → (Rim r a b ↔ (x ≤ a ∧ a < 0 ∧ (a = x ∨ a < last)) ∨ (x ≤ -a - 1 ∧ 0 ≤ a ∧ (-a - 1 = x ∨ -a - 1 < last))) := by
        intro a b hb
        have e0 : Rim r a b ↔ Rim r a n := by
          rcases hb with rfl | rfl
          · exact Iff.rfl
          · exact rim_flip_y r a n
        rw [e0]
        by_cases ha : a < 0
        · rw [rim_row (by omega) hx1 hrow hl' ha]; omega
        · rw [← rim_flip_x, rim_row (by omega) hx1 hrow hl' (a := -a - 1) (by omega)]; omega
      have hl0 := hl.2.1
      by_cases h2 : last - x < 2
      · rw [if_pos h2]
        obtain ⟨m1, e1, d1⟩ := thinFour_drawn he c wf hcx hcy (x := x) (y := n) (by omega) (by omega)
        refine ⟨m1, e1, d1.congr fun i j => ?_⟩
        constructor
        · rintro ⟨a, b, h⟩
          exact ⟨b, (hset _ _ b).2 (by omega), h⟩
        · rintro ⟨b, g, h⟩
          have := (hset _ _ b).1 g
          exact ⟨by omega, b, h⟩
      · rw [if_neg h2]
        obtain ⟨m1, e1, d1⟩ := thinSpan_drawn he c hcx hcy (y := n) (by omega) (last - x).toNat x m wf (by omega) (by omega)
        refine ⟨m1, e1, d1.congr fun i j => ?_⟩
        constructor
        · rintro ⟨a, b, h⟩
          exact ⟨b, (hset _ _ b).2 (by omega), h⟩
        · rintro ⟨b, g, h⟩
          have := (hset _ _ b).1 g
          exact ⟨by omega, b, h⟩
    obtain ⟨m1, e1, d1⟩ := key
    obtain ⟨m2, e2, d2⟩ := thinRows_drawn he c hcx hcy hr n x m1 (d1.same.ok wf) (by omega) hrow
    refine ⟨m2, ?_, (d1.trans d2).congr fun i j => ?_⟩
    · unfold thinRows
      rw [eo]
      simp only
      rw [e1, Option.bind_some, e2]
    · constructor
      · rintro (⟨b, g, h⟩ | ⟨b, g, h⟩)
        · exact ⟨by omega, g, h⟩
        · exact ⟨by omega, g, h⟩
      · rintro ⟨b, g, h⟩
        by_cases k : j - cy = n ∨ j - cy = -n - 1
        · exact .inl ⟨k, g, h⟩
        · exact .inr ⟨by omega, g, h⟩

theorem disk_bound {r a b : Int} (hr : 0 ≤ r) (h : Disk r a b) : -r ≤ a ∧ a < r ∧ -r ≤ b ∧ b < r := by
  unfold Disk at h
  have hr4 : (2 * r) * (2 * r) = 4 * (r * r) := by grind
  have h1 := sq_nonneg (2 * a + 1)
  have h2 := sq_nonneg (2 * b + 1)
  have h3 := sq_bound (z := 2 * a + 1) (n := 2 * r) (by omega) (by omega)
  have h4 := sq_bound (z := 2 * b + 1) (n := 2 * r) (by omega) (by omega)
  omega

theorem thinArc_drawn {e : Ends} (he : e.Small) {m : Img} (wf : Ok m) {cx cy r : Int} (hcx : -1073741824 ≤ cx ∧ cx ≤ 1073741824) (hcy : -1073741824 ≤ cy ∧ cy ≤ 1073741824)
    (hr : 0 ≤ r ∧ r ≤ 16383) (c : Color) :
    ∃ m', thinArc e m cx cy r c = some m' ∧ Drawn m m' (fun i j => Rim r (i - cx) (j - cy) ∧ InArc e (i - cx) (j - cy)) c := by
  unfold thinArc
  by_cases h0 : r = 0
  · rw [if_pos h0]
    refine ⟨m, rfl, .none m fun i j h => ?_⟩
    have := disk_bound hr.1 h.1.1
    omega
  · have h1 := sq_le (a := r) (b := 16383) (by omega) (by omega)
    have h2 := sq_nonneg r
    rw [if_neg h0, ck_ok (by omega), Option.bind_some]
    have hc : ((r.toNat : Nat) : Int) = r := by omega
    obtain ⟨m', e', d⟩ := thinRows_drawn he c hcx hcy hr.2 r.toNat 0 m wf (by omega) (by rw [hc]; exact rowAt_top hr.1)
    refine ⟨m', e', d.congr fun i j => ?_⟩
    constructor
    · rintro ⟨_, h⟩; exact h
    · intro h
      have := disk_bound hr.1 h.1.1
      exact ⟨by omega, h⟩

end Verif.Img
