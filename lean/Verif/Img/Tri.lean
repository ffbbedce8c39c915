import Verif.Img.Shapes

namespace Verif.Img

/-- The test of `fill_triangle`. -/
def TriTest (x0 y0 x1 y1 x2 y2 i j : Int) : Prop :=
  (0 ≤ cross x1 y1 x2 y2 i j ∧ 0 ≤ cross x2 y2 x0 y0 i j ∧ 0 ≤ cross x0 y0 x1 y1 i j) ∨ (cross x1 y1 x2 y2 i j ≤ 0 ∧ cross x2 y2 x0 y0 i j ≤ 0 ∧ cross x0 y0 x1 y1 i j ≤ 0)

abbrev Sm (x : Int) : Prop := -16000 ≤ x ∧ x ≤ 16000

theorem mul_small {a b : Int} (ha : -32000 ≤ a ∧ a ≤ 32000) (hb : -32000 ≤ b ∧ b ≤ 32000) : -1024000000 ≤ a * b ∧ a * b ≤ 1024000000 := by
  have h : (a * b).natAbs ≤ 32000 * 32000 := by
    rw [Int.natAbs_mul]; exact Nat.mul_le_mul (by omega) (by omega)
  omega

theorem pastLine_spec {x y sx sy ex ey : Int} (h1 : Sm x) (h2 : Sm y) (h3 : Sm sx) (h4 : Sm sy) (h5 : Sm ex) (h6 : Sm ey) :
    ∃ z, pastLine x y sx sy ex ey = some z ∧ (z ≥ 0 ↔ 0 ≤ cross sx sy ex ey x y) ∧ (z ≤ 0 ↔ cross sx sy ex ey x y ≤ 0) := by
  have p := mul_small (a := x - sx) (b := ey - sy) (by omega) (by omega)
  have q := mul_small (a := y - sy) (b := ex - sx) (by omega) (by omega)
  refine ⟨if cross sx sy ex ey x y > 0 then 1 else if cross sx sy ex ey x y < 0 then -1 else 0, ?_, ?_, ?_⟩
  · unfold pastLine cross
    rw [ck_ok (by omega), Option.bind_some, ck_ok (by omega), Option.bind_some, ck_ok (by omega), Option.bind_some, ck_ok (by omega), Option.bind_some,
      ck_ok (by omega), Option.bind_some, ck_ok (by omega), Option.bind_some, ck_ok (by omega), Option.map_some]
  · split
    · omega
    · split <;> omega
  · split
    · omega
    · split <;> omega

theorem triRow_drawn (c : Color) {x0 y0 x1 y1 x2 y2 y : Int} (h0 : Sm x0) (g0 : Sm y0) (h1 : Sm x1) (g1 : Sm y1) (h2 : Sm x2) (g2 : Sm y2) (hy : Sm y) : ∀ (n : Nat) (x : Int) (m : Img), Ok m →
    -16000 ≤ x → x + n ≤ 16001 → ∃ m', triRow c x0 y0 x1 y1 x2 y2 y n x m = some m' ∧ Drawn m m' (fun i j => j = y ∧ x ≤ i ∧ i < x + n ∧ TriTest x0 y0 x1 y1 x2 y2 i j) c
  | 0, x, m, _, _, _ => ⟨m, rfl, .none m fun i j h => by omega⟩
  | n + 1, x, m, wf, hx1, hx2 => by
    obtain ⟨w0, e0, p0, q0⟩ := pastLine_spec (x := x) (y := y) ⟨by omega, by omega⟩ hy h1 g1 h2 g2
    obtain ⟨w1, e1, p1, q1⟩ := pastLine_spec (x := x) (y := y) ⟨by omega, by omega⟩ hy h2 g2 h0 g0
    obtain ⟨w2, e2, p2, q2⟩ := pastLine_spec (x := x) (y := y) ⟨by omega, by omega⟩ hy h0 g0 h1 g1
    have ht : ((w0 ≥ 0 ∧ w1 ≥ 0 ∧ w2 ≥ 0) ∨ (w0 ≤ 0 ∧ w1 ≤ 0 ∧ w2 ≤ 0)) ↔ TriTest x0 y0 x1 y1 x2 y2 x y := by
      rw [p0, p1, p2, q0, q1, q2]; rfl
    rw [triRow, e0, Option.bind_some, e1, Option.bind_some, e2, Option.bind_some]
    by_cases h : (w0 ≥ 0 ∧ w1 ≥ 0 ∧ w2 ≥ 0) ∨ (w0 ≤ 0 ∧ w1 ≤ 0 ∧ w2 ≤ 0)
    · rw [if_pos h]
      obtain ⟨m1, f1, d1⟩ := putpixel_drawn wf x y c
      obtain ⟨m2, f2, d2⟩ := triRow_drawn c h0 g0 h1 g1 h2 g2 hy n (x + 1) m1 (d1.same.ok wf) (by omega) (by omega)
      refine ⟨m2, by rw [f1, Option.bind_some, f2], (d1.trans d2).congr fun i j => ?_⟩
      constructor
      · rintro (⟨rfl, rfl⟩ | ⟨a, b, d, e⟩)
        · exact ⟨rfl, by omega, by omega, ht.1 h⟩
        · exact ⟨a, by omega, by omega, e⟩
      · rintro ⟨a, b, d, e⟩
        by_cases hi : i = x
        · exact .inl ⟨hi, a⟩
        · exact .inr ⟨a, by omega, by omega, e⟩
    · rw [if_neg h, Option.bind_some]
      obtain ⟨m2, f2, d2⟩ := triRow_drawn c h0 g0 h1 g1 h2 g2 hy n (x + 1) m wf (by omega) (by omega)
      refine ⟨m2, f2, d2.congr fun i j => ?_⟩
      constructor
      · rintro ⟨a, b, d, e⟩
        exact ⟨a, by omega, by omega, e⟩
      · rintro ⟨a, b, d, e⟩
        by_cases hi : i = x
        · subst hi a; exact absurd (ht.2 e) h
        · exact ⟨a, by omega, by omega, e⟩

theorem triRows_drawn (c : Color) {x0 y0 x1 y1 x2 y2 xmin : Int} {w : Nat} (h0 : Sm x0) (g0 : Sm y0) (h1 : Sm x1) (g1 : Sm y1) (h2 : Sm x2) (g2 : Sm y2) (hx : -16000 ≤ xmin) (hw : xmin + w ≤ 16001) :
    ∀ (n : Nat) (y : Int) (m : Img), Ok m → -16000 ≤ y → y + n ≤ 16001 →
    ∃ m', triRows c x0 y0 x1 y1 x2 y2 xmin w n y m = some m' ∧ Drawn m m' (fun i j => y ≤ j ∧ j < y + n ∧ xmin ≤ i ∧ i < xmin + w ∧ TriTest x0 y0 x1 y1 x2 y2 i j) c
  | 0, y, m, _, _, _ => ⟨m, rfl, .none m fun i j h => by omega⟩
  | n + 1, y, m, wf, hy1, hy2 => by
    obtain ⟨m1, f1, d1⟩ := triRow_drawn c h0 g0 h1 g1 h2 g2 (y := y) ⟨by omega, by omega⟩ w xmin m wf hx hw
    obtain ⟨m2, f2, d2⟩ := triRows_drawn c h0 g0 h1 g1 h2 g2 hx hw n (y + 1) m1 (d1.same.ok wf) (by omega) (by omega)
    refine ⟨m2, by rw [triRows, f1, Option.bind_some, f2], (d1.trans d2).congr fun i j => ?_⟩
    constructor
    · rintro (⟨a, b, d, e⟩ | ⟨a, b, d, e, f⟩)
      · exact ⟨by omega, by omega, b, d, e⟩
      · exact ⟨by omega, by omega, d, e, f⟩
    · rintro ⟨a, b, d, e, f⟩
      by_cases hj : j = y
      · exact .inl ⟨hj, d, e, f⟩
      · exact .inr ⟨by omega, by omega, d, e, f⟩

/-! ## The test and the triangle -/

def InBox (x0 y0 x1 y1 x2 y2 x y : Int) : Prop := min x0 (min x1 x2) ≤ x ∧ x ≤ max x0 (max x1 x2) ∧ min y0 (min y1 y2) ≤ y ∧ y ≤ max y0 (max y1 y2)

theorem mean_le {a b c x x0 x1 x2 M : Int} (ha : 0 ≤ a) (hb : 0 ≤ b) (hc : 0 ≤ c) (hs : 0 < a + b + c) (h : (a + b + c) * x = a * x0 + b * x1 + c * x2) (h0 : x0 ≤ M) (h1 : x1 ≤ M) (h2 : x2 ≤ M) : x ≤ M := by
  have e0 := Int.mul_le_mul_of_nonneg_left h0 ha
  have e1 := Int.mul_le_mul_of_nonneg_left h1 hb
  have e2 := Int.mul_le_mul_of_nonneg_left h2 hc
  have : (a + b + c) * x ≤ (a + b + c) * M := by rw [h, Int.add_mul, Int.add_mul]; omega
  exact Int.le_of_mul_le_mul_left this hs

theorem mean_ge {a b c x x0 x1 x2 M : Int} (ha : 0 ≤ a) (hb : 0 ≤ b) (hc : 0 ≤ c) (hs : 0 < a + b + c) (h : (a + b + c) * x = a * x0 + b * x1 + c * x2) (h0 : M ≤ x0) (h1 : M ≤ x1) (h2 : M ≤ x2) : M ≤ x := by
  have := mean_le (x := -x) (x0 := -x0) (x1 := -x1) (x2 := -x2) (M := -M) ha hb hc hs (by simp only [Int.mul_neg]; omega) (by omega) (by omega) (by omega)
  omega

theorem le_mean {a b c x x0 x1 x2 M : Int} (ha : 0 ≤ a) (hb : 0 ≤ b) (hc : 0 ≤ c) (hs : 0 < a + b + c) (h : (a + b + c) * x = a * x0 + b * x1 + c * x2) (h0 : M ≤ x0) (h1 : M ≤ x1) (h2 : M ≤ x2) : M ≤ x := by
  have e0 := Int.mul_le_mul_of_nonneg_left h0 ha
  have e1 := Int.mul_le_mul_of_nonneg_left h1 hb
  have e2 := Int.mul_le_mul_of_nonneg_left h2 hc
  have : (a + b + c) * M ≤ (a + b + c) * x := by rw [h, Int.add_mul, Int.add_mul]; omega
  exact Int.le_of_mul_le_mul_left this hs

theorem cross_mean {a b c x y x0 y0 x1 y1 x2 y2 sx sy ex ey : Int} (hx : (a + b + c) * x = a * x0 + b * x1 + c * x2) (hy : (a + b + c) * y = a * y0 + b * y1 + c * y2) :
    (a + b + c) * cross sx sy ex ey x y = a * cross sx sy ex ey x0 y0 + b * cross sx sy ex ey x1 y1 + c * cross sx sy ex ey x2 y2 := by
  unfold cross
  grind

theorem tri_of_in {x0 y0 x1 y1 x2 y2 x y : Int} (h : InTriangle x0 y0 x1 y1 x2 y2 x y) : InBox x0 y0 x1 y1 x2 y2 x y ∧ TriTest x0 y0 x1 y1 x2 y2 x y := by
  obtain ⟨a, b, c, ha, hb, hc, hs, hx, hy⟩ := h
  refine ⟨⟨le_mean ha hb hc hs hx (by omega) (by omega) (by omega), mean_le ha hb hc hs hx (by omega) (by omega) (by omega),
    le_mean ha hb hc hs hy (by omega) (by omega) (by omega), mean_le ha hb hc hs hy (by omega) (by omega) (by omega)⟩, ?_⟩
  have e0 := cross_mean (sx := x1) (sy := y1) (ex := x2) (ey := y2) hx hy
  have e1 := cross_mean (sx := x2) (sy := y2) (ex := x0) (ey := y0) hx hy
  have e2 := cross_mean (sx := x0) (sy := y0) (ex := x1) (ey := y1) hx hy
  have z (sx sy ex ey : Int) : cross sx sy ex ey sx sy = 0 ∧ cross sx sy ex ey ex ey = 0 := by unfold cross; constructor <;> grind
  have A1 : cross x2 y2 x0 y0 x1 y1 = cross x1 y1 x2 y2 x0 y0 := by unfold cross; grind
  have A2 : cross x0 y0 x1 y1 x2 y2 = cross x1 y1 x2 y2 x0 y0 := by unfold cross; grind
  rw [(z x1 y1 x2 y2).1, (z x1 y1 x2 y2).2, Int.mul_zero, Int.mul_zero, Int.add_zero, Int.add_zero] at e0
  rw [(z x2 y2 x0 y0).1, (z x2 y2 x0 y0).2, A1, Int.mul_zero, Int.mul_zero, Int.add_zero, Int.zero_add] at e1
  rw [(z x0 y0 x1 y1).1, (z x0 y0 x1 y1).2, A2, Int.mul_zero, Int.mul_zero, Int.zero_add, Int.zero_add] at e2
  have pos {t w : Int} (h : (a + b + c) * w = t) (ht : 0 ≤ t) : 0 ≤ w := by
    refine Int.le_of_mul_le_mul_left ?_ hs; rw [h, Int.mul_zero]; exact ht
  have neg {t w : Int} (h : (a + b + c) * w = t) (ht : t ≤ 0) : w ≤ 0 := by
    refine Int.le_of_mul_le_mul_left ?_ hs; rw [h, Int.mul_zero]; exact ht
  rcases Int.le_total 0 (cross x1 y1 x2 y2 x0 y0) with h | h
  · exact .inl ⟨pos e0 (Int.mul_nonneg ha h), pos e1 (Int.mul_nonneg hb h), pos e2 (Int.mul_nonneg hc h)⟩
  · exact .inr ⟨neg e0 (Int.mul_nonpos_of_nonneg_of_nonpos ha h), neg e1 (Int.mul_nonpos_of_nonneg_of_nonpos hb h), neg e2 (Int.mul_nonpos_of_nonneg_of_nonpos hc h)⟩

/-- A point of a segment. -/
theorem seg {xa ya xb yb x y : Int} (hc : cross xa ya xb yb x y = 0) (h : (xa ≤ x ∧ x ≤ xb ∧ xa < xb) ∨ (ya ≤ y ∧ y ≤ yb ∧ ya < yb)) :
    ∃ a b : Int, 0 ≤ a ∧ 0 ≤ b ∧ 0 < a + b ∧ (a + b) * x = a * xa + b * xb ∧ (a + b) * y = a * ya + b * yb := by
  unfold cross at hc
  rcases h with ⟨h1, h2, h3⟩ | ⟨h1, h2, h3⟩
  · refine ⟨xb - x, x - xa, by omega, by omega, by omega, ?_, ?_⟩ <;> grind
  · refine ⟨yb - y, y - ya, by omega, by omega, by omega, ?_, ?_⟩ <;> grind

theorem cross_swap {xa ya xb yb x y : Int} (hc : cross xa ya xb yb x y = 0) : cross xb yb xa ya x y = 0 := by unfold cross at *; grind

theorem in01 {x0 y0 x1 y1 x2 y2 x y : Int} (h : ∃ a b : Int, 0 ≤ a ∧ 0 ≤ b ∧ 0 < a + b ∧ (a + b) * x = a * x0 + b * x1 ∧ (a + b) * y = a * y0 + b * y1) : InTriangle x0 y0 x1 y1 x2 y2 x y := by
  obtain ⟨a, b, h1, h2, h3, h4, h5⟩ := h
  exact ⟨a, b, 0, h1, h2, by omega, by omega, by rw [Int.add_zero, h4]; omega, by rw [Int.add_zero, h5]; omega⟩

theorem InTriangle.rot {x0 y0 x1 y1 x2 y2 x y : Int} (h : InTriangle x0 y0 x1 y1 x2 y2 x y) : InTriangle x2 y2 x0 y0 x1 y1 x y := by
  obtain ⟨a, b, c, h1, h2, h3, h4, h5, h6⟩ := h
  have e : c + a + b = a + b + c := by omega
  exact ⟨c, a, b, h3, h1, h2, by omega, by rw [e, h5]; omega, by rw [e, h6]; omega⟩

theorem InTriangle.flip {x0 y0 x1 y1 x2 y2 x y : Int} (h : InTriangle x0 y0 x1 y1 x2 y2 x y) : InTriangle x1 y1 x0 y0 x2 y2 x y := by
  obtain ⟨a, b, c, h1, h2, h3, h4, h5, h6⟩ := h
  have e : b + a + c = a + b + c := by omega
  exact ⟨b, a, c, h2, h1, h3, by omega, by rw [e, h5]; omega, by rw [e, h6]; omega⟩

theorem edge01 {x0 y0 x1 y1 x2 y2 x y : Int} (hc : cross x0 y0 x1 y1 x y = 0) (h : (min x0 x1 ≤ x ∧ x ≤ max x0 x1 ∧ x0 ≠ x1) ∨ (min y0 y1 ≤ y ∧ y ≤ max y0 y1 ∧ y0 ≠ y1)) : InTriangle x0 y0 x1 y1 x2 y2 x y := by
  rcases h with ⟨h1, h2, h3⟩ | ⟨h1, h2, h3⟩
  · by_cases g : x0 < x1
    · exact in01 (seg hc (.inl ⟨by omega, by omega, g⟩))
    · exact (in01 (seg (cross_swap hc) (.inl ⟨by omega, by omega, by omega⟩))).flip
  · by_cases g : y0 < y1
    · exact in01 (seg hc (.inr ⟨by omega, by omega, g⟩))
    · exact (in01 (seg (cross_swap hc) (.inr ⟨by omega, by omega, by omega⟩))).flip

theorem pick {x0 x1 x2 x : Int} (h1 : min x0 (min x1 x2) ≤ x) (h2 : x ≤ max x0 (max x1 x2)) : (min x0 x1 ≤ x ∧ x ≤ max x0 x1 ∧ x0 ≠ x1) ∨ (min x1 x2 ≤ x ∧ x ≤ max x1 x2 ∧ x1 ≠ x2) ∨
    (min x2 x0 ≤ x ∧ x ≤ max x2 x0 ∧ x2 ≠ x0) ∨ (x0 = x1 ∧ x1 = x2 ∧ x = x0) := by
  by_cases e1 : x0 = x1
  · by_cases e2 : x1 = x2
    · right; right; right; omega
    · right; left; omega
  · by_cases e2 : min x0 x1 ≤ x ∧ x ≤ max x0 x1
    · exact .inl ⟨e2.1, e2.2, e1⟩
    · by_cases e3 : min x1 x2 ≤ x ∧ x ≤ max x1 x2 ∧ x1 ≠ x2
      · exact .inr (.inl e3)
      · right; right; left; omega

theorem in_of_tri {x0 y0 x1 y1 x2 y2 x y : Int} (hb : InBox x0 y0 x1 y1 x2 y2 x y) (ht : TriTest x0 y0 x1 y1 x2 y2 x y) : InTriangle x0 y0 x1 y1 x2 y2 x y := by
  have ex : (cross x1 y1 x2 y2 x y + cross x2 y2 x0 y0 x y + cross x0 y0 x1 y1 x y) * x = cross x1 y1 x2 y2 x y * x0 + cross x2 y2 x0 y0 x y * x1 + cross x0 y0 x1 y1 x y * x2 := by unfold cross; grind
  have ey : (cross x1 y1 x2 y2 x y + cross x2 y2 x0 y0 x y + cross x0 y0 x1 y1 x y) * y = cross x1 y1 x2 y2 x y * y0 + cross x2 y2 x0 y0 x y * y1 + cross x0 y0 x1 y1 x y * y2 := by unfold cross; grind
  by_cases hz : cross x1 y1 x2 y2 x y = 0 ∧ cross x2 y2 x0 y0 x y = 0 ∧ cross x0 y0 x1 y1 x y = 0
  · obtain ⟨z0, z1, z2⟩ := hz
    obtain ⟨b1, b2, b3, b4⟩ := hb
    rcases pick b1 b2 with h | h | h | ⟨e1, e2, e3⟩
    · exact edge01 z2 (.inl h)
    · exact (edge01 (x2 := x0) (y2 := y0) z0 (.inl h)).rot
    · exact (edge01 (x2 := x1) (y2 := y1) z1 (.inl h)).rot.rot
    · rcases pick b3 b4 with h | h | h | ⟨e4, e5, e6⟩
      · exact edge01 z2 (.inr h)
      · exact (edge01 (x2 := x0) (y2 := y0) z0 (.inr h)).rot
      · exact (edge01 (x2 := x1) (y2 := y1) z1 (.inr h)).rot.rot
      · exact ⟨1, 0, 0, by omega, by omega, by omega, by omega, by omega, by omega⟩
  · rcases ht with ⟨h0, h1, h2⟩ | ⟨h0, h1, h2⟩
    · exact ⟨_, _, _, h0, h1, h2, by omega, ex, ey⟩
    · refine ⟨_, _, _, Int.neg_nonneg_of_nonpos h0, Int.neg_nonneg_of_nonpos h1, Int.neg_nonneg_of_nonpos h2, by omega, ?_, ?_⟩
      · rw [← Int.neg_add, ← Int.neg_add, Int.neg_mul, ex]; simp only [Int.neg_mul]; omega
      · rw [← Int.neg_add, ← Int.neg_add, Int.neg_mul, ey]; simp only [Int.neg_mul]; omega

theorem fillTriangle_drawn {m : Img} (wf : Ok m) (c : Color) {x0 y0 x1 y1 x2 y2 : Int} (h0 : Sm x0) (g0 : Sm y0) (h1 : Sm x1) (g1 : Sm y1) (h2 : Sm x2) (g2 : Sm y2) :
    ∃ m', fillTriangle m x0 y0 x1 y1 x2 y2 c = some m' ∧ Drawn m m' (InTriangle x0 y0 x1 y1 x2 y2) c := by
  obtain ⟨m', e, d⟩ := triRows_drawn c (xmin := min x0 (min x1 x2)) (w := (max x0 (max x1 x2) - min x0 (min x1 x2) + 1).toNat) h0 g0 h1 g1 h2 g2 (by omega) (by omega)
    (max y0 (max y1 y2) - min y0 (min y1 y2) + 1).toNat (min y0 (min y1 y2)) m wf (by omega) (by omega)
  refine ⟨m', e, d.congr fun i j => ?_⟩
  constructor
  · rintro ⟨a, b, d, e, f⟩
    exact in_of_tri ⟨d, by omega, a, by omega⟩ f
  · intro h
    obtain ⟨⟨a, b, d, e⟩, f⟩ := tri_of_in h
    exact ⟨by omega, by omega, by omega, by omega, f⟩

end Verif.Img
