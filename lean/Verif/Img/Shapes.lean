import Verif.Img.Paint

namespace Verif.Img

theorem hLine_drawn (c : Color) (y : Int) : ∀ (n : Nat) (x : Int) (m : Img), Ok m → -2147483648 ≤ x → x + n ≤ 2147483648 →
    ∃ m', hLine c y n x m = some m' ∧ Drawn m m' (fun i j => j = y ∧ x ≤ i ∧ i < x + n) c
  | 0, x, m, _, _, _ => ⟨m, rfl, .none m fun i j h => by omega⟩
  | n + 1, x, m, wf, h1, h2 => by
    obtain ⟨m1, e1, d1⟩ := putpixel_drawn wf x y c
    obtain ⟨m2, e2, d2⟩ := hLine_drawn c y n (x + 1) m1 (d1.same.ok wf) (by omega) (by omega)
    refine ⟨m2, ?_, (d1.trans d2).congr fun i j => by omega⟩
    rw [hLine, ck_ok (by omega), Option.bind_some, e1, Option.bind_some, e2]

theorem vLine_drawn (c : Color) (x : Int) : ∀ (n : Nat) (y : Int) (m : Img), Ok m → -2147483648 ≤ y → y + n ≤ 2147483648 →
    ∃ m', vLine c x n y m = some m' ∧ Drawn m m' (fun i j => i = x ∧ y ≤ j ∧ j < y + n) c
  | 0, y, m, _, _, _ => ⟨m, rfl, .none m fun i j h => by omega⟩
  | n + 1, y, m, wf, h1, h2 => by
    obtain ⟨m1, e1, d1⟩ := putpixel_drawn wf x y c
    obtain ⟨m2, e2, d2⟩ := vLine_drawn c x n (y + 1) m1 (d1.same.ok wf) (by omega) (by omega)
    refine ⟨m2, ?_, (d1.trans d2).congr fun i j => by omega⟩
    rw [vLine, ck_ok (by omega), Option.bind_some, e1, Option.bind_some, e2]

theorem hLines_drawn (c : Color) (x y : Int) (hx : -1073741824 ≤ x ∧ x ≤ 1073741824) (hy : -1073741824 ≤ y ∧ y ≤ 1073741824) : ∀ (l : List (Int × Int × Nat)) (m : Img), Ok m →
    (∀ e ∈ l, -4 ≤ e.1 ∧ e.1 ≤ 4 ∧ -4 ≤ e.2.1 ∧ e.2.1 ≤ 4 ∧ e.2.2 ≤ 8) →
    ∃ m', hLines c x y l m = some m' ∧ Drawn m m' (fun i j => ∃ e ∈ l, j - y = e.2.1 ∧ e.1 ≤ i - x ∧ i - x < e.1 + e.2.2) c
  | [], m, _, _ => ⟨m, rfl, .none m fun i j h => by simp at h⟩
  | (dx, dy, n) :: l, m, wf, hl => by
    have h0 := hl _ List.mem_cons_self
    simp only at h0
    obtain ⟨m1, e1, d1⟩ := hLine_drawn c (y + dy) n (x + dx) m wf (by omega) (by omega)
    obtain ⟨m2, e2, d2⟩ := hLines_drawn c x y hx hy l m1 (d1.same.ok wf) fun e he => hl e (List.mem_cons_of_mem _ he)
    refine ⟨m2, ?_, (d1.trans d2).congr fun i j => ?_⟩
    · rw [hLines, ck_ok (by omega), Option.bind_some, ck_ok (by omega), Option.bind_some, e1, Option.bind_some, e2]
    · simp only [List.mem_cons, exists_eq_or_imp]
      constructor
      · rintro (h | h)
        · exact .inl (by omega)
        · exact .inr h
      · rintro (h | h)
        · exact .inl (by omega)
        · exact .inr h

/-! ## Disks -/

theorem sq_bound {z n : Int} (hn : 0 ≤ n) (h : z * z ≤ n * n) : -n ≤ z ∧ z ≤ n := by
  constructor
  · by_cases hz : -n ≤ z
    · exact hz
    · exfalso
      have : (n + 1) * (n + 1) ≤ (-z) * (-z) := Int.mul_le_mul (by omega) (by omega) (by omega) (by omega)
      rw [Int.neg_mul_neg] at this
      have : (n + 1) * (n + 1) = n * n + 2 * n + 1 := by grind
      omega
  · by_cases hz : z ≤ n
    · exact hz
    · exfalso
      have : (n + 1) * (n + 1) ≤ z * z := Int.mul_le_mul (by omega) (by omega) (by omega) (by omega)
      have : (n + 1) * (n + 1) = n * n + 2 * n + 1 := by grind
      omega

theorem sq_le {a b : Int} (h1 : -b ≤ a) (h2 : a ≤ b) : a * a ≤ b * b := by
  by_cases h : 0 ≤ a
  · exact Int.mul_le_mul h2 h2 h (by omega)
  · have : (-a) * (-a) ≤ b * b := Int.mul_le_mul (by omega) (by omega) (by omega) (by omega)
    rwa [Int.neg_mul_neg] at this

theorem sq_nonneg (a : Int) : 0 ≤ a * a := by
  rcases Int.le_total 0 a with h | h
  · exact Int.mul_nonneg h h
  · have := Int.mul_nonneg (a := -a) (b := -a) (by omega) (by omega)
    rwa [Int.neg_mul_neg] at this

theorem rowStart_spec (rsq ysq : Int) : ∀ (n : Nat) (x : Int), (∃ t, x ≤ t ∧ t < x + n ∧ t * t + ysq ≤ rsq) →
    ∃ xl, rowStart rsq ysq n x = some xl ∧ x ≤ xl ∧ xl < x + n ∧ xl * xl + ysq ≤ rsq ∧ ∀ t, x ≤ t → t < xl → ¬ t * t + ysq ≤ rsq
  | 0, x, ⟨t, h1, h2, _⟩ => by omega
  | n + 1, x, ⟨t, h1, h2, h3⟩ => by
    unfold rowStart
    by_cases h : x * x + ysq ≤ rsq
    · exact ⟨x, by rw [if_pos h], by omega, by omega, h, fun t _ _ => by omega⟩
    · have hne : t ≠ x := fun e => h (e ▸ h3)
      obtain ⟨xl, e, a, b, c, d⟩ := rowStart_spec rsq ysq n (x + 1) ⟨t, by omega, by omega, h3⟩
      refine ⟨xl, by rw [if_neg h, e], by omega, by omega, c, fun t ht ht' => ?_⟩
      by_cases ht0 : t = x
      · rw [ht0]; exact h
      · exact d t (by omega) ht'

theorem rowEnd_spec (r rsq ysq : Int) : ∀ (n : Nat) (x : Int), r < x + n → x ≤ r → x * x + ysq ≤ rsq →
    x ≤ rowEnd r rsq ysq n x ∧ rowEnd r rsq ysq n x ≤ r ∧ (∀ t, x ≤ t → t ≤ rowEnd r rsq ysq n x → t * t + ysq ≤ rsq) ∧
      (rowEnd r rsq ysq n x = r ∨ ¬ (rowEnd r rsq ysq n x + 1) * (rowEnd r rsq ysq n x + 1) + ysq ≤ rsq)
  | 0, x, h, hx, h0 => by omega
  | n + 1, x, h, hx, h0 => by
    unfold rowEnd
    split
    · rename_i hc
      obtain ⟨a, b, c, d⟩ := rowEnd_spec r rsq ysq n (x + 1) (by omega) hc.1 hc.2
      refine ⟨by omega, b, fun t ht ht' => ?_, d⟩
      by_cases e : t = x
      · rw [e]; exact h0
      · exact c t (by omega) ht'
    · rename_i hc
      refine ⟨by omega, hx, fun t ht ht' => ?_, ?_⟩
      · have : t = x := by omega
        rw [this]; exact h0
      · by_cases e : x = r
        · exact .inl e
        · exact .inr fun h' => hc ⟨by omega, h'⟩

/-- The row of a disk is found exactly. -/
theorem row_exact {r y1 : Int} (hr : 0 ≤ r) (h1 : -r ≤ y1) (h2 : y1 ≤ r) : ∃ xl, rowStart (r * r) (y1 * y1) (2 * r + 1).toNat (-r) = some xl ∧
    -r ≤ xl ∧ xl ≤ rowEnd r (r * r) (y1 * y1) (2 * r + 1).toNat xl ∧ rowEnd r (r * r) (y1 * y1) (2 * r + 1).toNat xl ≤ r ∧
    ∀ t, (xl ≤ t ∧ t ≤ rowEnd r (r * r) (y1 * y1) (2 * r + 1).toNat xl) ↔ t * t + y1 * y1 ≤ r * r := by
  have hy := sq_le h1 h2
  obtain ⟨xl, e, a, b, c, d⟩ := rowStart_spec (r * r) (y1 * y1) (2 * r + 1).toNat (-r) ⟨0, by omega, by omega, by omega⟩
  obtain ⟨a', b', c', d'⟩ := rowEnd_spec r (r * r) (y1 * y1) (2 * r + 1).toNat xl (by omega) (by omega) c
  refine ⟨xl, e, a, a', b', fun t => ⟨fun ⟨u, v⟩ => c' t u v, fun ht => ?_⟩⟩
  generalize rowEnd r (r * r) (y1 * y1) (2 * r + 1).toNat xl = xr at *
  have hy0 := sq_nonneg y1
  have htr := sq_bound hr (show t * t ≤ r * r by omega)
  refine ⟨?_, ?_⟩
  · by_cases h : xl ≤ t
    · exact h
    · exact absurd ht (d t htr.1 (by omega))
  · by_cases h : t ≤ xr
    · exact h
    · exfalso
      have hne : xr ≠ r := by omega
      have hn := d'.resolve_left hne
      have hpos : 0 ≤ xr := by
        by_cases h0 : 0 ≤ xr
        · exact h0
        · exfalso
          have h3 := c' xr a' (by omega)
          have : (xr + 1) * (xr + 1) = xr * xr + 2 * xr + 1 := by grind
          omega
      have := sq_le (a := xr + 1) (b := t) (by omega) (by omega)
      omega

theorem diskRows_drawn (c : Color) (x y r : Int) (hx : -1073741824 ≤ x ∧ x ≤ 1073741824) (hy : -1073741824 ≤ y ∧ y ≤ 1073741824) (hr : 0 ≤ r ∧ r ≤ 1073741823) :
    ∀ (n : Nat) (y1 : Int) (m : Img), Ok m → -r ≤ y1 → y1 + n ≤ r + 1 →
    ∃ m', diskRows c x y r n y1 m = some m' ∧ Drawn m m' (fun i j => y + y1 ≤ j ∧ j < y + y1 + n ∧ (i - x) * (i - x) + (j - y) * (j - y) ≤ r * r) c
  | 0, y1, m, _, _, _ => ⟨m, rfl, .none m fun i j h => by omega⟩
  | n + 1, y1, m, wf, h1, h2 => by
    obtain ⟨xl, e, a, b, d, g⟩ := row_exact hr.1 h1 (by omega)
    unfold diskRows
    rw [e]
    simp only
    generalize rowEnd r (r * r) (y1 * y1) (2 * r + 1).toNat xl = xr at *
    obtain ⟨m1, e1, d1⟩ := hLine_drawn c (y + y1) (xr - xl + 1).toNat (x + xl) m wf (by omega) (by omega)
    obtain ⟨m2, e2, d2⟩ := diskRows_drawn c x y r hx hy hr n (y1 + 1) m1 (d1.same.ok wf) (by omega) (by omega)
    refine ⟨m2, ?_, (d1.trans d2).congr fun i j => ?_⟩
    · rw [ck_ok (by omega), Option.bind_some, ck_ok (by omega), Option.bind_some, e1, Option.bind_some, e2]
    · have g := g (i - x)
      by_cases hj : j = y + y1
      · have : j - y = y1 := by omega
        rw [this]
        omega
      · omega

theorem small_disk (a b r : Int) (hr : 0 ≤ r) (h : (2 * a + 1) * (2 * a + 1) + (2 * b + 1) * (2 * b + 1) ≤ 4 * (r * r)) : -r ≤ a ∧ a < r ∧ -r ≤ b ∧ b < r := by
  have h1 := sq_nonneg (2 * a + 1)
  have h2 := sq_nonneg (2 * b + 1)
  have h3 : (2 * r) * (2 * r) = 4 * (r * r) := by grind
  have := sq_bound (z := 2 * a + 1) (n := 2 * r) (by omega) (by omega)
  have := sq_bound (z := 2 * b + 1) (n := 2 * r) (by omega) (by omega)
  omega

theorem table1 (a b : Int) : (∃ e ∈ ([(-1, -1, 2), (-1, 0, 2)] : List (Int × Int × Nat)), b = e.2.1 ∧ e.1 ≤ a ∧ a < e.1 + e.2.2) ↔ (2 * a + 1) * (2 * a + 1) + (2 * b + 1) * (2 * b + 1) ≤ 4 * (1 * 1) := by
  simp only [List.mem_cons, exists_eq_or_imp, List.not_mem_nil, false_and, exists_false, or_false, exists_eq_left]
  constructor
  · intro h
    have ha : a = -1 ∨ a = 0 := by omega
    have hb : b = -1 ∨ b = 0 := by omega
    rcases ha with rfl | rfl <;> rcases hb with rfl | rfl <;> decide
  · intro h
    have := small_disk a b 1 (by decide) h
    omega

theorem table2 (a b : Int) : (∃ e ∈ ([(-1, -2, 2), (-2, -1, 4), (-2, 0, 4), (-1, 1, 2)] : List (Int × Int × Nat)), b = e.2.1 ∧ e.1 ≤ a ∧ a < e.1 + e.2.2) ↔
    (2 * a + 1) * (2 * a + 1) + (2 * b + 1) * (2 * b + 1) ≤ 4 * (2 * 2) := by
  simp only [List.mem_cons, exists_eq_or_imp, List.not_mem_nil, false_and, exists_false, or_false, exists_eq_left]
  by_cases hr : -2 ≤ a ∧ a < 2 ∧ -2 ≤ b ∧ b < 2
  · have ha : a = -2 ∨ a = -1 ∨ a = 0 ∨ a = 1 := by omega
    have hb : b = -2 ∨ b = -1 ∨ b = 0 ∨ b = 1 := by omega
    rcases ha with rfl | rfl | rfl | rfl <;> rcases hb with rfl | rfl | rfl | rfl <;> decide
  · exact ⟨fun h => absurd (by omega) hr, fun h => absurd (small_disk a b 2 (by decide) h) hr⟩

theorem table3 (a b : Int) : (∃ e ∈ ([(-2, -3, 4), (-3, -2, 6), (-3, -1, 6), (-3, 0, 6), (-3, 1, 6), (-2, 2, 4)] : List (Int × Int × Nat)), b = e.2.1 ∧ e.1 ≤ a ∧ a < e.1 + e.2.2) ↔
    (2 * a + 1) * (2 * a + 1) + (2 * b + 1) * (2 * b + 1) ≤ 4 * (3 * 3) := by
  simp only [List.mem_cons, exists_eq_or_imp, List.not_mem_nil, false_and, exists_false, or_false, exists_eq_left]
  by_cases hr : -3 ≤ a ∧ a < 3 ∧ -3 ≤ b ∧ b < 3
  · have ha : a = -3 ∨ a = -2 ∨ a = -1 ∨ a = 0 ∨ a = 1 ∨ a = 2 := by omega
    have hb : b = -3 ∨ b = -2 ∨ b = -1 ∨ b = 0 ∨ b = 1 ∨ b = 2 := by omega
    rcases ha with rfl | rfl | rfl | rfl | rfl | rfl <;> rcases hb with rfl | rfl | rfl | rfl | rfl | rfl <;> decide
  · exact ⟨fun h => absurd (by omega) hr, fun h => absurd (small_disk a b 3 (by decide) h) hr⟩

theorem table4 (a b : Int) : (∃ e ∈ ([(-2, -4, 4), (-3, -3, 6), (-4, -2, 8), (-4, -1, 8), (-4, 0, 8), (-4, 1, 8), (-3, 2, 6), (-2, 3, 4)] : List (Int × Int × Nat)), b = e.2.1 ∧ e.1 ≤ a ∧ a < e.1 + e.2.2) ↔
    (2 * a + 1) * (2 * a + 1) + (2 * b + 1) * (2 * b + 1) ≤ 4 * (4 * 4) := by
  simp only [List.mem_cons, exists_eq_or_imp, List.not_mem_nil, false_and, exists_false, or_false, exists_eq_left]
  by_cases hr : -4 ≤ a ∧ a < 4 ∧ -4 ≤ b ∧ b < 4
  · have ha : a = -4 ∨ a = -3 ∨ a = -2 ∨ a = -1 ∨ a = 0 ∨ a = 1 ∨ a = 2 ∨ a = 3 := by omega
    have hb : b = -4 ∨ b = -3 ∨ b = -2 ∨ b = -1 ∨ b = 0 ∨ b = 1 ∨ b = 2 ∨ b = 3 := by omega
    rcases ha with rfl | rfl | rfl | rfl | rfl | rfl | rfl | rfl <;> rcases hb with rfl | rfl | rfl | rfl | rfl | rfl | rfl | rfl <;> decide
  · exact ⟨fun h => absurd (by omega) hr, fun h => absurd (small_disk a b 4 (by decide) h) hr⟩

theorem fillCircle_drawn {m : Img} (wf : Ok m) {x y r : Int} (hx : -1073741824 ≤ x ∧ x ≤ 1073741824) (hy : -1073741824 ≤ y ∧ y ≤ 1073741824) (hr : -32767 ≤ r ∧ r ≤ 32767) (c : Color) :
    ∃ m', fillCircle m x y r c = some m' ∧ Drawn m m' (InDisk x y r) c := by
  unfold fillCircle
  by_cases h0 : r = 0
  · subst h0
    refine ⟨m, if_pos rfl, .none m fun i j h => ?_⟩
    have := h.2
    rw [if_pos (by omega)] at this
    have h3 := small_disk _ _ 0 (by decide) this
    omega
  rw [if_neg h0]
  by_cases h1 : r = 1
  · rw [if_pos h1]
    obtain ⟨m', e, d⟩ := hLines_drawn c x y hx hy [(-1, -1, 2), (-1, 0, 2)] m wf (by decide)
    exact ⟨m', e, d.congr fun i j => by rw [table1]; unfold InDisk; subst h1; simp⟩
  rw [if_neg h1]
  by_cases h2 : r = 2
  · rw [if_pos h2]
    obtain ⟨m', e, d⟩ := hLines_drawn c x y hx hy [(-1, -2, 2), (-2, -1, 4), (-2, 0, 4), (-1, 1, 2)] m wf (by decide)
    exact ⟨m', e, d.congr fun i j => by rw [table2]; unfold InDisk; subst h2; simp⟩
  rw [if_neg h2]
  by_cases h3 : r = 3
  · rw [if_pos h3]
    obtain ⟨m', e, d⟩ := hLines_drawn c x y hx hy [(-2, -3, 4), (-3, -2, 6), (-3, -1, 6), (-3, 0, 6), (-3, 1, 6), (-2, 2, 4)] m wf (by decide)
    exact ⟨m', e, d.congr fun i j => by rw [table3]; unfold InDisk; subst h3; simp⟩
  rw [if_neg h3]
  by_cases h4 : r = 4
  · rw [if_pos h4]
    obtain ⟨m', e, d⟩ := hLines_drawn c x y hx hy [(-2, -4, 4), (-3, -3, 6), (-4, -2, 8), (-4, -1, 8), (-4, 0, 8), (-4, 1, 8), (-3, 2, 6), (-2, 3, 4)] m wf (by decide)
    exact ⟨m', e, d.congr fun i j => by rw [table4]; unfold InDisk; subst h4; simp⟩
  rw [if_neg h4]
  have hsq : r * r ≤ 32767 * 32767 := sq_le (by omega) (by omega)
  have hsq0 := sq_nonneg r
  rw [ck_ok (by omega), Option.bind_some]
  by_cases hneg : r < 0
  · have : (2 * r + 1).toNat = 0 := by omega
    rw [this]
    exact ⟨m, rfl, .none m fun i j h => by have := h.1; omega⟩
  · obtain ⟨m', e, d⟩ := diskRows_drawn c x y r hx hy ⟨by omega, by omega⟩ (2 * r + 1).toNat (-r) m wf (by omega) (by omega)
    refine ⟨m', e, d.congr fun i j => ?_⟩
    unfold InDisk
    rw [if_neg (by omega)]
    constructor
    · rintro ⟨-, -, h⟩; exact ⟨by omega, h⟩
    · rintro ⟨-, h⟩
      have := sq_nonneg (i - x)
      have := sq_bound (z := j - y) (n := r) (by omega) (by omega)
      exact ⟨by omega, by omega, h⟩

theorem rectRows_drawn (c : Color) (x : Int) (w : Nat) (hx : -2147483648 ≤ x ∧ x + w ≤ 2147483648) : ∀ (n : Nat) (y : Int) (m : Img), Ok m →
    ∃ m', rectRows c x w n y m = some m' ∧ Drawn m m' (fun i j => x ≤ i ∧ i < x + w ∧ y ≤ j ∧ j < y + n) c
  | 0, y, m, _ => ⟨m, rfl, .none m fun i j h => by omega⟩
  | n + 1, y, m, wf => by
    obtain ⟨m1, e1, d1⟩ := hLine_drawn c y w x m wf hx.1 hx.2
    obtain ⟨m2, e2, d2⟩ := rectRows_drawn c x w hx n (y + 1) m1 (d1.same.ok wf)
    exact ⟨m2, by rw [rectRows, e1, Option.bind_some, e2], (d1.trans d2).congr fun i j => by omega⟩

end Verif.Img
