import Verif.Img.Circle

/-! # Thick circles -/

namespace Verif.Img

/-- The search for the inner end going right: it ends at the first place inside of the inner circle, or at once if it starts left of -2001. -/
theorem sliceEnd_right (risq ysq : Int) (h1 : 1 + ysq ≤ risq) : ∀ (n : Nat) (ox : Int), ox < 0 → -ox ≤ n →
    ∃ cur, sliceEnd risq ysq 1 n ox = some cur ∧ ox < cur ∧ cur ≤ 0 ∧ (-2001 ≤ ox → (2 * cur + 1) * (2 * cur + 1) + ysq ≤ risq ∧ ∀ a, ox < a → a < cur → ¬ (2 * a + 1) * (2 * a + 1) + ysq ≤ risq) ∧
      (ox < -2001 → cur = ox + 1)
  | 0, ox, h, hn => by omega
  | n + 1, ox, h, hn => by
    unfold sliceEnd
    by_cases hc : (2 * (ox + 1) + 1) * (2 * (ox + 1) + 1) + ysq ≤ risq ∨ ((ox + 1).natAbs : Int) > 2000
    · rw [if_pos hc]
      refine ⟨ox + 1, rfl, by omega, by omega, fun hb => ⟨?_, fun a _ _ => by omega⟩, fun _ => rfl⟩
      rcases hc with hc | hc
      · exact hc
      · omega
    · rw [if_neg hc]
      have hne : ox + 1 ≠ 0 := by
        intro e
        apply hc
        left
        rw [e]; omega
      have hb : -2001 ≤ ox := by
        by_cases g : -2001 ≤ ox
        · exact g
        · exfalso; apply hc; right; omega
      obtain ⟨cur, e, a, b, d, -⟩ := sliceEnd_right risq ysq h1 n (ox + 1) (by omega) (by omega)
      obtain ⟨d1, d2⟩ := d (by omega)
      refine ⟨cur, e, by omega, b, fun _ => ⟨d1, fun a ha ha' => ?_⟩, fun g => by omega⟩
      by_cases ea : a = ox + 1
      · rw [ea]; exact fun g => hc (.inl g)
      · exact d2 a (by omega) ha'

/-- Going left. -/
theorem sliceEnd_left (risq ysq : Int) (h1 : 1 + ysq ≤ risq) : ∀ (n : Nat) (ox : Int), 0 < ox → ox ≤ n →
    ∃ cur, sliceEnd risq ysq (-1) n ox = some cur ∧ cur < ox ∧ 0 ≤ cur ∧ (ox ≤ 2001 → (2 * cur + 1) * (2 * cur + 1) + ysq ≤ risq ∧ ∀ a, a < ox → cur < a → ¬ (2 * a + 1) * (2 * a + 1) + ysq ≤ risq)
  | 0, ox, h, hn => by omega
  | n + 1, ox, h, hn => by
    unfold sliceEnd
    by_cases hc : (2 * (ox + -1) + 1) * (2 * (ox + -1) + 1) + ysq ≤ risq ∨ ((ox + -1).natAbs : Int) > 2000
    · rw [if_pos hc]
      refine ⟨ox + -1, rfl, by omega, by omega, fun hb => ⟨?_, fun a _ _ => by omega⟩⟩
      rcases hc with hc | hc
      · exact hc
      · omega
    · rw [if_neg hc]
      have hne : ox + -1 ≠ 0 := by
        intro e
        apply hc
        left
        rw [e]; omega
      have hb : ox ≤ 2001 := by
        by_cases g : ox ≤ 2001
        · exact g
        · exfalso; apply hc; right; omega
      obtain ⟨cur, e, a, b, d⟩ := sliceEnd_left risq ysq h1 n (ox + -1) (by omega) (by omega)
      obtain ⟨d1, d2⟩ := d (by omega)
      refine ⟨cur, e, by omega, b, fun _ => ⟨d1, fun a ha ha' => ?_⟩⟩
      by_cases ea : a = ox + -1
      · rw [ea]; exact fun g => hc (.inl g)
      · exact d2 a (by omega) ha'

theorem outerEnd_spec (rsq ysq : Int) : ∀ (n : Nat) (x : Int), (∃ t, x ≤ t ∧ t < x + n ∧ (2 * t + 1) * (2 * t + 1) + ysq ≤ rsq) →
    ∃ xl, outerEnd rsq ysq n x = some xl ∧ x ≤ xl ∧ xl < x + n ∧ (2 * xl + 1) * (2 * xl + 1) + ysq ≤ rsq ∧ ∀ t, x ≤ t → t < xl → ¬ (2 * t + 1) * (2 * t + 1) + ysq ≤ rsq
  | 0, x, ⟨t, h1, h2, _⟩ => by omega
  | n + 1, x, ⟨t, h1, h2, h3⟩ => by
    unfold outerEnd
    by_cases h : (2 * x + 1) * (2 * x + 1) + ysq ≤ rsq
    · exact ⟨x, by rw [if_pos h], by omega, by omega, h, fun t _ _ => by omega⟩
    · have hne : t ≠ x := fun e => h (e ▸ h3)
      obtain ⟨xl, e, a, b, c, d⟩ := outerEnd_spec rsq ysq n (x + 1) ⟨t, by omega, by omega, h3⟩
      refine ⟨xl, by rw [if_neg h, e], by omega, by omega, c, fun t ht ht' => ?_⟩
      by_cases ht0 : t = x
      · rw [ht0]; exact h
      · exact d t (by omega) ht'

theorem odd_mono {a b : Int} (h1 : a ≤ b) (h2 : b < 0) : (2 * b + 1) * (2 * b + 1) ≤ (2 * a + 1) * (2 * a + 1) := by
  have := sq_le (a := 2 * b + 1) (b := -(2 * a + 1)) (by omega) (by omega)
  rwa [Int.neg_mul_neg] at this

theorem odd_mono' {a b : Int} (h1 : 0 ≤ a) (h2 : a ≤ b) : (2 * a + 1) * (2 * a + 1) ≤ (2 * b + 1) * (2 * b + 1) :=
  sq_le (by omega) (by omega)

theorem odd_neg (a : Int) : (2 * (-a - 1) + 1) * (2 * (-a - 1) + 1) = (2 * a + 1) * (2 * a + 1) := by grind

/-- The left end of a row. -/
theorem outer_row {r y0 : Int} (h0 : 0 ≤ y0) (h1 : y0 < r) : ∃ x0, outerEnd (r * r * 4) ((2 * y0 + 1) * (2 * y0 + 1)) (r + 1).toNat (-r) = some x0 ∧ -r ≤ x0 ∧ x0 < 0 ∧
    ∀ a, (x0 ≤ a ∧ a < -x0) ↔ (2 * a + 1) * (2 * a + 1) + (2 * y0 + 1) * (2 * y0 + 1) ≤ 4 * (r * r) := by
  have hy : (2 * y0 + 1) * (2 * y0 + 1) ≤ (2 * r - 1) * (2 * r - 1) := sq_le (by omega) (by omega)
  have hm := sq_m r
  obtain ⟨x0, e, a, b, c, d⟩ := outerEnd_spec (r * r * 4) ((2 * y0 + 1) * (2 * y0 + 1)) (r + 1).toNat (-r) ⟨-1, by omega, by omega, by omega⟩
  have hneg : x0 < 0 := by
    by_cases h : x0 < 0
    · exact h
    · exact absurd (show (2 * (-1) + 1) * (2 * (-1) + 1) + (2 * y0 + 1) * (2 * y0 + 1) ≤ r * r * 4 by omega) (d (-1) (by omega) (by omega))
  refine ⟨x0, e, a, hneg, fun t => ⟨fun ⟨u, v⟩ => ?_, fun ht => ?_⟩⟩
  · have : (2 * t + 1) * (2 * t + 1) ≤ (2 * x0 + 1) * (2 * x0 + 1) := by
      have := sq_le (a := 2 * t + 1) (b := -(2 * x0 + 1)) (by omega) (by omega)
      rwa [Int.neg_mul_neg] at this
    omega
  · have hr4 : (2 * r) * (2 * r) = 4 * (r * r) := by grind
    have hys := sq_nonneg (2 * y0 + 1)
    have htr := sq_bound (z := 2 * t + 1) (n := 2 * r) (by omega) (by omega)
    refine ⟨?_, ?_⟩
    · by_cases h : x0 ≤ t
      · exact h
      · exact absurd (show _ ≤ r * r * 4 by omega) (d t (by omega) (by omega))
    · by_cases h : t < -x0
      · exact h
      · have hn := odd_neg t
        exact absurd (show (2 * (-t - 1) + 1) * (2 * (-t - 1) + 1) + (2 * y0 + 1) * (2 * y0 + 1) ≤ r * r * 4 by omega) (d (-t - 1) (by omega) (by omega))

/-- A place of a row is outside of the inner circle. -/
def Outer (ri a b : Int) : Prop := ¬ (0 < ri ∧ (2 * a + 1) * (2 * a + 1) + (2 * b + 1) * (2 * b + 1) ≤ 4 * (ri * ri))

/-- Whether a slice is filled does not depend on the half. -/
theorem filled_iff {y0 oy ri : Int} (h0 : 0 ≤ y0) (ho : oy = y0 ∨ oy = -y0 - 1) : (if oy < 0 then -oy > ri else oy ≥ ri) ↔ ri ≤ y0 := by
  rcases ho with rfl | rfl
  · rw [if_neg (by omega)]
  · rw [if_pos (by omega)]; omega

theorem oy_sq {y0 oy : Int} (ho : oy = y0 ∨ oy = -y0 - 1) : (2 * oy + 1) * (2 * oy + 1) = (2 * y0 + 1) * (2 * y0 + 1) := by
  rcases ho with rfl | rfl
  · rfl
  · exact odd_neg y0

/-- The left slice of a row. -/
theorem slice_left (c : Color) {cx cy ri y0 oy x0 r : Int} {m : Img} (wf : Ok m) (hx : -1073741824 ≤ cx ∧ cx ≤ 1073741824) (hy : -1073741824 ≤ cy ∧ cy ≤ 1073741824) (hr : r ≤ 16383) (hri : ri < r)
    (h0 : 0 ≤ y0) (h1 : y0 < r) (ho : oy = y0 ∨ oy = -y0 - 1) (hx0 : -r ≤ x0 ∧ x0 < 0)
    (hout : ri ≤ y0 ∨ ¬ (2 * x0 + 1) * (2 * x0 + 1) + (2 * y0 + 1) * (2 * y0 + 1) ≤ 4 * (ri * ri)) :
    ∃ m' S, slice c cx cy ri (ri * ri * 4) x0 oy m = some m' ∧ Drawn m m' S c ∧ (∀ i j, S i j → j = cy + oy ∧ x0 ≤ i - cx ∧ i - cx < 0) ∧
      (-2001 ≤ x0 → ∀ i j, S i j ↔ j = cy + oy ∧ x0 ≤ i - cx ∧ i - cx < 0 ∧ Outer ri (i - cx) oy) ∧
      (x0 < -2001 → y0 < ri → ∀ i j, S i j ↔ j = cy + oy ∧ i - cx = x0) := by
  have hoy : -16384 ≤ oy ∧ oy ≤ 16383 := by omega
  unfold slice
  rw [ck_ok (by omega), Option.bind_some]
  by_cases hf : ri ≤ y0
  · rw [if_pos ((filled_iff h0 ho).2 hf), if_pos hx0.2, ck_ok (by omega), Option.bind_some]
    obtain ⟨m', e, d⟩ := hLine_drawn c (oy + cy) (-x0).toNat (x0 + cx) m wf (by omega) (by omega)
    refine ⟨m', _, e, d, fun i j h => by omega, fun _ i j => ?_, fun _ h => by omega⟩
    have houter : Outer ri (i - cx) oy := by
      rintro ⟨hp, h⟩
      rw [oy_sq ho] at h
      have g1 := sq_nonneg (2 * (i - cx) + 1)
      have g2 := sq_le (a := 2 * ri + 1) (b := 2 * y0 + 1) (by omega) (by omega)
      have g3 := sq_p ri
      omega
    constructor
    · intro h; exact ⟨by omega, by omega, by omega, houter⟩
    · intro h; omega
  · rw [if_neg (fun h => hf ((filled_iff h0 ho).1 h)), oy_sq ho]
    simp only [if_neg (show ¬ x0 > 0 by omega)]
    have hy1 : (2 * y0 + 1) * (2 * y0 + 1) ≤ (2 * ri - 1) * (2 * ri - 1) := sq_le (by omega) (by omega)
    have hm := sq_m ri
    have hq : ri * ri * 4 = 4 * (ri * ri) := by omega
    by_cases hlim : -2001 ≤ x0
    · obtain ⟨cur, e, a, b, d, -⟩ := sliceEnd_right (ri * ri * 4) ((2 * y0 + 1) * (2 * y0 + 1)) (by omega) 4100 x0 hx0.2 (by omega)
      obtain ⟨d1, d2⟩ := d hlim
      rw [e, Option.bind_some, ck_ok (by omega), Option.bind_some]
      obtain ⟨m', e', dr⟩ := hLine_drawn c (oy + cy) (cur - x0).natAbs (x0 + cx) m wf (by omega) (by omega)
      refine ⟨m', _, e', dr, fun i j h => by omega, fun _ i j => ?_, fun h => by omega⟩
      unfold Outer
      rw [oy_sq ho]
      have key : (x0 ≤ i - cx ∧ i - cx < cur) ↔ (x0 ≤ i - cx ∧ i - cx < 0 ∧ ¬ ((2 * (i - cx) + 1) * (2 * (i - cx) + 1) + (2 * y0 + 1) * (2 * y0 + 1) ≤ 4 * (ri * ri))) := by
        generalize i - cx = a' at *
        constructor
        · rintro ⟨g1, g2⟩
          refine ⟨g1, by omega, fun h => ?_⟩
          by_cases ea : a' = x0
          · subst ea
            exact hout.elim (fun g => hf g) (fun g => g h)
          · exact d2 a' (by omega) g2 (by omega)
        · rintro ⟨g1, g2, g3⟩
          refine ⟨g1, ?_⟩
          by_cases g : a' < cur
          · exact g
          · exfalso
            by_cases hc0 : cur < 0
            · have := odd_mono (a := cur) (b := a') (by omega) g2
              omega
            · omega
      constructor
      · intro h
        have := key.1 (by omega)
        exact ⟨by omega, by omega, by omega, fun g => this.2.2 g.2⟩
      · intro h
        have := key.2 ⟨h.2.1, h.2.2.1, fun g => h.2.2.2 ⟨by omega, g⟩⟩
        omega
    · have e : sliceEnd (ri * ri * 4) ((2 * y0 + 1) * (2 * y0 + 1)) 1 4100 x0 = some (x0 + 1) := by
        rw [show (4100 : Nat) = 4099 + 1 from rfl, sliceEnd, if_pos (.inr (by omega))]
      rw [e, Option.bind_some, ck_ok (by omega), Option.bind_some]
      obtain ⟨m', e', dr⟩ := hLine_drawn c (oy + cy) (x0 + 1 - x0).natAbs (x0 + cx) m wf (by omega) (by omega)
      exact ⟨m', _, e', dr, fun i j h => by omega, fun h => by omega, fun _ _ i j => by omega⟩

/-- The right slice of a row. -/
theorem slice_right (c : Color) {cx cy ri y0 oy x0 r : Int} {m : Img} (wf : Ok m) (hx : -1073741824 ≤ cx ∧ cx ≤ 1073741824) (hy : -1073741824 ≤ cy ∧ cy ≤ 1073741824) (hr : r ≤ 16383) (hri : ri < r)
    (h0 : 0 ≤ y0) (h1 : y0 < r) (ho : oy = y0 ∨ oy = -y0 - 1) (hx0 : -r ≤ x0 ∧ x0 < 0)
    (hne : y0 < ri → x0 ≠ -1)
    (hout : ri ≤ y0 ∨ ¬ (2 * x0 + 1) * (2 * x0 + 1) + (2 * y0 + 1) * (2 * y0 + 1) ≤ 4 * (ri * ri)) :
    ∃ m' S, slice c cx cy ri (ri * ri * 4) (-x0 - 1) oy m = some m' ∧ Drawn m m' S c ∧ (∀ i j, S i j → j = cy + oy ∧ 0 ≤ i - cx ∧ i - cx < -x0) ∧
      (-2001 ≤ x0 → ∀ i j, S i j ↔ j = cy + oy ∧ 0 ≤ i - cx ∧ i - cx < -x0 ∧ Outer ri (i - cx) oy) := by
  have hoy : -16384 ≤ oy ∧ oy ≤ 16383 := by omega
  unfold slice
  rw [ck_ok (by omega), Option.bind_some]
  by_cases hf : ri ≤ y0
  · rw [if_pos ((filled_iff h0 ho).2 hf), if_neg (by omega), ck_ok (by omega), Option.bind_some]
    obtain ⟨m', e, d⟩ := hLine_drawn c (oy + cy) (-x0 - 1 + 1).toNat (0 + cx) m wf (by omega) (by omega)
    refine ⟨m', _, e, d, fun i j h => by omega, fun _ i j => ?_⟩
    have houter : Outer ri (i - cx) oy := by
      rintro ⟨hp, h⟩
      rw [oy_sq ho] at h
      have g1 := sq_nonneg (2 * (i - cx) + 1)
      have g2 := sq_le (a := 2 * ri + 1) (b := 2 * y0 + 1) (by omega) (by omega)
      have g3 := sq_p ri
      omega
    constructor
    · intro h; exact ⟨by omega, by omega, by omega, houter⟩
    · intro h; omega
  · replace hne := hne (by omega)
    rw [if_neg (fun h => hf ((filled_iff h0 ho).1 h)), oy_sq ho]
    simp only [if_pos (show -x0 - 1 > 0 by omega)]
    have hy1 : (2 * y0 + 1) * (2 * y0 + 1) ≤ (2 * ri - 1) * (2 * ri - 1) := sq_le (by omega) (by omega)
    have hm := sq_m ri
    have hq : ri * ri * 4 = 4 * (ri * ri) := by omega
    by_cases hlim : -2001 ≤ x0
    · obtain ⟨cur, e, a, b, d⟩ := sliceEnd_left (ri * ri * 4) ((2 * y0 + 1) * (2 * y0 + 1)) (by omega) 4100 (-x0 - 1) (by omega) (by omega)
      obtain ⟨d1, d2⟩ := d (by omega)
      rw [e, Option.bind_some, ck_ok (by omega), Option.bind_some]
      obtain ⟨m', e', dr⟩ := hLine_drawn c (oy + cy) (cur - (-x0 - 1)).natAbs (cur + 1 + cx) m wf (by omega) (by omega)
      refine ⟨m', _, e', dr, fun i j h => by omega, fun _ i j => ?_⟩
      unfold Outer
      rw [oy_sq ho]
      have hn := odd_neg x0
      have key : (cur < i - cx ∧ i - cx < -x0) ↔ (0 ≤ i - cx ∧ i - cx < -x0 ∧ ¬ ((2 * (i - cx) + 1) * (2 * (i - cx) + 1) + (2 * y0 + 1) * (2 * y0 + 1) ≤ 4 * (ri * ri))) := by
        generalize i - cx = a' at *
        constructor
        · rintro ⟨g1, g2⟩
          refine ⟨by omega, g2, fun h => ?_⟩
          by_cases ea : a' = -x0 - 1
          · subst ea
            rw [hn] at h
            exact hout.elim (fun g => hf g) (fun g => g h)
          · exact d2 a' (by omega) g1 (by omega)
        · rintro ⟨g1, g2, g3⟩
          refine ⟨?_, g2⟩
          by_cases g : cur < a'
          · exact g
          · exfalso
            have := odd_mono' (a := a') (b := cur) g1 (by omega)
            omega
      constructor
      · intro h
        have := key.1 (by omega)
        exact ⟨by omega, by omega, by omega, fun g => this.2.2 g.2⟩
      · intro h
        have := key.2 ⟨h.2.1, h.2.2.1, fun g => h.2.2.2 ⟨by omega, g⟩⟩
        omega
    · obtain ⟨cur, e, hcur⟩ : ∃ cur, sliceEnd (ri * ri * 4) ((2 * y0 + 1) * (2 * y0 + 1)) (-1) 4100 (-x0 - 1) = some cur ∧ (0 ≤ cur ∧ cur < -x0 - 1) := by
        by_cases hb : -x0 - 1 ≤ 4100
        · obtain ⟨cur, e, a, b, -⟩ := sliceEnd_left (ri * ri * 4) ((2 * y0 + 1) * (2 * y0 + 1)) (by omega) 4100 (-x0 - 1) (by omega) (by omega)
          exact ⟨cur, e, b, a⟩
        · refine ⟨-x0 - 1 + -1, ?_, by omega, by omega⟩
          rw [show (4100 : Nat) = 4099 + 1 from rfl, sliceEnd, if_pos (.inr (by omega))]
      rw [e, Option.bind_some, ck_ok (by omega), Option.bind_some]
      obtain ⟨m', e', dr⟩ := hLine_drawn c (oy + cy) (cur - (-x0 - 1)).natAbs (cur + 1 + cx) m wf (by omega) (by omega)
      exact ⟨m', _, e', dr, fun i j h => by omega, fun h => by omega⟩

theorem sq_five (b : Int) : (2 * b - 1) * (2 * b - 1) = (2 * b + 1) * (2 * b + 1) - 8 * b := by grind
theorem sq_3 (b : Int) : (2 * b - 3) * (2 * b - 3) = 4 * (b * b) - 12 * b + 9 := by grind
theorem sq_d4 (b : Int) : 4 * ((b - 1) * (b - 1)) = 4 * (b * b) - 8 * b + 4 := by grind

/-- The outer end of a row is outside of the inner circle, and not next to the middle. -/
theorem outer_out {r ri y0 x0 : Int} (hri : ri < r) (h0 : 0 ≤ y0) (hx0 : -r ≤ x0 ∧ x0 < 0)
    (hiff : ∀ a, (x0 ≤ a ∧ a < -x0) ↔ (2 * a + 1) * (2 * a + 1) + (2 * y0 + 1) * (2 * y0 + 1) ≤ 4 * (r * r)) :
    (ri ≤ y0 ∨ ¬ (2 * x0 + 1) * (2 * x0 + 1) + (2 * y0 + 1) * (2 * y0 + 1) ≤ 4 * (ri * ri)) ∧ (y0 < ri → x0 ≠ -1) := by
  by_cases hf : ri ≤ y0
  · exact ⟨.inl hf, fun h => by omega⟩
  have hmono : ri * ri ≤ (r - 1) * (r - 1) := sq_le (by omega) (by omega)
  have hd := sq_d4 r
  have hys := sq_nonneg (2 * y0 + 1)
  constructor
  · right
    intro h
    by_cases e : x0 = -r
    · have : (2 * x0 + 1) * (2 * x0 + 1) = (2 * r - 1) * (2 * r - 1) := by rw [e]; grind
      have hm := sq_m r
      omega
    · have h2 : ¬ (2 * (x0 - 1) + 1) * (2 * (x0 - 1) + 1) + (2 * y0 + 1) * (2 * y0 + 1) ≤ 4 * (r * r) := fun g => by
        have := (hiff (x0 - 1)).2 g
        omega
      rw [show 2 * (x0 - 1) + 1 = 2 * x0 - 1 by omega] at h2
      have h3 := sq_five x0
      omega
  · intro _ e
    have h1 : (2 * y0 + 1) * (2 * y0 + 1) ≤ (2 * r - 3) * (2 * r - 3) := sq_le (by omega) (by omega)
    have h2 := sq_3 r
    have := (hiff (-2)).2 (by omega)
    omega

/-- The rows of a ring. The shape is exact if no row is longer than 2001 pixels to each side. -/
theorem ringRows_drawn (c : Color) {cx cy r ri : Int} (hx : -1073741824 ≤ cx ∧ cx ≤ 1073741824) (hy : -1073741824 ≤ cy ∧ cy ≤ 1073741824) (hr : r ≤ 16383) (hri : ri < r) :
    ∀ (n : Nat) (y0 : Int) (m : Img), Ok m → 0 ≤ y0 → y0 + n ≤ r →
    ∃ m' S, ringRows c cx cy r ri n y0 m = some m' ∧ Drawn m m' S c ∧
      (∀ i j, S i j → ((y0 ≤ j - cy ∧ j - cy < y0 + n) ∨ (y0 ≤ -(j - cy) - 1 ∧ -(j - cy) - 1 < y0 + n)) ∧
        (2 * (i - cx) + 1) * (2 * (i - cx) + 1) + (2 * (j - cy) + 1) * (2 * (j - cy) + 1) ≤ 4 * (r * r)) ∧
      (r ≤ 2001 → ∀ i j, S i j ↔ ((y0 ≤ j - cy ∧ j - cy < y0 + n) ∨ (y0 ≤ -(j - cy) - 1 ∧ -(j - cy) - 1 < y0 + n)) ∧
        (2 * (i - cx) + 1) * (2 * (i - cx) + 1) + (2 * (j - cy) + 1) * (2 * (j - cy) + 1) ≤ 4 * (r * r) ∧ Outer ri (i - cx) (j - cy))
  | 0, y0, m, wf, h0, hn => by
    refine ⟨m, fun _ _ => False, rfl, .none m fun _ _ h => h, fun _ _ h => h.elim, fun _ i j => ⟨fun h => h.elim, fun h => ?_⟩⟩
    omega
  | n + 1, y0, m, wf, h0, hn => by
    obtain ⟨x0, eo, hx0a, hx0b, hiff⟩ := outer_row (r := r) (y0 := y0) h0 (by omega)
    obtain ⟨hout, hne⟩ := outer_out hri h0 ⟨hx0a, hx0b⟩ hiff
    obtain ⟨m1, S1, e1, d1, b1, x1, -⟩ := slice_left c wf hx hy hr hri h0 (show y0 < r by omega) (.inl rfl) ⟨hx0a, hx0b⟩ hout
    have w1 := d1.same.ok wf
    obtain ⟨m2, S2, e2, d2, b2, x2⟩ := slice_right c w1 hx hy hr hri h0 (show y0 < r by omega) (.inl rfl) ⟨hx0a, hx0b⟩ hne hout
    have w2 := d2.same.ok w1
    obtain ⟨m3, S3, e3, d3, b3, x3, -⟩ := slice_left c w2 hx hy hr hri h0 (show y0 < r by omega) (.inr rfl) ⟨hx0a, hx0b⟩ hout
    have w3 := d3.same.ok w2
    obtain ⟨m4, S4, e4, d4, b4, x4⟩ := slice_right c w3 hx hy hr hri h0 (show y0 < r by omega) (.inr rfl) ⟨hx0a, hx0b⟩ hne hout
    have w4 := d4.same.ok w3
    obtain ⟨m5, S5, e5, d5, b5, x5⟩ := ringRows_drawn c hx hy hr hri n (y0 + 1) m4 w4 (by omega) (by omega)
    have hrow : ∀ i j, (j = cy + y0 ∨ j = cy + (-y0 - 1)) → x0 ≤ i - cx → i - cx < -x0 → (2 * (i - cx) + 1) * (2 * (i - cx) + 1) + (2 * (j - cy) + 1) * (2 * (j - cy) + 1) ≤ 4 * (r * r) := by
      intro i j hj h1 h2
      have := (hiff (i - cx)).1 ⟨h1, h2⟩
      rw [oy_sq (y0 := y0) (oy := j - cy) (by omega)]
      exact this
    refine ⟨m5, _, ?_, (((d1.trans d2).trans d3).trans d4).trans d5, ?_, ?_⟩
    · unfold ringRows
      rw [eo]
      simp only [e1, e2, e3, e4, Option.bind_some]
      exact e5
    · rintro i j ((((h | h) | h) | h) | h)
      · have := b1 i j h; exact ⟨by omega, hrow i j (by omega) (by omega) (by omega)⟩
      · have := b2 i j h; exact ⟨by omega, hrow i j (by omega) (by omega) (by omega)⟩
      · have := b3 i j h; exact ⟨by omega, hrow i j (by omega) (by omega) (by omega)⟩
      · have := b4 i j h; exact ⟨by omega, hrow i j (by omega) (by omega) (by omega)⟩
      · have := b5 i j h; exact ⟨by omega, this.2⟩
    · intro hlim i j
      rw [x1 (by omega), x2 (by omega), x3 (by omega), x4 (by omega), x5 hlim]
      constructor
      · rintro ((((⟨h1, h2, h3, h4⟩ | ⟨h1, h2, h3, h4⟩) | ⟨h1, h2, h3, h4⟩) | ⟨h1, h2, h3, h4⟩) | ⟨h1, h2, h3⟩)
        · exact ⟨by omega, hrow i j (by omega) (by omega) (by omega), by rwa [show j - cy = y0 by omega]⟩
        · exact ⟨by omega, hrow i j (by omega) (by omega) (by omega), by rwa [show j - cy = y0 by omega]⟩
        · exact ⟨by omega, hrow i j (by omega) (by omega) (by omega), by rwa [show j - cy = -y0 - 1 by omega]⟩
        · exact ⟨by omega, hrow i j (by omega) (by omega) (by omega), by rwa [show j - cy = -y0 - 1 by omega]⟩
        · exact ⟨by omega, h2, h3⟩
      · rintro ⟨h1, h2, h3⟩
        by_cases hj : j - cy = y0
        · rw [hj] at h2 h3
          have := (hiff (i - cx)).2 h2
          by_cases hi : i - cx < 0
          · exact .inl (.inl (.inl (.inl ⟨by omega, by omega, hi, h3⟩)))
          · exact .inl (.inl (.inl (.inr ⟨by omega, by omega, by omega, h3⟩)))
        · by_cases hj' : j - cy = -y0 - 1
          · rw [hj'] at h2 h3
            rw [odd_neg] at h2
            have := (hiff (i - cx)).2 h2
            by_cases hi : i - cx < 0
            · exact .inl (.inl (.inr ⟨by omega, by omega, hi, h3⟩))
            · exact .inl (.inr ⟨by omega, by omega, by omega, h3⟩)
          · exact .inr ⟨by omega, h2, h3⟩

/-- A thick circle stays inside of its outer circle; it is exactly the ring for radii up to 2001. -/
theorem circleThick_drawn {m : Img} (wf : Ok m) {x y r t : Int} (hx : -1073741824 ≤ x ∧ x ≤ 1073741824) (hy : -1073741824 ≤ y ∧ y ≤ 1073741824) (hr : 0 ≤ r ∧ r ≤ 16383) (ht : 0 < t ∧ t ≤ 16383) (c : Color) :
    ∃ m' S, circleThick m x y r t c = some m' ∧ Drawn m m' S c ∧
      (∀ i j, S i j → (2 * (i - x) + 1) * (2 * (i - x) + 1) + (2 * (j - y) + 1) * (2 * (j - y) + 1) ≤ 4 * (r * r)) ∧
      (r ≤ 2001 → ∀ i j, S i j ↔ InRing x y r t i j) := by
  obtain ⟨m', S, e, d, b, ex⟩ := ringRows_drawn c hx hy hr.2 (show r - t < r by omega) r.toNat 0 m wf (by omega) (by omega)
  have h1 := sq_le (a := r) (b := 16383) (by omega) (by omega)
  have h2 := sq_le (a := r - t) (b := 16383) (by omega) (by omega)
  have h3 := sq_nonneg r
  have h4 := sq_nonneg (r - t)
  refine ⟨m', S, ?_, d, fun i j h => (b i j h).2, fun hl i j => ?_⟩
  · unfold circleThick
    rw [ck_ok (by omega), Option.bind_some, ck_ok (by omega), Option.bind_some, ck_ok (by omega), Option.bind_some, e]
  · rw [ex hl]
    unfold InRing Outer
    constructor
    · rintro ⟨g1, g2, g3⟩
      exact ⟨hr.1, g2, fun h => g3 ⟨by omega, h.2⟩⟩
    · rintro ⟨g1, g2, g3⟩
      refine ⟨?_, g2, fun h => g3 ⟨by omega, h.2⟩⟩
      have hr4 : (2 * r) * (2 * r) = 4 * (r * r) := by grind
      have hxs := sq_nonneg (2 * (i - x) + 1)
      have := sq_bound (z := 2 * (j - y) + 1) (n := 2 * r) (by omega) (by omega)
      omega

/-- The first row of a ring whose radius is above 2001 misses the second pixel from the left. -/
theorem circleThick_hollow {m : Img} (wf : Ok m) {x y r t : Int} (hx : -1073741824 ≤ x ∧ x ≤ 1073741824) (hy : -1073741824 ≤ y ∧ y ≤ 1073741824) (hr : 2002 ≤ r ∧ r ≤ 16383) (ht : 0 < t ∧ t < r) (c : Color) :
    ∃ m' S, circleThick m x y r t c = some m' ∧ Drawn m m' S c ∧ (∀ i j, S i j → x - r ≤ i ∧ i < x + r ∧ y - r ≤ j ∧ j < y + r) ∧ ¬ S (x - r + 1) y := by
  obtain ⟨n, hn⟩ : ∃ n, r.toNat = n + 1 := ⟨r.toNat - 1, by omega⟩
  obtain ⟨x0, eo, hx0a, hx0b, hiff⟩ := outer_row (r := r) (y0 := 0) (by omega) (by omega)
  have hx0 : x0 = -r := by
    have hm := sq_m r
    have e : (2 * -r + 1) * (2 * -r + 1) = (2 * r - 1) * (2 * r - 1) := by grind
    have := (hiff (-r)).2 (by omega)
    omega
  have hri : r - t < r := by omega
  obtain ⟨hout, hne⟩ := outer_out hri (Int.le_refl 0) ⟨hx0a, hx0b⟩ hiff
  obtain ⟨m1, S1, e1, d1, b1, -, x1⟩ := slice_left c wf hx hy hr.2 hri (Int.le_refl 0) (show (0 : Int) < r by omega) (.inl rfl) ⟨hx0a, hx0b⟩ hout
  have w1 := d1.same.ok wf
  obtain ⟨m2, S2, e2, d2, b2, -⟩ := slice_right c w1 hx hy hr.2 hri (Int.le_refl 0) (show (0 : Int) < r by omega) (.inl rfl) ⟨hx0a, hx0b⟩ hne hout
  have w2 := d2.same.ok w1
  obtain ⟨m3, S3, e3, d3, b3, -⟩ := slice_left c w2 hx hy hr.2 hri (Int.le_refl 0) (show (0 : Int) < r by omega) (.inr rfl) ⟨hx0a, hx0b⟩ hout
  have w3 := d3.same.ok w2
  obtain ⟨m4, S4, e4, d4, b4, -⟩ := slice_right c w3 hx hy hr.2 hri (Int.le_refl 0) (show (0 : Int) < r by omega) (.inr rfl) ⟨hx0a, hx0b⟩ hne hout
  have w4 := d4.same.ok w3
  obtain ⟨m5, S5, e5, d5, b5, -⟩ := ringRows_drawn c hx hy hr.2 hri n (0 + 1) m4 w4 (by omega) (by omega)
  have h1 := sq_le (a := r) (b := 16383) (by omega) (by omega)
  have h2 := sq_le (a := r - t) (b := 16383) (by omega) (by omega)
  have h3 := sq_nonneg r
  have h4 := sq_nonneg (r - t)
  refine ⟨m5, _, ?_, (((d1.trans d2).trans d3).trans d4).trans d5, ?_, ?_⟩
  · unfold circleThick
    rw [ck_ok (by omega), Option.bind_some, ck_ok (by omega), Option.bind_some, ck_ok (by omega), Option.bind_some, hn]
    unfold ringRows
    rw [eo]
    simp only [e1, e2, e3, e4, Option.bind_some]
    exact e5
  · rintro i j ((((h | h) | h) | h) | h)
    · have := b1 i j h; omega
    · have := b2 i j h; omega
    · have := b3 i j h; omega
    · have := b4 i j h; omega
    · have := b5 i j h
      have hr4 : (2 * r) * (2 * r) = 4 * (r * r) := by grind
      have g1 := sq_nonneg (2 * (i - x) + 1)
      have g2 := sq_nonneg (2 * (j - y) + 1)
      have q1 := sq_bound (z := 2 * (i - x) + 1) (n := 2 * r) (by omega) (by omega)
      have q2 := sq_bound (z := 2 * (j - y) + 1) (n := 2 * r) (by omega) (by omega)
      omega
  · rintro ((((h | h) | h) | h) | h)
    · rw [x1 (by omega) (by omega)] at h; omega
    · have := b2 _ _ h; omega
    · have := b3 _ _ h; omega
    · have := b4 _ _ h; omega
    · have := b5 _ _ h; omega

end Verif.Img
