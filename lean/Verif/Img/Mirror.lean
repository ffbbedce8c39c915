import Verif.Img.Props

/-!
# Both halves of a gradient (C84)
-/

namespace Verif.Img

theorem cosTab_mirror : ∀ i, i < 256 → 0 < i → i ≠ 64 → i ≠ 192 → cosTab.getD (256 - i) 0 = cosTab.getD i 0 := by decide +kernel

theorem cosTab_half : ∀ i, i < 129 → i ≠ 64 → cosTab.getD i 0 + cosTab.getD (128 - i) 0 = 255 := by decide +kernel

theorem index_eq {w k : Nat} (hk : w * k = 128) (hw : 0 < w) (d : Nat) : d * 256 / w / 2 = d * k := by
  rw [show (256 : Nat) = w * k * 2 by omega, Nat.div_div_eq_div_mul, show d * (w * k * 2) = d * k * (w * 2) by rw [Nat.mul_assoc w, ← Nat.mul_assoc d, Nat.mul_comm d w, Nat.mul_assoc w, ← Nat.mul_assoc d, Nat.mul_comm w, Nat.mul_assoc (d * k), Nat.mul_comm 2]]
  exact Nat.mul_div_cancel _ (by omega)

/-- C84: a mirrored gradient whose width divides 128 has the same colour at the same distance from its middle on both sides, but for the places a half of the width away from it. -/
theorem gradient_mirror_partial {t : ColorType} (ht : t = .gradX ∨ t = .gradY) (c1 c2 : Color) {w o : Nat} (hw : w ∣ 128) (ho : o < 65536) (junk : List Color) :
    ∃ c, makeColor t c1 c2 w o true junk = some c ∧
      ∀ x y x' y' (d : Nat), d < w → 2 * d ≠ w → axis t x y = o + w + d → axis t x' y' = o + w - d → toRgb c x y = toRgb c x' y' := by
  obtain ⟨k, hk⟩ := hw
  have hw0 : 0 < w := by rcases Nat.eq_zero_or_pos w with rfl | h; · simp at hk
                         · exact h
  have hk0 : 0 < k := by rcases Nat.eq_zero_or_pos k with rfl | h; · simp at hk
                         · exact h
  have hwl : w ≤ 128 := by rw [hk]; exact Nat.le_mul_of_pos_right _ hk0
  have hu : u16 w = w := u16_nat (by omega)
  have huo : u16 o = o := u16_nat ho
  obtain ⟨c, ec, hrgb⟩ : ∃ c, makeColor t c1 c2 w o true junk = some c ∧ ∀ x y, toRgb c x y = gradAt c1 c2 w o true (axis t x y) := by
    refine ⟨⟨t, c1, c2, w, o, true, []⟩, ?_, fun x y => ?_⟩
    · rcases ht with rfl | rfl <;> simp only [makeColor, hu, huo]
    · rcases ht with rfl | rfl <;> rfl
  refine ⟨c, ec, fun x y x' y' d hd hne h1 h2 => ?_⟩
  rw [hrgb, hrgb, h1, h2, show (o : Int) + w + d = o + (w + d : Nat) by omega, show (o : Int) + w - d = o + (w - d : Nat) by omega,
    gradAt_nat c1 c2 hw0 ho true (by omega), gradAt_nat c1 c2 hw0 ho true (by omega), index_eq hk.symm hw0, index_eq hk.symm hw0]
  simp only [if_true]
  have e1 : (w + d) * k = 128 + d * k := by rw [Nat.add_mul, ← hk]
  have e2 : (w - d) * k = 128 - d * k := by rw [Nat.sub_mul, ← hk]
  have e3 : d * k < 128 := by rw [hk]; exact Nat.mul_lt_mul_of_pos_right hd hk0
  have e4 : d * k ≠ 64 := by
    intro h
    apply hne
    have : 2 * d * k = w * k := by rw [Nat.mul_assoc, h, ← hk]
    exact Nat.eq_of_mul_eq_mul_right hk0 this
  rw [e1, e2, Nat.mod_eq_of_lt (by omega), Nat.mod_eq_of_lt (by omega)]
  have := cosTab_mirror (128 + d * k) (by omega) (by omega) (by omega) (by omega)
  rw [show 256 - (128 + d * k) = 128 - d * k by omega] at this
  rw [this]

/-- C84: on its width a gradient whose width divides 128 has at two places that are the same distance from its two ends parts of the first colour that make the whole together, but for its middle: the parts are `p` and `255 - p`. -/
theorem gradient_half_partial {t : ColorType} (ht : t = .gradX ∨ t = .gradY) (c1 c2 : Color) {w o : Nat} (hw : w ∣ 128) (ho : o < 65536) (junk : List Color) :
    ∃ c, makeColor t c1 c2 w o true junk = some c ∧
      ∀ x y x' y' (d : Nat), d ≤ w → 2 * d ≠ w → axis t x y = o + d → axis t x' y' = o + w - d →
        ∃ p q, p + q = 255 ∧ toRgb c x y = some (mixed c1 c2 p) ∧ toRgb c x' y' = some (mixed c1 c2 q) := by
  obtain ⟨k, hk⟩ := hw
  have hw0 : 0 < w := by rcases Nat.eq_zero_or_pos w with rfl | h; · simp at hk
                         · exact h
  have hk0 : 0 < k := by rcases Nat.eq_zero_or_pos k with rfl | h; · simp at hk
                         · exact h
  have hwl : w ≤ 128 := by rw [hk]; exact Nat.le_mul_of_pos_right _ hk0
  have hu : u16 w = w := u16_nat (by omega)
  have huo : u16 o = o := u16_nat ho
  obtain ⟨c, ec, hrgb⟩ : ∃ c, makeColor t c1 c2 w o true junk = some c ∧ ∀ x y, toRgb c x y = gradAt c1 c2 w o true (axis t x y) := by
    refine ⟨⟨t, c1, c2, w, o, true, []⟩, ?_, fun x y => ?_⟩
    · rcases ht with rfl | rfl <;> simp only [makeColor, hu, huo]
    · rcases ht with rfl | rfl <;> rfl
  refine ⟨c, ec, fun x y x' y' d hd hne h1 h2 => ?_⟩
  have e2 : (w - d) * k = 128 - d * k := by rw [Nat.sub_mul, ← hk]
  have e3 : d * k ≤ 128 := by rw [hk]; exact Nat.mul_le_mul_right _ hd
  have e4 : d * k ≠ 64 := by
    intro h
    apply hne
    have : 2 * d * k = w * k := by rw [Nat.mul_assoc, h, ← hk]
    exact Nat.eq_of_mul_eq_mul_right hk0 this
  refine ⟨_, _, cosTab_half (d * k) (by omega) e4, ?_, ?_⟩
  · rw [hrgb, h1, gradAt_nat c1 c2 hw0 ho true (by omega), index_eq hk.symm hw0]
    simp only [if_true]
    rw [Nat.mod_eq_of_lt (by omega)]
  · rw [hrgb, h2, show (o : Int) + w - d = o + (w - d : Nat) by omega, gradAt_nat c1 c2 hw0 ho true (by omega), index_eq hk.symm hw0, e2]
    simp only [if_true]
    rw [Nat.mod_eq_of_lt (by omega)]

/-- The exception is real: at a half of the width before and behind the middle the colours differ. -/
theorem gradient_mirror_violated : gradAt 0xFFFFFF 0 128 0 true 64 = some 0x7F7F7F ∧ gradAt 0xFFFFFF 0 128 0 true 192 = some 0x808080 := by decide +kernel

example : ∃ c, makeColor .gradX 0xFF0000 0x0000FF 64 10 true [] = some c ∧ toRgb c 84 0 = toRgb c 64 0 := by
  obtain ⟨c, h, hs⟩ := gradient_mirror_partial (Or.inl rfl) 0xFF0000 0x0000FF (w := 64) (o := 10) ⟨2, rfl⟩ (by decide) []
  exact ⟨c, h, hs 84 0 64 0 10 (by decide) (by decide) rfl rfl⟩

end Verif.Img
