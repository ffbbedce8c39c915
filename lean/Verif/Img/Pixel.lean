import Verif.Img.Spec

namespace Verif.Img

theorem bit_set (d : List Byte) (i : Nat) (b : Byte) (q : Nat) (h : i < d.length) : bit (d.set i b) q = if q / 8 = i then b.getLsbD (7 - q % 8) else bit d q := by
  unfold bit
  simp only [List.getD_eq_getElem?_getD, List.getElem?_set]
  split
  · rename_i e; subst e; simp [h]
  · rename_i e; rw [if_neg (fun e' => e e'.symm)]

theorem setByte_ok {d : List Byte} {i : Nat} {f : Byte → Byte} (h : i < d.length) : setByte d i f = some (d.set i (f d[i])) := by
  unfold setByte; rw [List.getElem?_eq_getElem h]

theorem setByte_isSome {d d' : List Byte} {i : Nat} {f : Byte → Byte} (h : setByte d i f = some d') : i < d.length ∧ d'.length = d.length := by
  unfold setByte at h
  cases e : d[i]? with
  | none => rw [e] at h; cases h
  | some b => rw [e] at h; cases h; exact ⟨(List.getElem?_eq_some_iff.1 e).1, by simp⟩

theorem bit_get {d : List Byte} {i q : Nat} (h : i < d.length) (e : q / 8 = i) : bit d q = (d[i]).getLsbD (7 - q % 8) := by
  subst e; unfold bit; simp [List.getD_eq_getElem?_getD, h]

theorem pos_lt {w h x y : Nat} (hx : x < w) (hy : y < h) : y * w + x < w * h := by
  have : (y + 1) * w ≤ h * w := Nat.mul_le_mul_right w hy
  rw [Nat.mul_comm w h]; rw [Nat.add_mul] at this; omega

theorem or_one (b : Byte) (r t : Nat) (hr : r < 8) (ht : t < 8) : (b ||| (1#8 <<< (7 - r))).getLsbD (7 - t) = if t = r then true else b.getLsbD (7 - t) := by
  have : r = 0 ∨ r = 1 ∨ r = 2 ∨ r = 3 ∨ r = 4 ∨ r = 5 ∨ r = 6 ∨ r = 7 := by omega
  have : t = 0 ∨ t = 1 ∨ t = 2 ∨ t = 3 ∨ t = 4 ∨ t = 5 ∨ t = 6 ∨ t = 7 := by omega
  rcases ‹r = 0 ∨ _› with rfl | rfl | rfl | rfl | rfl | rfl | rfl | rfl <;> rcases ‹t = 0 ∨ _› with rfl | rfl | rfl | rfl | rfl | rfl | rfl | rfl <;> simp

theorem and_one (b : Byte) (r t : Nat) (hr : r < 8) (ht : t < 8) : (b &&& ~~~(1#8 <<< (7 - r))).getLsbD (7 - t) = if t = r then false else b.getLsbD (7 - t) := by
  have : r = 0 ∨ r = 1 ∨ r = 2 ∨ r = 3 ∨ r = 4 ∨ r = 5 ∨ r = 6 ∨ r = 7 := by omega
  have : t = 0 ∨ t = 1 ∨ t = 2 ∨ t = 3 ∨ t = 4 ∨ t = 5 ∨ t = 6 ∨ t = 7 := by omega
  rcases ‹r = 0 ∨ _› with rfl | rfl | rfl | rfl | rfl | rfl | rfl | rfl <;> rcases ‹t = 0 ∨ _› with rfl | rfl | rfl | rfl | rfl | rfl | rfl | rfl <;> simp

theorem high_zero {c : Color} {n : Nat} (h : c.toNat < 2 ^ n) (i : Nat) (hi : n ≤ i) : c.getLsbD i = false := by
  rw [BitVec.getLsbD, Nat.testBit_lt_two_pow]
  exact Nat.lt_of_lt_of_le h (Nat.pow_le_pow_right (by omega) hi)

theorem put4 (b : Byte) (c : Color) (hc : c.toNat < 4) (r t : Nat) (hr : r < 4) (ht : t < 8) :
    ((b &&& ~~~(mask4 (3 - r))) ||| (c <<< (2 * (3 - r))).setWidth 8).getLsbD (7 - t) = if t / 2 = r then c.getLsbD (1 - t % 2) else b.getLsbD (7 - t) := by
  have e : c[2] = false ∧ c[3] = false ∧ c[4] = false ∧ c[5] = false ∧ c[6] = false ∧ c[7] = false := by
    refine ⟨?_, ?_, ?_, ?_, ?_, ?_⟩ <;> rw [← BitVec.getLsbD_eq_getElem] <;> exact high_zero (n := 2) (by simpa using hc) _ (by decide)
  have : r = 0 ∨ r = 1 ∨ r = 2 ∨ r = 3 := by omega
  have : t = 0 ∨ t = 1 ∨ t = 2 ∨ t = 3 ∨ t = 4 ∨ t = 5 ∨ t = 6 ∨ t = 7 := by omega
  rcases ‹r = 0 ∨ _› with rfl | rfl | rfl | rfl <;> rcases ‹t = 0 ∨ _› with rfl | rfl | rfl | rfl | rfl | rfl | rfl | rfl <;> simp [mask4, e]

theorem put16 (b : Byte) (c : Color) (hc : c.toNat < 16) (r t : Nat) (hr : r < 2) (ht : t < 8) :
    ((b &&& ~~~(mask16 (1 - r))) ||| (c <<< (4 * (1 - r))).setWidth 8).getLsbD (7 - t) = if t / 4 = r then c.getLsbD (3 - t % 4) else b.getLsbD (7 - t) := by
  have e : c[4] = false ∧ c[5] = false ∧ c[6] = false ∧ c[7] = false := by
    refine ⟨?_, ?_, ?_, ?_⟩ <;> rw [← BitVec.getLsbD_eq_getElem] <;> exact high_zero (n := 4) (by simpa using hc) _ (by decide)
  have : r = 0 ∨ r = 1 := by omega
  have : t = 0 ∨ t = 1 ∨ t = 2 ∨ t = 3 ∨ t = 4 ∨ t = 5 ∨ t = 6 ∨ t = 7 := by omega
  rcases ‹r = 0 ∨ _› with rfl | rfl <;> rcases ‹t = 0 ∨ _› with rfl | rfl | rfl | rfl | rfl | rfl | rfl | rfl <;> simp [mask16, e]

theorem put332 (c : Color) (t : Nat) (ht : t < 8) : (rgb888to332 c).getLsbD (7 - t) = encBit 8 c t := by
  have : t = 0 ∨ t = 1 ∨ t = 2 ∨ t = 3 ∨ t = 4 ∨ t = 5 ∨ t = 6 ∨ t = 7 := by omega
  rcases this with rfl | rfl | rfl | rfl | rfl | rfl | rfl | rfl <;> simp [rgb888to332, encBit]

theorem put565h (c : Color) (hc : ∀ k, k < 5 → c.getLsbD (23 - k) = false) (t : Nat) (ht : t < 8) : (((rgb888to565 c) >>> 8).setWidth 8).getLsbD (7 - t) = encBit 16 c t := by
  have : t = 0 ∨ t = 1 ∨ t = 2 ∨ t = 3 ∨ t = 4 ∨ t = 5 ∨ t = 6 ∨ t = 7 := by omega
  have h0 := hc 0 (by omega); have h1 := hc 1 (by omega); have h2 := hc 2 (by omega); have h3 := hc 3 (by omega); have h4 := hc 4 (by omega)
  rcases this with rfl | rfl | rfl | rfl | rfl | rfl | rfl | rfl <;> simp [rgb888to565, encBit] <;> simp_all

theorem put565l (c : Color) (t : Nat) (ht : t < 8) : ((rgb888to565 c).setWidth 8).getLsbD (7 - t) = encBit 16 c (t + 8) := by
  have : t = 0 ∨ t = 1 ∨ t = 2 ∨ t = 3 ∨ t = 4 ∨ t = 5 ∨ t = 6 ∨ t = 7 := by omega
  rcases this with rfl | rfl | rfl | rfl | rfl | rfl | rfl | rfl <;> simp [rgb888to565, encBit]

theorem put888 (c : Color) (t : Nat) (ht : t < 8) : ((c >>> 16).setWidth 8).getLsbD (7 - t) = encBit 24 c t ∧ ((c >>> 8).setWidth 8).getLsbD (7 - t) = encBit 24 c (t + 8) ∧
    (c.setWidth 8).getLsbD (7 - t) = encBit 24 c (t + 16) := by
  have : t = 0 ∨ t = 1 ∨ t = 2 ∨ t = 3 ∨ t = 4 ∨ t = 5 ∨ t = 6 ∨ t = 7 := by omega
  rcases this with rfl | rfl | rfl | rfl | rfl | rfl | rfl | rfl <;> simp [encBit]

theorem putData_ok {m : Img} (wf : Ok m) {x y : Nat} (hx : x < m.w) (hy : y < m.h) {c : Color} (hc : Plain m.fmt c) :
    ∃ d, putData m x y c = some d ∧ d.length = m.data.length ∧ ∀ q, bit d q = if q / m.fmt = y * m.w + x then encBit m.fmt c (q % m.fmt) else bit m.data q := by
  obtain ⟨w, h, fmt, data⟩ := m
  obtain ⟨hf, hroom, hsm, -⟩ := wf
  simp only at *
  have hp := pos_lt hx hy
  rcases hf with rfl | rfl | rfl | rfl | rfl | rfl <;> simp only [putData]
  · generalize y * w + x = p at *
    have hi : p / 8 < data.length := by omega
    refine ⟨_, setByte_ok hi, by simp, fun q => ?_⟩
    rw [bit_set _ _ _ _ hi]
    have ht : q % 8 < 8 := by omega
    have hr : p % 8 < 8 := by omega
    by_cases hc0 : c = 0
    · simp only [hc0, ne_eq, not_true_eq_false, if_false, encBit, decide_false, and_one _ _ _ hr ht]
      by_cases hq : q = p
      · subst hq; simp
      · by_cases h8 : q / 8 = p / 8
        · rw [if_pos h8, if_neg (by omega), if_neg (by omega), bit_get hi h8]
        · rw [if_neg h8, if_neg (by omega)]
    · simp only [hc0, ne_eq, not_false_eq_true, if_true, encBit, decide_true, or_one _ _ _ hr ht]
      by_cases hq : q = p
      · subst hq; simp
      · by_cases h8 : q / 8 = p / 8
        · rw [if_pos h8, if_neg (by omega), if_neg (by omega), bit_get hi h8]
        · rw [if_neg h8, if_neg (by omega)]
  · generalize y * w + x = p at *
    have hi : p / 4 < data.length := by omega
    refine ⟨_, setByte_ok hi, by simp, fun q => ?_⟩
    rw [bit_set _ _ _ _ hi, put4 _ _ (hc.1 rfl) _ _ (by omega) (by omega)]
    by_cases hq : q / 2 = p
    · rw [if_pos (by omega), if_pos (by omega), if_pos hq]; simp only [encBit]; congr 1; omega
    · by_cases h8 : q / 8 = p / 4
      · rw [if_pos h8, if_neg (by omega), if_neg hq, bit_get hi h8]
      · rw [if_neg h8, if_neg hq]
  · generalize y * w + x = p at *
    have hi : p / 2 < data.length := by omega
    refine ⟨_, setByte_ok hi, by simp, fun q => ?_⟩
    rw [bit_set _ _ _ _ hi, put16 _ _ (hc.2.1 rfl) _ _ (by omega) (by omega)]
    by_cases hq : q / 4 = p
    · rw [if_pos (by omega), if_pos (by omega), if_pos hq]; simp only [encBit]; congr 1; omega
    · by_cases h8 : q / 8 = p / 2
      · rw [if_pos h8, if_neg (by omega), if_neg hq, bit_get hi h8]
      · rw [if_neg h8, if_neg hq]
  · generalize y * w + x = p at *
    have hi : p < data.length := by omega
    rw [if_pos (by omega)]
    refine ⟨_, setByte_ok hi, by simp, fun q => ?_⟩
    rw [bit_set _ _ _ _ hi, put332 _ _ (by omega)]
  · have e : y * (w * 2) + x * 2 = 2 * (y * w + x) := by rw [Nat.mul_add, ← Nat.mul_assoc, Nat.mul_comm (y * w) 2, Nat.mul_comm x 2]
    rw [e]
    generalize y * w + x = p at *
    have hi : 2 * p < data.length := by omega
    have hi' : 2 * p + 1 < data.length := by omega
    rw [if_pos (by omega), setByte_ok hi]
    simp only [Option.bind_some]
    refine ⟨_, setByte_ok (by simpa using hi'), by simp, fun q => ?_⟩
    rw [bit_set _ _ _ _ (by simpa using hi'), bit_set _ _ _ _ hi, put565h _ (hc.2.2 rfl) _ (by omega), put565l _ _ (by omega)]
    by_cases hq : q / 16 = p
    · rw [if_pos hq]
      by_cases h8 : q / 8 = 2 * p + 1
      · rw [if_pos h8]; congr 1; omega
      · rw [if_neg h8, if_pos (by omega)]; congr 1; omega
    · rw [if_neg (by omega), if_neg (by omega), if_neg hq]
  · have e : y * (w * 3) + x * 3 = 3 * (y * w + x) := by rw [Nat.mul_add, ← Nat.mul_assoc, Nat.mul_comm (y * w) 3, Nat.mul_comm x 3]
    rw [e]
    generalize y * w + x = p at *
    have hi : 3 * p < data.length := by omega
    have hi1 : 3 * p + 1 < data.length := by omega
    have hi2 : 3 * p + 2 < data.length := by omega
    rw [if_pos (by omega), setByte_ok hi]
    simp only [Option.bind_some]
    rw [setByte_ok (by simpa using hi1)]
    simp only [Option.bind_some]
    refine ⟨_, setByte_ok (by simpa using hi2), by simp, fun q => ?_⟩
    rw [bit_set _ _ _ _ (by simpa using hi2), bit_set _ _ _ _ (by simpa using hi1), bit_set _ _ _ _ hi, (put888 c _ (by omega)).1, (put888 c _ (by omega)).2.1, (put888 c _ (by omega)).2.2]
    by_cases hq : q / 24 = p
    · rw [if_pos hq]
      by_cases h8 : q / 8 = 3 * p + 2
      · rw [if_pos h8]; congr 1; omega
      · rw [if_neg h8]
        by_cases h9 : q / 8 = 3 * p + 1
        · rw [if_pos h9]; congr 1; omega
        · rw [if_neg h9, if_pos (by omega)]; congr 1; omega
    · rw [if_neg (by omega), if_neg (by omega), if_neg (by omega), if_neg hq]

/-- Writing a pixel is defined for every colour. -/
theorem putData_safe {m : Img} (wf : Ok m) {x y : Nat} (hx : x < m.w) (hy : y < m.h) (c : Color) : ∃ d, putData m x y c = some d ∧ d.length = m.data.length := by
  obtain ⟨w, h, fmt, data⟩ := m
  obtain ⟨hf, hroom, hsm, -⟩ := wf
  simp only at *
  have hp := pos_lt hx hy
  rcases hf with rfl | rfl | rfl | rfl | rfl | rfl <;> simp only [putData]
  · exact ⟨_, setByte_ok (by omega), by simp⟩
  · exact ⟨_, setByte_ok (by omega), by simp⟩
  · exact ⟨_, setByte_ok (by omega), by simp⟩
  · rw [if_pos (by omega)]
    exact ⟨_, setByte_ok (by omega), by simp⟩
  · have e : y * (w * 2) + x * 2 = 2 * (y * w + x) := by rw [Nat.mul_add, ← Nat.mul_assoc, Nat.mul_comm (y * w) 2, Nat.mul_comm x 2]
    rw [e, if_pos (by omega), setByte_ok (by omega)]
    simp only [Option.bind_some]
    exact ⟨_, setByte_ok (by simp; omega), by simp⟩
  · have e : y * (w * 3) + x * 3 = 3 * (y * w + x) := by rw [Nat.mul_add, ← Nat.mul_assoc, Nat.mul_comm (y * w) 3, Nat.mul_comm x 3]
    rw [e, if_pos (by omega), setByte_ok (by omega)]
    simp only [Option.bind_some]
    rw [setByte_ok (by simp; omega)]
    simp only [Option.bind_some]
    exact ⟨_, setByte_ok (by simp; omega), by simp⟩

end Verif.Img
