import Verif.Img.Paint

namespace Verif.Img

theorem bits8 {t : Nat} (h : t < 8) : t = 0 ∨ t = 1 ∨ t = 2 ∨ t = 3 ∨ t = 4 ∨ t = 5 ∨ t = 6 ∨ t = 7 := by omega

theorem get1 (b : Byte) (r n : Nat) (hr : r < 8) : ((b >>> (7 - r)).setWidth 32 &&& 1#32).getLsbD n = if n < 1 then b.getLsbD (7 - r) else false := by
  by_cases hn : n = 0
  · subst hn
    rcases bits8 hr with rfl | rfl | rfl | rfl | rfl | rfl | rfl | rfl <;> simp
  · rw [if_neg (by omega)]
    simp only [BitVec.getLsbD_and, BitVec.getLsbD_one, hn, decide_false, Bool.and_false]

theorem get4 (b : Byte) (r n : Nat) (hr : r < 4) : (((b &&& mask4 (3 - r)) >>> (2 * (3 - r))).setWidth 32).getLsbD n = if n < 2 then b.getLsbD (7 - (2 * r + (1 - n))) else false := by
  have hr' : r = 0 ∨ r = 1 ∨ r = 2 ∨ r = 3 := by omega
  by_cases h8 : n < 8
  · rcases hr' with rfl | rfl | rfl | rfl <;> rcases bits8 h8 with rfl | rfl | rfl | rfl | rfl | rfl | rfl | rfl <;> simp [mask4]
  · rw [if_neg (by omega)]
    simp only [BitVec.getLsbD_setWidth, BitVec.getLsbD_ushiftRight]
    rw [BitVec.getLsbD_of_ge _ _ (by omega), Bool.and_false]

theorem get16 (b : Byte) (r n : Nat) (hr : r < 2) : (((b &&& mask16 (1 - r)) >>> (4 * (1 - r))).setWidth 32).getLsbD n = if n < 4 then b.getLsbD (7 - (4 * r + (3 - n))) else false := by
  have hr' : r = 0 ∨ r = 1 := by omega
  by_cases h8 : n < 8
  · rcases hr' with rfl | rfl <;> rcases bits8 h8 with rfl | rfl | rfl | rfl | rfl | rfl | rfl | rfl <;> simp [mask16]
  · rw [if_neg (by omega)]
    simp only [BitVec.getLsbD_setWidth, BitVec.getLsbD_ushiftRight]
    rw [BitVec.getLsbD_of_ge _ _ (by omega), Bool.and_false]

theorem bits32 {P : Nat → Prop} (h : P 0 ∧ P 1 ∧ P 2 ∧ P 3 ∧ P 4 ∧ P 5 ∧ P 6 ∧ P 7 ∧ P 8 ∧ P 9 ∧ P 10 ∧ P 11 ∧ P 12 ∧ P 13 ∧ P 14 ∧ P 15 ∧ P 16 ∧ P 17 ∧ P 18 ∧ P 19 ∧ P 20 ∧ P 21 ∧ P 22 ∧ P 23)
    (h' : ∀ n, 24 ≤ n → P n) (n : Nat) : P n := by
  by_cases hn : 24 ≤ n
  · exact h' n hn
  · obtain ⟨h0, h1, h2, h3, h4, h5, h6, h7, h8, h9, h10, h11, h12, h13, h14, h15, h16, h17, h18, h19, h20, h21, h22, h23⟩ := h
    have : n = 0 ∨ n = 1 ∨ n = 2 ∨ n = 3 ∨ n = 4 ∨ n = 5 ∨ n = 6 ∨ n = 7 ∨ n = 8 ∨ n = 9 ∨ n = 10 ∨ n = 11 ∨ n = 12 ∨ n = 13 ∨ n = 14 ∨ n = 15 ∨ n = 16 ∨ n = 17 ∨ n = 18 ∨ n = 19 ∨ n = 20 ∨ n = 21 ∨ n = 22 ∨ n = 23 := by omega
    rcases this with rfl | rfl | rfl | rfl | rfl | rfl | rfl | rfl | rfl | rfl | rfl | rfl | rfl | rfl | rfl | rfl | rfl | rfl | rfl | rfl | rfl | rfl | rfl | rfl <;> assumption

theorem toNat_bit_false {c : Color} {n : Nat} (h : c.toNat < 2 ^ 24) (hn : 24 ≤ n) : c.getLsbD n = false := high_zero h n hn

theorem get332 (b : Byte) (n : Nat) : (rgb332to888 b).getLsbD n = decBit 8 (fun k => b.getLsbD (7 - k)) n := by
  refine bits32 (P := fun n => (rgb332to888 b).getLsbD n = decBit 8 (fun k => b.getLsbD (7 - k)) n) ?_ ?_ n
  · simp [rgb332to888, decBit]
  · intro n hn
    have : (rgb332to888 b).toNat < 2 ^ 24 := by revert b; decide +kernel
    rw [high_zero this n hn]
    simp only [decBit]
    rw [if_neg (by omega), if_neg (by omega), if_neg (by omega)]

theorem high565 (v : BitVec 16) (n : Nat) (hn : 24 ≤ n) : (rgb565to888 v).getLsbD n = false := by
  have h1 : (v >>> 11).getLsbD (n - 19) = false := by rw [BitVec.getLsbD_ushiftRight]; exact BitVec.getLsbD_of_ge _ _ (by omega)
  have h2 : ((v >>> 5) &&& 0x3F#16).getLsbD (n - 10) = false := by
    rw [BitVec.getLsbD_and, BitVec.getLsbD_ushiftRight, BitVec.getLsbD_of_ge v _ (by omega), Bool.false_and]
  have h3 : (v &&& 0x1F#16).getLsbD (n - 3) = false := by rw [BitVec.getLsbD_and, BitVec.getLsbD_of_ge v _ (by omega), Bool.false_and]
  simp only [rgb565to888, BitVec.getLsbD_or, BitVec.getLsbD_shiftLeft, BitVec.getLsbD_setWidth]
  rw [h1, h2, h3]
  simp

theorem get565 (a b : Byte) (n : Nat) : (rgb565to888 ((a.setWidth 16 <<< 8) ||| b.setWidth 16)).getLsbD n = decBit 16 (fun k => if k < 8 then a.getLsbD (7 - k) else b.getLsbD (15 - k)) n := by
  refine bits32 (P := fun n => (rgb565to888 ((a.setWidth 16 <<< 8) ||| b.setWidth 16)).getLsbD n = decBit 16 (fun k => if k < 8 then a.getLsbD (7 - k) else b.getLsbD (15 - k)) n) ?_ ?_ n
  · simp [rgb565to888, decBit]
  · intro n hn
    simp only [rgb565to888, decBit]
    rw [if_neg (by omega), if_neg (by omega), if_neg (by omega)]
    exact high565 _ n hn

theorem get888 (a b c : Byte) (n : Nat) : ((a.setWidth 32 <<< 16) ||| (b.setWidth 32 <<< 8) ||| c.setWidth 32 : Color).getLsbD n =
    decBit 24 (fun k => if k < 8 then a.getLsbD (7 - k) else if k < 16 then b.getLsbD (15 - k) else c.getLsbD (23 - k)) n := by
  refine bits32 (P := fun n => ((a.setWidth 32 <<< 16) ||| (b.setWidth 32 <<< 8) ||| c.setWidth 32 : Color).getLsbD n =
    decBit 24 (fun k => if k < 8 then a.getLsbD (7 - k) else if k < 16 then b.getLsbD (15 - k) else c.getLsbD (23 - k)) n) ?_ ?_ n
  · simp [decBit]
  · intro n hn
    simp only [decBit]
    rw [if_neg (by omega)]
    simp only [BitVec.getLsbD_or, BitVec.getLsbD_shiftLeft, BitVec.getLsbD_setWidth]
    rw [BitVec.getLsbD_of_ge a _ (by omega), BitVec.getLsbD_of_ge b _ (by omega), BitVec.getLsbD_of_ge c _ (by omega)]
    simp

theorem decBit_congr {fmt : Nat} (hf : fmt = 1 ∨ fmt = 2 ∨ fmt = 4 ∨ fmt = 8 ∨ fmt = 16 ∨ fmt = 24) {p q : Nat → Bool} (h : ∀ k, k < fmt → p k = q k) (n : Nat) : decBit fmt p n = decBit fmt q n := by
  rcases hf with rfl | rfl | rfl | rfl | rfl | rfl <;> simp only [decBit]
  · split
    · exact h _ (by omega)
    · rfl
  · split
    · exact h _ (by omega)
    · rfl
  · split
    · exact h _ (by omega)
    · rfl
  · by_cases h1 : 21 ≤ n ∧ n ≤ 23
    · rw [if_pos h1, if_pos h1]; exact h _ (by omega)
    · rw [if_neg h1, if_neg h1]
      by_cases h2 : 13 ≤ n ∧ n ≤ 15
      · rw [if_pos h2, if_pos h2]; exact h _ (by omega)
      · rw [if_neg h2, if_neg h2]
        by_cases h3 : 6 ≤ n ∧ n ≤ 7
        · rw [if_pos h3, if_pos h3]; exact h _ (by omega)
        · rw [if_neg h3, if_neg h3]
  · by_cases h1 : 19 ≤ n ∧ n ≤ 23
    · rw [if_pos h1, if_pos h1]; exact h _ (by omega)
    · rw [if_neg h1, if_neg h1]
      by_cases h2 : 10 ≤ n ∧ n ≤ 15
      · rw [if_pos h2, if_pos h2]; exact h _ (by omega)
      · rw [if_neg h2, if_neg h2]
        by_cases h3 : 3 ≤ n ∧ n ≤ 7
        · rw [if_pos h3, if_pos h3]; exact h _ (by omega)
        · rw [if_neg h3, if_neg h3]
  · split
    · exact h _ (by omega)
    · rfl

theorem u16_nat {i : Nat} (h : i < 65536) : u16 (i : Int) = i := by unfold u16; omega

theorem getpixel_spec {m : Img} (wf : Ok m) {i j : Nat} (hi : i < m.w) (hj : j < m.h) :
    ∃ c, getpixel m i j = some c ∧ ∀ n, c.getLsbD n = decBit m.fmt (pix m i j) n := by
  have hui := u16_nat (show i < 65536 by have := wf.dims; omega)
  have huj := u16_nat (show j < 65536 by have := wf.dims; omega)
  obtain ⟨w, h, fmt, data⟩ := m
  obtain ⟨hf, hroom, hsm, -⟩ := wf
  simp only at *
  have hp := pos_lt hi hj
  unfold getpixel pix
  simp only [hui, huj]
  rw [if_pos ⟨hi, hj⟩]
  rcases hf with rfl | rfl | rfl | rfl | rfl | rfl <;> simp only
  · generalize j * w + i = p at *
    have hb : p / 8 < data.length := by omega
    refine ⟨_, by rw [List.getElem?_eq_getElem hb]; rfl, fun n => ?_⟩
    rw [get1 _ _ _ (by omega)]
    simp only [decBit]
    split
    · rw [bit_get hb (by omega)]; congr 1; omega
    · rfl
  · generalize j * w + i = p at *
    have hb : p / 4 < data.length := by omega
    refine ⟨_, by rw [List.getElem?_eq_getElem hb]; rfl, fun n => ?_⟩
    rw [get4 _ _ _ (by omega)]
    simp only [decBit]
    split
    · rw [bit_get hb (by omega)]; congr 1; omega
    · rfl
  · generalize j * w + i = p at *
    have hb : p / 2 < data.length := by omega
    refine ⟨_, by rw [List.getElem?_eq_getElem hb]; rfl, fun n => ?_⟩
    rw [get16 _ _ _ (by omega)]
    simp only [decBit]
    split
    · rw [bit_get hb (by omega)]; congr 1; omega
    · rfl
  · generalize j * w + i = p at *
    have hb : p < data.length := by omega
    refine ⟨_, by rw [if_pos (by omega), List.getElem?_eq_getElem hb]; rfl, fun n => ?_⟩
    rw [get332]
    refine decBit_congr (by omega) (fun k hk => ?_) n
    rw [bit_get hb (by omega)]; congr 1; omega
  · have e : j * (w * 2) + i * 2 = 2 * (j * w + i) := by rw [Nat.mul_add, ← Nat.mul_assoc, Nat.mul_comm (j * w) 2, Nat.mul_comm i 2]
    rw [e]
    generalize j * w + i = p at *
    have hb : 2 * p < data.length := by omega
    have hb' : 2 * p + 1 < data.length := by omega
    refine ⟨_, by rw [if_pos (by omega), List.getElem?_eq_getElem hb, List.getElem?_eq_getElem hb'], fun n => ?_⟩
    rw [get565]
    refine decBit_congr (by omega) (fun k hk => ?_) n
    split
    · rw [bit_get hb (by omega)]; congr 1; omega
    · rw [bit_get hb' (by omega)]; congr 1; omega
  · have e : j * (w * 3) + i * 3 = 3 * (j * w + i) := by rw [Nat.mul_add, ← Nat.mul_assoc, Nat.mul_comm (j * w) 3, Nat.mul_comm i 3]
    rw [e]
    generalize j * w + i = p at *
    have hb : 3 * p < data.length := by omega
    have hb1 : 3 * p + 1 < data.length := by omega
    have hb2 : 3 * p + 2 < data.length := by omega
    refine ⟨_, by rw [if_pos (by omega), List.getElem?_eq_getElem hb, List.getElem?_eq_getElem hb1, List.getElem?_eq_getElem hb2], fun n => ?_⟩
    rw [get888]
    refine decBit_congr (by omega) (fun k hk => ?_) n
    split
    · rw [bit_get hb (by omega)]; congr 1; omega
    · split
      · rw [bit_get hb1 (by omega)]; congr 1; omega
      · rw [bit_get hb2 (by omega)]; congr 1; omega

end Verif.Img
