import Verif.Img.Read

namespace Verif.Img

theorem memset_ok {d : List Byte} {v : Byte} {n : Nat} (h : n ≤ d.length) : ∃ d', memset d v n = some d' ∧ d'.length = d.length ∧
    ∀ q, bit d' q = if q / 8 < n then v.getLsbD (7 - q % 8) else bit d q := by
  refine ⟨List.replicate n v ++ d.drop n, if_pos h, by simp; omega, fun q => ?_⟩
  unfold bit
  simp only [List.getD_eq_getElem?_getD]
  by_cases hq : q / 8 < n
  · rw [if_pos hq, List.getElem?_append_left (by simpa using hq), List.getElem?_replicate, if_pos hq]; rfl
  · rw [if_neg hq, List.getElem?_append_right (by simpa using hq), List.getElem?_drop, List.length_replicate, Nat.add_sub_cancel' (by omega)]

theorem clear565_ok (c : Color) (hc : ∀ k, k < 5 → c.getLsbD (23 - k) = false) : ∀ (n i : Nat) (d : List Byte), i + 2 * n ≤ d.length →
    ∃ d', clear565 (rgb888to565 c) n i d = some d' ∧ d'.length = d.length ∧ ∀ q, bit d' q = if 8 * i ≤ q ∧ q < 8 * i + 16 * n then encBit 16 c ((q - 8 * i) % 16) else bit d q
  | 0, i, d, _ => ⟨d, rfl, rfl, fun q => by rw [if_neg (by omega)]⟩
  | n + 1, i, d, h => by
    have h1 : i < d.length := by omega
    have h2 : i + 1 < (d.set i (((rgb888to565 c) >>> 8).setWidth 8)).length := by rw [List.length_set]; omega
    obtain ⟨d', e, hl, hb⟩ := clear565_ok c hc n (i + 2) ((d.set i (((rgb888to565 c) >>> 8).setWidth 8)).set (i + 1) ((rgb888to565 c).setWidth 8)) (by simp only [List.length_set]; omega)
    refine ⟨d', ?_, by rw [hl]; simp, fun q => ?_⟩
    · rw [clear565, setByte_ok h1, Option.bind_some, setByte_ok h2, Option.bind_some, e]
    · rw [hb, bit_set _ _ _ _ h2, bit_set _ _ _ _ h1, put565h _ hc _ (by omega), put565l _ _ (by omega)]
      by_cases a : 8 * (i + 2) ≤ q ∧ q < 8 * (i + 2) + 16 * n
      · rw [if_pos a, if_pos (by omega)]; congr 1; omega
      · rw [if_neg a]
        by_cases b : q / 8 = i + 1
        · rw [if_pos b, if_pos (by omega)]; congr 1; omega
        · rw [if_neg b]
          by_cases b' : q / 8 = i
          · rw [if_pos b', if_pos (by omega)]; congr 1; omega
          · rw [if_neg b', if_neg (by omega)]

theorem clear565_safe (v : BitVec 16) : ∀ (n i : Nat) (d : List Byte), i + 2 * n ≤ d.length → ∃ d', clear565 v n i d = some d' ∧ d'.length = d.length
  | 0, i, d, _ => ⟨d, rfl, rfl⟩
  | n + 1, i, d, h => by
    have h1 : i < d.length := by omega
    have h2 : i + 1 < (d.set i ((v >>> 8).setWidth 8)).length := by rw [List.length_set]; omega
    obtain ⟨d', e, hl⟩ := clear565_safe v n (i + 2) ((d.set i ((v >>> 8).setWidth 8)).set (i + 1) (v.setWidth 8)) (by simp only [List.length_set]; omega)
    exact ⟨d', by rw [clear565, setByte_ok h1, Option.bind_some, setByte_ok h2, Option.bind_some, e], by rw [hl]; simp⟩

theorem clear888_ok (c : Color) : ∀ (n i : Nat) (d : List Byte), i + 3 * n ≤ d.length →
    ∃ d', clear888 c n i d = some d' ∧ d'.length = d.length ∧ ∀ q, bit d' q = if 8 * i ≤ q ∧ q < 8 * i + 24 * n then encBit 24 c ((q - 8 * i) % 24) else bit d q
  | 0, i, d, _ => ⟨d, rfl, rfl, fun q => by rw [if_neg (by omega)]⟩
  | n + 1, i, d, h => by
    have h1 : i < d.length := by omega
    have h2 : i + 1 < (d.set i ((c >>> 16).setWidth 8)).length := by rw [List.length_set]; omega
    have h3 : i + 2 < ((d.set i ((c >>> 16).setWidth 8)).set (i + 1) ((c >>> 8).setWidth 8)).length := by rw [List.length_set, List.length_set]; omega
    obtain ⟨d', e, hl, hb⟩ := clear888_ok c n (i + 3) (((d.set i ((c >>> 16).setWidth 8)).set (i + 1) ((c >>> 8).setWidth 8)).set (i + 2) (c.setWidth 8)) (by simp only [List.length_set]; omega)
    refine ⟨d', ?_, by rw [hl]; simp, fun q => ?_⟩
    · rw [clear888, setByte_ok h1, Option.bind_some, setByte_ok h2, Option.bind_some, setByte_ok h3, Option.bind_some, e]
    · rw [hb, bit_set _ _ _ _ h3, bit_set _ _ _ _ h2, bit_set _ _ _ _ h1, (put888 c _ (by omega)).1, (put888 c _ (by omega)).2.1, (put888 c _ (by omega)).2.2]
      by_cases a : 8 * (i + 3) ≤ q ∧ q < 8 * (i + 3) + 24 * n
      · rw [if_pos a, if_pos (by omega)]; congr 1; omega
      · rw [if_neg a]
        by_cases b : q / 8 = i + 2
        · rw [if_pos b, if_pos (by omega)]; congr 1; omega
        · rw [if_neg b]
          by_cases b' : q / 8 = i + 1
          · rw [if_pos b', if_pos (by omega)]; congr 1; omega
          · rw [if_neg b']
            by_cases b'' : q / 8 = i
            · rw [if_pos b'', if_pos (by omega)]; congr 1; omega
            · rw [if_neg b'', if_neg (by omega)]

theorem addr_lt {w h f i j k : Nat} (hi : i < w) (hj : j < h) (hk : k < f) : (j * w + i) * f + k < w * h * f := by
  have h1 := pos_lt hi hj
  have : (j * w + i + 1) * f ≤ w * h * f := Nat.mul_le_mul_right f h1
  rw [Nat.add_mul] at this; omega

/-- The bit that `img-clear` writes. -/
def clearBit (fmt : Nat) (c : Color) (k : Nat) : Bool := if fmt = 1 then c.getLsbD 0 else encBit fmt c k

theorem clear1 (c : Color) (t : Nat) (ht : t < 8) : (if c &&& 1#32 ≠ 0 then 0xFF#8 else 0#8 : Byte).getLsbD (7 - t) = c.getLsbD 0 := by
  have e : c &&& 1#32 ≠ 0 ↔ c.getLsbD 0 = true := by
    constructor
    · intro h
      cases hb : c.getLsbD 0 with
      | true => rfl
      | false =>
        refine absurd (BitVec.eq_of_getLsbD_eq fun n _ => ?_) h
        rw [BitVec.getLsbD_and, BitVec.getLsbD_one]
        by_cases hn : n = 0
        · subst hn; rw [hb]; simp
        · simp [hn]
    · intro h e
      have := congrArg (·.getLsbD 0) e
      rw [BitVec.getLsbD_and, h] at this
      simp at this
  cases hb : c.getLsbD 0 with
  | true =>
    rw [if_pos (e.2 hb)]
    rcases bits8 ht with rfl | rfl | rfl | rfl | rfl | rfl | rfl | rfl <;> rfl
  | false =>
    rw [if_neg (fun h => by rw [e.1 h] at hb; cases hb)]; simp

theorem clear2 (c : Color) (t : Nat) (ht : t < 8) : (index4 (c &&& 3#32).toNat).getLsbD (7 - t) = c.getLsbD (1 - t % 2) := by
  have h0 : c.getLsbD 0 = (c &&& 3#32).toNat.testBit 0 := by
    rw [← BitVec.getLsbD, BitVec.getLsbD_and]; simp
  have h1 : c.getLsbD 1 = (c &&& 3#32).toNat.testBit 1 := by
    rw [← BitVec.getLsbD, BitVec.getLsbD_and]; simp
  have hlt : (c &&& 3#32).toNat < 4 := by
    rw [BitVec.toNat_and]; exact Nat.lt_of_le_of_lt Nat.and_le_right (by decide)
  generalize (c &&& 3#32).toNat = v at *
  have hv : v = 0 ∨ v = 1 ∨ v = 2 ∨ v = 3 := by omega
  have e0 : ∀ t, t % 2 = 0 → 1 - t % 2 = 1 := by omega
  have e1 : ∀ t, t % 2 = 1 → 1 - t % 2 = 0 := by omega
  rcases hv with rfl | rfl | rfl | rfl <;> rcases bits8 ht with rfl | rfl | rfl | rfl | rfl | rfl | rfl | rfl <;>
    first | (rw [e0 _ rfl, h1]; decide) | (rw [e1 _ rfl, h0]; decide)

theorem clear4 (c : Color) (t : Nat) (ht : t < 8) : ((c &&& 0xF#32).setWidth 8 ||| ((c &&& 0xF#32).setWidth 8 <<< 4) : Byte).getLsbD (7 - t) = c.getLsbD (3 - t % 4) := by
  rcases bits8 ht with rfl | rfl | rfl | rfl | rfl | rfl | rfl | rfl <;> simp

theorem clear_ok {m : Img} (wf : Ok m) (c : Color) (h16 : m.fmt ≠ 16) : ∃ m', clear m c = some m' ∧ SameDims m m' ∧
    (∀ i j k, i < m.w → j < m.h → k < m.fmt → pix m' i j k = clearBit m.fmt c k) ∧ ∀ q, 8 * ((m.w * m.h * m.fmt + 7) / 8) ≤ q → bit m'.data q = bit m.data q := by
  obtain ⟨w, h, fmt, data⟩ := m
  obtain ⟨hf, hroom, hsm, hdim⟩ := wf
  simp only at *
  have fin : ∀ d' : List Byte, d'.length = data.length → (∀ q, q < w * h * fmt → bit d' q = clearBit fmt c (q % fmt)) → (∀ q, 8 * ((w * h * fmt + 7) / 8) ≤ q → bit d' q = bit data q) →
      ∃ m' : Img, (some d').map (fun d => (⟨w, h, fmt, d⟩ : Img)) = some m' ∧ SameDims ⟨w, h, fmt, data⟩ m' ∧
        (∀ i j k, i < w → j < h → k < fmt → pix m' i j k = clearBit fmt c k) ∧ ∀ q, 8 * ((w * h * fmt + 7) / 8) ≤ q → bit m'.data q = bit data q := by
    intro d' hl hs hk
    refine ⟨⟨w, h, fmt, d'⟩, rfl, ⟨rfl, rfl, rfl, hl⟩, fun i j k hi hj hk' => ?_, hk⟩
    unfold pix
    simp only
    rw [hs _ (addr_lt hi hj hk'), Nat.mul_comm _ fmt, Nat.mul_add_mod, Nat.mod_eq_of_lt hk']
  unfold clear
  simp only
  generalize hsz : w * h = size at *
  rcases hf with rfl | rfl | rfl | rfl | rfl | rfl <;> simp only
  · obtain ⟨d', e, hl, hb⟩ := memset_ok (d := data) (v := if c &&& 1#32 ≠ 0 then 0xFF#8 else 0#8) (n := size / 8 + if size % 8 ≠ 0 then 1 else 0) (by split <;> omega)
    rw [e]
    refine fin d' hl (fun q hq => ?_) fun q hq => ?_
    · rw [hb, if_pos (by split <;> omega), clear1 _ _ (by omega)]; rfl
    · rw [hb, if_neg (by split <;> omega)]
  · obtain ⟨d', e, hl, hb⟩ := memset_ok (d := data) (v := index4 (c &&& 3#32).toNat) (n := size / 4 + if size % 4 ≠ 0 then 1 else 0) (by split <;> omega)
    rw [e]
    refine fin d' hl (fun q hq => ?_) fun q hq => ?_
    · rw [hb, if_pos (by split <;> omega), clear2 _ _ (by omega)]
      simp only [clearBit, encBit]; rw [if_neg (by omega)]; congr 1; omega
    · rw [hb, if_neg (by split <;> omega)]
  · obtain ⟨d', e, hl, hb⟩ := memset_ok (d := data) (v := (c &&& 0xF#32).setWidth 8 ||| ((c &&& 0xF#32).setWidth 8 <<< 4)) (n := size / 2 + if size % 2 ≠ 0 then 1 else 0) (by split <;> omega)
    rw [e]
    refine fin d' hl (fun q hq => ?_) fun q hq => ?_
    · rw [hb, if_pos (by split <;> omega), clear4 _ _ (by omega)]
      simp only [clearBit, encBit]; rw [if_neg (by omega)]; congr 1; omega
    · rw [hb, if_neg (by split <;> omega)]
  · obtain ⟨d', e, hl, hb⟩ := memset_ok (d := data) (v := rgb888to332 c) (n := size) (by omega)
    rw [e]
    refine fin d' hl (fun q hq => ?_) fun q hq => ?_
    · rw [hb, if_pos (by omega), put332 _ _ (by omega)]
      simp only [clearBit]; rw [if_neg (by omega)]
    · rw [hb, if_neg (by omega)]
  · exact absurd rfl h16
  · have hn : (size * 3 % 4294967296 + 2) / 3 = size := by omega
    rw [hn]
    obtain ⟨d', e, hl, hb⟩ := clear888_ok c size 0 data (by omega)
    rw [e]
    refine fin d' hl (fun q hq => ?_) fun q hq => ?_
    · rw [hb, if_pos (by omega)]
      simp only [clearBit]; rw [if_neg (by omega)]; congr 1
    · rw [hb, if_neg (by omega)]

/-- For `rgb565` only the first quarter of the array is cleared. -/
theorem clear_565 {m : Img} (wf : Ok m) (h16 : m.fmt = 16) (c : Color) : ∃ m', clear m c = some m' ∧ SameDims m m' ∧
    (Plain 16 c → ∀ i j k, i < m.w → j < m.h → k < 16 → pix m' i j k = if j * m.w + i < (m.w * m.h / 2 + 1) / 2 then encBit 16 c k else pix m i j k) := by
  obtain ⟨w, h, fmt, data⟩ := m
  obtain ⟨hf, hroom, hsm, hdim⟩ := wf
  simp only at *
  subst h16
  unfold clear
  simp only
  obtain ⟨d', e, hl⟩ := clear565_safe (rgb888to565 c) ((w * h / 2 + 1) / 2) 0 data (by omega)
  refine ⟨⟨w, h, 16, d'⟩, by rw [e]; rfl, ⟨rfl, rfl, rfl, hl⟩, fun hp i j k hi hj hk => ?_⟩
  obtain ⟨d'', e', -, hb⟩ := clear565_ok c (hp.2.2 rfl) ((w * h / 2 + 1) / 2) 0 data (by omega)
  obtain rfl : d' = d'' := Option.some.inj (e.symm.trans e')
  unfold pix
  simp only
  rw [hb]
  generalize j * w + i = p
  by_cases hlt : p < (w * h / 2 + 1) / 2
  · rw [if_pos hlt, if_pos (by omega)]; congr 1; omega
  · rw [if_neg hlt, if_neg (by omega)]

end Verif.Img
