import Verif.Img.Read

namespace Verif.Img

theorem enc_dec {fmt : Nat} (hf : fmt = 1 ∨ fmt = 2 ∨ fmt = 4 ∨ fmt = 8 ∨ fmt = 16 ∨ fmt = 24) {c : Color} {p : Nat → Bool} (h : ∀ n, c.getLsbD n = decBit fmt p n) {k : Nat} (hk : k < fmt) :
    encBit fmt c k = p k := by
  rcases hf with rfl | rfl | rfl | rfl | rfl | rfl
  · have : k = 0 := by omega
    subst this
    have h0 := h 0
    simp only [decBit] at h0
    rw [if_pos (by omega)] at h0
    simp only [encBit]
    cases e : p 0 with
    | true =>
      rw [show (1 - 1 - 0 : Nat) = 0 from rfl, e] at h0
      refine decide_eq_true fun hc => ?_
      rw [hc] at h0; simp at h0
    | false =>
      refine decide_eq_false fun hc => hc ?_
      refine BitVec.eq_of_getLsbD_eq fun n _ => ?_
      rw [h n]
      simp only [decBit]
      split
      · rename_i hn
        have : n = 0 := by omega
        subst this; rw [show (1 - 1 - 0 : Nat) = 0 from rfl, e]; simp
      · simp
  · simp only [encBit, h, decBit]; rw [if_pos (by omega)]; congr 1; omega
  · simp only [encBit, h, decBit]; rw [if_pos (by omega)]; congr 1; omega
  · simp only [encBit, h, decBit]
    by_cases h1 : k < 3
    · rw [if_pos h1, if_pos (by omega)]; congr 1; omega
    · rw [if_neg h1]
      by_cases h2 : k < 6
      · rw [if_pos h2, if_neg (by omega), if_pos (by omega)]; congr 1; omega
      · rw [if_neg h2, if_neg (by omega), if_neg (by omega), if_pos (by omega)]; congr 1; omega
  · simp only [encBit, h, decBit]
    by_cases h1 : k < 5
    · rw [if_pos h1, if_pos (by omega)]; congr 1; omega
    · rw [if_neg h1]
      by_cases h2 : k < 11
      · rw [if_pos h2, if_neg (by omega), if_pos (by omega)]; congr 1; omega
      · rw [if_neg h2, if_neg (by omega), if_neg (by omega), if_pos (by omega)]; congr 1; omega
  · simp only [encBit, h, decBit]; rw [if_pos (by omega)]; congr 1; omega

theorem lt_of_high {c : Color} {n : Nat} (hn : n ≤ 32) (h : ∀ i, n ≤ i → c.getLsbD i = false) : c.toNat < 2 ^ n := by
  refine Nat.lt_pow_two_of_testBit _ fun i hi => ?_
  have := h i hi
  rwa [BitVec.getLsbD] at this

/-- The colours of a pixel can be written to an image of the same format, if it is not `rgb565`. -/
theorem plain_dec {fmt : Nat} (h16 : fmt ≠ 16) {c : Color} {p : Nat → Bool} (h : ∀ n, c.getLsbD n = decBit fmt p n) : Plain fmt c := by
  refine ⟨fun e => ?_, fun e => ?_, fun e => absurd e h16⟩
  · subst e
    refine lt_of_high (n := 2) (by omega) fun i hi => ?_
    rw [h]; simp only [decBit]; rw [if_neg (by omega)]
  · subst e
    refine lt_of_high (n := 4) (by omega) fun i hi => ?_
    rw [h]; simp only [decBit]; rw [if_neg (by omega)]

/-- The colour of a pixel of the source. -/
def srcCol (src : Img) (x y i j : Int) : Color := (getpixel src (i - x) (j - y)).getD 0

/-- The pixels that are copied. -/
def Copied (src : Img) (x y : Int) (tr : Color) (i j : Int) : Prop := 0 ≤ i - x ∧ i - x < src.w ∧ 0 ≤ j - y ∧ j - y < src.h ∧ srcCol src x y i j ≠ tr

structure DrawnB (m m' : Img) (S : Int → Int → Prop) (col : Int → Int → Color) : Prop where
  same : SameDims m m'
  paint : (∀ i j, S i j → Plain m.fmt (col i j)) → Painted m m' S col

theorem DrawnB.none (m : Img) {S : Int → Int → Prop} {col : Int → Int → Color} (h : ∀ i j, ¬ S i j) : DrawnB m m S col :=
  ⟨.refl m, fun _ => .none m fun i j _ _ hs => h i j hs⟩

theorem DrawnB.congr {m m' : Img} {S S' : Int → Int → Prop} {col : Int → Int → Color} (h : DrawnB m m' S col) (e : ∀ i j, S i j ↔ S' i j) : DrawnB m m' S' col := by
  have : S = S' := by funext i j; exact propext (e i j)
  exact this ▸ h

theorem DrawnB.trans {m m1 m2 : Img} {S1 S2 : Int → Int → Prop} {col : Int → Int → Color} (h : DrawnB m m1 S1 col) (g : DrawnB m1 m2 S2 col) : DrawnB m m2 (fun i j => S1 i j ∨ S2 i j) col :=
  ⟨h.same.trans g.same, fun hp => (h.paint fun i j hs => hp i j (.inl hs)).trans (g.paint fun i j hs => by rw [h.same.fmt]; exact hp i j (.inr hs))⟩

theorem putpixel_drawnB {m : Img} (wf : Ok m) {i j : Nat} (hi : i < m.w) (hj : j < m.h) (c : Color) (col : Int → Int → Color) (hcol : col i j = c) :
    ∃ m', putpixel m i j c = some m' ∧ DrawnB m m' (fun i' j' => i' = i ∧ j' = j) col := by
  have hui := u16_nat (show i < 65536 by have := wf.dims; omega)
  have huj := u16_nat (show j < 65536 by have := wf.dims; omega)
  obtain ⟨d, e, hl⟩ := putData_safe wf hi hj c
  refine ⟨{ m with data := d }, by rw [putpixel, hui, huj, if_pos ⟨hi, hj⟩, e]; rfl, ⟨rfl, rfl, rfl, hl⟩, fun hp => ?_⟩
  have hp := hp i j ⟨rfl, rfl⟩
  rw [hcol] at hp
  obtain ⟨d', e', -, hb⟩ := putData_ok wf hi hj hp
  obtain rfl : d = d' := Option.some.inj (e.symm.trans e')
  exact putpixel_painted wf hi hj hl hb col hcol

theorem blitRow_drawn {src : Img} (ws : Ok src) (x y : Int) (tr : Color) {j : Nat} : ∀ (n i : Nat) (m : Img), Ok m → j < m.h → (n ≠ 0 → i + n ≤ m.w) →
    ∃ m', blitRow src x y tr j n i m = some m' ∧ DrawnB m m' (fun i' j' => j' = j ∧ (i : Int) ≤ i' ∧ i' < i + n ∧ Copied src x y tr i' j') (srcCol src x y)
  | 0, i, m, _, _, _ => ⟨m, rfl, .none m fun i j h => by omega⟩
  | n + 1, i, m, wf, hj, hi => by
    have hcast : ((i : Int) + 1) = ((i + 1 : Nat) : Int) := by omega
    have step0 : ∃ m1, (if 0 ≤ (i : Int) - x ∧ (i : Int) - x < src.w ∧ 0 ≤ (j : Int) - y ∧ (j : Int) - y < src.h then
        (getpixel src (i - x) (j - y)).bind fun p => if p ≠ tr then putpixel m i j p else some m else some m) = some m1 ∧
        DrawnB m m1 (fun i' j' => i' = i ∧ j' = j ∧ Copied src x y tr i' j') (srcCol src x y) := by
      split
      · rename_i hc
        obtain ⟨i', hi'⟩ : ∃ i' : Nat, (i : Int) - x = i' := ⟨((i : Int) - x).toNat, by omega⟩
        obtain ⟨j', hj'⟩ : ∃ j' : Nat, (j : Int) - y = j' := ⟨((j : Int) - y).toNat, by omega⟩
        obtain ⟨c, hc1, -⟩ := getpixel_spec ws (i := i') (j := j') (by omega) (by omega)
        have hcol : srcCol src x y i j = c := by unfold srcCol; rw [hi', hj', hc1]; rfl
        rw [hi', hj', hc1, Option.bind_some]
        by_cases hne : c ≠ tr
        · rw [if_pos hne]
          obtain ⟨m1, e1, d1⟩ := putpixel_drawnB wf (i := i) (j := j) (by omega) hj c _ hcol
          refine ⟨m1, e1, d1.congr fun a b => ?_⟩
          constructor
          · rintro ⟨rfl, rfl⟩; exact ⟨rfl, rfl, by omega, by omega, by omega, by omega, by rw [hcol]; exact hne⟩
          · rintro ⟨rfl, rfl, -⟩; exact ⟨rfl, rfl⟩
        · rw [if_neg hne]
          refine ⟨m, rfl, .none m ?_⟩
          rintro a b ⟨rfl, rfl, -, -, -, -, h⟩
          rw [hcol] at h; exact hne h
      · rename_i hc
        refine ⟨m, rfl, .none m ?_⟩
        rintro a b ⟨rfl, rfl, h1, h2, h3, h4, -⟩
        exact hc ⟨h1, h2, h3, h4⟩
    obtain ⟨m1, e1, d1⟩ := step0
    obtain ⟨m2, e2, d2⟩ := blitRow_drawn ws x y tr n (i + 1) m1 (d1.same.ok wf) (by rw [d1.same.h]; exact hj) (by rw [d1.same.w]; omega)
    refine ⟨m2, by rw [blitRow, e1, Option.bind_some, hcast, e2], (d1.trans d2).congr fun a b => ?_⟩
    constructor
    · rintro (⟨rfl, h2, h3⟩ | ⟨h1, h2, h3, h4⟩)
      · exact ⟨h2, by omega, by omega, h3⟩
      · exact ⟨h1, by omega, by omega, h4⟩
    · rintro ⟨h1, h2, h3, h4⟩
      by_cases h : a = i
      · exact .inl ⟨h, h1, h4⟩
      · exact .inr ⟨h1, by omega, by omega, h4⟩

theorem blitRows_drawn {src : Img} (ws : Ok src) (x y : Int) (tr : Color) {i0 w : Nat} : ∀ (n j : Nat) (m : Img), Ok m → (w ≠ 0 → i0 + w ≤ m.w) → (n ≠ 0 → j + n ≤ m.h) →
    ∃ m', blitRows src x y tr i0 w n j m = some m' ∧ DrawnB m m' (fun i' j' => (j : Int) ≤ j' ∧ j' < j + n ∧ (i0 : Int) ≤ i' ∧ i' < i0 + w ∧ Copied src x y tr i' j') (srcCol src x y)
  | 0, j, m, _, _, _ => ⟨m, rfl, .none m fun i j h => by omega⟩
  | n + 1, j, m, wf, hi, hj => by
    have hcast : ((j : Int) + 1) = ((j + 1 : Nat) : Int) := by omega
    obtain ⟨m1, e1, d1⟩ := blitRow_drawn ws x y tr (j := j) w i0 m wf (by omega) hi
    obtain ⟨m2, e2, d2⟩ := blitRows_drawn ws x y tr (i0 := i0) (w := w) n (j + 1) m1 (d1.same.ok wf) (by rw [d1.same.w]; exact hi) (by rw [d1.same.h]; omega)
    refine ⟨m2, by rw [blitRows, e1, Option.bind_some, hcast, e2], (d1.trans d2).congr fun a b => ?_⟩
    constructor
    · rintro (⟨rfl, h2, h3, h4⟩ | ⟨h1, h2, h3, h4, h5⟩)
      · exact ⟨by omega, by omega, by omega, by omega, h4⟩
      · exact ⟨by omega, by omega, h3, h4, h5⟩
    · rintro ⟨h1, h2, h3, h4, h5⟩
      by_cases h : b = j
      · exact .inl ⟨h, h3, h4, h5⟩
      · exact .inr ⟨by omega, by omega, h3, h4, h5⟩

theorem blit_drawn {m src : Img} (wf : Ok m) (ws : Ok src) {x y : Int} (hx : -1073741824 ≤ x ∧ x ≤ 1073741824) (hy : -1073741824 ≤ y ∧ y ≤ 1073741824) (tr : Color) :
    ∃ m', blit m src x y tr = some m' ∧ SameDims m m' ∧ ((∀ i j, Copied src x y tr i j → Plain m.fmt (srcCol src x y i j)) → Painted m m' (Copied src x y tr) (srcCol src x y)) := by
  have hd := wf.dims
  have hds := ws.dims
  unfold blit
  simp only
  rw [ck_ok (by omega), Option.bind_some, ck_ok (by omega), Option.bind_some, ck_ok (by split <;> omega), Option.bind_some, ck_ok (by split <;> omega), Option.bind_some]
  obtain ⟨xs, hxs⟩ : ∃ xs : Nat, (if x > 0 then x else 0) = (xs : Int) := ⟨(if x > 0 then x else 0).toNat, by split <;> omega⟩
  obtain ⟨ys, hys⟩ : ∃ ys : Nat, (if y > 0 then y else 0) = (ys : Int) := ⟨(if y > 0 then y else 0).toNat, by split <;> omega⟩
  rw [hxs, hys]
  generalize hxe : (if (m.w : Int) - x > src.w then (src.w : Int) + x else m.w) = xe
  generalize hye : (if (m.h : Int) - y > src.h then (src.h : Int) + y else m.h) = ye
  have gx : xe ≤ m.w ∧ xe ≤ src.w + x ∧ (xe = m.w ∨ xe = src.w + x) := by split at hxe <;> omega
  have gy : ye ≤ m.h ∧ ye ≤ src.h + y ∧ (ye = m.h ∨ ye = src.h + y) := by split at hye <;> omega
  have gxs : (x > 0 → (xs : Int) = x) ∧ (¬ x > 0 → xs = 0) := by split at hxs <;> omega
  have gys : (y > 0 → (ys : Int) = y) ∧ (¬ y > 0 → ys = 0) := by split at hys <;> omega
  have fin : ∀ (n : Nat) (w' : Nat), (n ≠ 0 → ys + n ≤ m.h) → (w' ≠ 0 → xs + w' ≤ m.w) → (∀ i j : Nat, i < m.w → j < m.h → Copied src x y tr i j → ys ≤ j ∧ j < ys + n ∧ xs ≤ i ∧ i < xs + w') →
      ∃ m', blitRows src x y tr xs w' n ys m = some m' ∧ SameDims m m' ∧ ((∀ i j, Copied src x y tr i j → Plain m.fmt (srcCol src x y i j)) → Painted m m' (Copied src x y tr) (srcCol src x y)) := by
    intro n w' h1 h2 h3
    obtain ⟨m', e, d⟩ := blitRows_drawn ws x y tr (i0 := xs) (w := w') n ys m wf h2 h1
    refine ⟨m', e, d.same, fun hp => (d.paint fun i j hs => hp i j hs.2.2.2.2).congr fun i j hi hj => ⟨fun h => h.2.2.2.2, fun h => ?_⟩⟩
    have := h3 i j hi hj h
    exact ⟨by omega, by omega, by omega, by omega, h⟩
  refine fin _ _ (fun h => by omega) (fun h => by omega) ?_
  rintro i j hi hj ⟨h1, h2, h3, h4, -⟩
  omega

end Verif.Img
