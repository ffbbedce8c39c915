import Verif.Img.Blit

/-! # Copying with scaling and rotation -/

namespace Verif.Img

/-- The colour that is copied to a pixel; `p` gives the place in the source. -/
def warpCol (src : Img) (p : Int → Int → Int × Int) (i j : Int) : Color := (getpixel src (p i j).1 (p i j).2).getD 0

/-- The pixels that get a colour. -/
def Warped (src : Img) (p : Int → Int → Int × Int) (tr : Color) (i j : Int) : Prop :=
  0 ≤ (p i j).1 ∧ (p i j).1 < src.w ∧ 0 ≤ (p i j).2 ∧ (p i j).2 < src.h ∧ warpCol src p i j ≠ tr

theorem warpRow_drawn {src : Img} (ws : Ok src) {f : Int → Int → Option (Int × Int)} {p : Int → Int → Int × Int} (tr : Color) {j : Nat} : ∀ (n i : Nat) (m : Img), Ok m → j < m.h → i + n ≤ m.w →
    (∀ i' : Nat, i' < m.w → f i' j = some (p i' j)) →
    ∃ m', warpRow src f tr j n i m = some m' ∧ DrawnB m m' (fun i' j' => j' = j ∧ (i : Int) ≤ i' ∧ i' < i + n ∧ Warped src p tr i' j') (warpCol src p)
  | 0, i, m, _, _, _, _ => ⟨m, rfl, .none m fun i j h => by omega⟩
  | n + 1, i, m, wf, hj, hi, hf => by
    have hcast : ((i : Int) + 1) = ((i + 1 : Nat) : Int) := by omega
    have step0 : ∃ m1, ((f i j).bind fun p =>
        if 0 ≤ p.1 ∧ p.1 < src.w ∧ 0 ≤ p.2 ∧ p.2 < src.h then (getpixel src p.1 p.2).bind fun c => if c ≠ tr then putpixel m i j c else some m else some m) = some m1 ∧
        DrawnB m m1 (fun i' j' => i' = i ∧ j' = j ∧ Warped src p tr i' j') (warpCol src p) := by
      rw [hf i (by omega), Option.bind_some]
      split
      · rename_i hc
        obtain ⟨i', hi'⟩ : ∃ i' : Nat, (p i j).1 = i' := ⟨(p i j).1.toNat, by omega⟩
        obtain ⟨j', hj'⟩ : ∃ j' : Nat, (p i j).2 = j' := ⟨(p i j).2.toNat, by omega⟩
        obtain ⟨c, hc1, -⟩ := getpixel_spec ws (i := i') (j := j') (by omega) (by omega)
        have hcol : warpCol src p i j = c := by unfold warpCol; rw [hi', hj', hc1]; rfl
        rw [hi', hj', hc1, Option.bind_some]
        by_cases hne : c ≠ tr
        · rw [if_pos hne]
          obtain ⟨m1, e1, d1⟩ := putpixel_drawnB wf (i := i) (j := j) (by omega) hj c _ hcol
          refine ⟨m1, e1, d1.congr fun a b => ?_⟩
          constructor
          · rintro ⟨rfl, rfl⟩; exact ⟨rfl, rfl, hc.1, hc.2.1, hc.2.2.1, hc.2.2.2, by rw [hcol]; exact hne⟩
          · rintro ⟨rfl, rfl, -⟩; exact ⟨rfl, rfl⟩
        · rw [if_neg hne]
          refine ⟨m, rfl, .none m ?_⟩
          rintro a b ⟨rfl, rfl, -, -, -, -, h⟩
          rw [hcol] at h; exact hne h
      · rename_i hc
        refine ⟨m, rfl, .none m ?_⟩
        rintro a b ⟨rfl, rfl, h1, h2, h3, h4, -⟩
        exact hc ⟨h1, h2, h3, h4⟩
    obtain ⟨m1, e1, d1⟩ := step0
    obtain ⟨m2, e2, d2⟩ := warpRow_drawn ws tr n (i + 1) m1 (d1.same.ok wf) (by rw [d1.same.h]; exact hj) (by rw [d1.same.w]; omega) (by rw [d1.same.w]; exact hf)
    refine ⟨m2, by rw [warpRow, e1, Option.bind_some, hcast, e2], (d1.trans d2).congr fun a b => ?_⟩
    constructor
    · rintro (⟨rfl, h2, h3⟩ | ⟨h1, h2, h3, h4⟩)
      · exact ⟨h2, by omega, by omega, h3⟩
      · exact ⟨h1, by omega, by omega, h4⟩
    · rintro ⟨h1, h2, h3, h4⟩
      by_cases h : a = i
      · exact .inl ⟨h, h1, h4⟩
      · exact .inr ⟨h1, by omega, by omega, h4⟩

theorem warpRows_drawn {src : Img} (ws : Ok src) {f : Int → Int → Option (Int × Int)} {p : Int → Int → Int × Int} (tr : Color) : ∀ (n j : Nat) (m : Img), Ok m → j + n ≤ m.h →
    (∀ i' j' : Nat, i' < m.w → j' < m.h → f i' j' = some (p i' j')) →
    ∃ m', warpRows src f tr m.w n j m = some m' ∧ DrawnB m m' (fun i' j' => (j : Int) ≤ j' ∧ j' < j + n ∧ 0 ≤ i' ∧ i' < m.w ∧ Warped src p tr i' j') (warpCol src p)
  | 0, j, m, _, _, _ => ⟨m, rfl, .none m fun i j h => by omega⟩
  | n + 1, j, m, wf, hj, hf => by
    have hcast : ((j : Int) + 1) = ((j + 1 : Nat) : Int) := by omega
    obtain ⟨m1, e1, d1⟩ := warpRow_drawn ws tr (j := j) m.w 0 m wf (by omega) (by omega) (fun i' hi' => hf i' j hi' (by omega))
    obtain ⟨m2, e2, d2⟩ := warpRows_drawn ws tr n (j + 1) m1 (d1.same.ok wf) (by rw [d1.same.h]; omega) (by rw [d1.same.w, d1.same.h]; exact hf)
    rw [d1.same.w] at e2 d2
    refine ⟨m2, by rw [warpRows, show (0 : Int) = ((0 : Nat) : Int) from rfl, e1, Option.bind_some, hcast, e2], (d1.trans d2).congr fun a b => ?_⟩
    constructor
    · rintro (⟨rfl, h2, h3, h4⟩ | ⟨h1, h2, h3, h4, h5⟩)
      · exact ⟨by omega, by omega, by omega, by omega, h4⟩
      · exact ⟨by omega, by omega, h3, h4, h5⟩
    · rintro ⟨h1, h2, h3, h4, h5⟩
      by_cases h : b = j
      · exact .inl ⟨h, by omega, by omega, h5⟩
      · exact .inr ⟨by omega, by omega, h3, h4, h5⟩

theorem warp_drawn {m src : Img} (wf : Ok m) (ws : Ok src) {f : Int → Int → Option (Int × Int)} {p : Int → Int → Int × Int} (tr : Color) (hf : ∀ i j : Nat, i < m.w → j < m.h → f i j = some (p i j)) :
    ∃ m', warpRows src f tr m.w m.h 0 m = some m' ∧ SameDims m m' ∧ ((∀ i j, Warped src p tr i j → Plain m.fmt (warpCol src p i j)) → Painted m m' (Warped src p tr) (warpCol src p)) := by
  obtain ⟨m', e, d⟩ := warpRows_drawn ws tr m.h 0 m wf (by omega) hf
  refine ⟨m', e, d.same, fun hp => (d.paint fun i j hs => hp i j hs.2.2.2.2).congr fun i j hi hj => ⟨fun h => h.2.2.2.2, fun h => ⟨by omega, by omega, by omega, by omega, h⟩⟩⟩

/-- What a copy without loss of colours does. -/
theorem warp_same {m src : Img} (wf : Ok m) (ws : Ok src) (hfm : src.fmt = m.fmt) (h16 : m.fmt ≠ 16) {f : Int → Int → Option (Int × Int)} {p : Int → Int → Int × Int} (tr : Color)
    (hf : ∀ i j : Nat, i < m.w → j < m.h → f i j = some (p i j)) :
    ∃ m', warpRows src f tr m.w m.h 0 m = some m' ∧ SameDims m m' ∧ ∀ i j k : Nat, i < m.w → j < m.h → k < m.fmt →
      (∀ a b : Nat, a < src.w → b < src.h → p i j = (↑a, ↑b) → getpixel src a b ≠ some tr → pix m' i j k = pix src a b k) ∧
      ((∀ a b : Nat, a < src.w → b < src.h → p i j = (↑a, ↑b) → getpixel src a b = some tr) → pix m' i j k = pix m i j k) := by
  have hcol : ∀ i j : Int, 0 ≤ (p i j).1 → (p i j).1 < src.w → 0 ≤ (p i j).2 → (p i j).2 < src.h → ∃ a b : Nat, p i j = (↑a, ↑b) ∧ a < src.w ∧ b < src.h ∧ getpixel src a b = some (warpCol src p i j) ∧
      ∀ n, (warpCol src p i j).getLsbD n = decBit src.fmt (pix src a b) n := by
    intro i j h1 h2 h3 h4
    obtain ⟨a, ha⟩ := Int.eq_ofNat_of_zero_le h1
    obtain ⟨b, hb⟩ := Int.eq_ofNat_of_zero_le h3
    obtain ⟨c, ec, hc⟩ := getpixel_spec ws (i := a) (j := b) (by omega) (by omega)
    have : warpCol src p i j = c := by rw [warpCol, ha, hb, ec]; rfl
    exact ⟨a, b, Prod.ext ha hb, by omega, by omega, by rw [this]; exact ec, by rw [this]; exact hc⟩
  obtain ⟨m', e, sd, q⟩ := warp_drawn wf ws tr hf
  have q := q fun i j h => by
    obtain ⟨h1, h2, h3, h4, -⟩ := h
    obtain ⟨a, b, -, -, -, -, hc⟩ := hcol i j h1 h2 h3 h4
    rw [← hfm]
    exact plain_dec (by rw [hfm]; exact h16) hc
  refine ⟨m', e, sd, fun i j k hi hj hk => ⟨?_, ?_⟩⟩
  · intro a b ha hb hp hne
    have h1 : (p i j).1 = a := by rw [hp]
    have h2 : (p i j).2 = b := by rw [hp]
    obtain ⟨a', b', e1, -, -, hg, hc⟩ := hcol i j (by omega) (by omega) (by omega) (by omega)
    have ea : a' = a := by have := congrArg Prod.fst e1; simp only at this; omega
    have eb : b' = b := by have := congrArg Prod.snd e1; simp only at this; omega
    subst ea eb
    rw [q.set i j k hi hj hk ⟨by omega, by omega, by omega, by omega, fun h => hne (by rw [hg, h])⟩, ← hfm]
    exact enc_dec ws.fmt hc (by rw [hfm]; exact hk)
  · intro h
    have := q.keep ((j * m.w + i) * m.fmt + k) fun i' j' k' hi' hj' hk' hs he => by
      obtain ⟨e1, e2, -⟩ := addr_inj hi hi' hk hk' he
      subst e1 e2
      obtain ⟨h1, h2, h3, h4, h5⟩ := hs
      obtain ⟨a', b', f1, f3, f4, hg, hc⟩ := hcol i j h1 h2 h3 h4
      have := h a' b' f3 f4 f1
      rw [this] at hg
      exact h5 (Option.some.inj hg).symm
    simpa only [pix, q.w, q.fmt] using this

theorem dv_ok {a b : Int} (hb : b ≠ 0) (ha : -2147483648 < a ∧ a < 2147483648) : dv a b = some (a.tdiv b) := by
  unfold dv
  rw [if_neg hb]
  refine ck_ok ?_
  have h1 : (a.tdiv b).natAbs ≤ a.natAbs := by rw [Int.natAbs_tdiv]; exact Nat.div_le_self _ _
  omega

/-- The pixel of the source for a pixel of the destination, without rotation. -/
def scaleAt (x y sc i j : Int) : Int × Int := (((i - x) * 1000).tdiv sc, ((j - y) * 1000).tdiv sc)

/-- The same with a rotation. -/
def turnAt (x y xr yr sr cr sc i j : Int) : Int × Int := (((i - x - xr) * cr + (j - y - yr) * sr + xr * 1000).tdiv sc, (-(i - x - xr) * sr + (j - y - yr) * cr + yr * 1000).tdiv sc)

theorem scaleSrc_ok {x y xr yr sc i j : Int} (hx : -100000 ≤ x ∧ x ≤ 100000) (hy : -100000 ≤ y ∧ y ≤ 100000) (hxr : -100000 ≤ xr ∧ xr ≤ 100000) (hyr : -100000 ≤ yr ∧ yr ≤ 100000) (hs : sc ≠ 0)
    (hi : 0 ≤ i ∧ i < 65536) (hj : 0 ≤ j ∧ j < 65536) : scaleSrc x y xr yr sc i j = some (scaleAt x y sc i j) := by
  unfold scaleSrc scaleAt
  rw [ck_ok (by omega), Option.bind_some, ck_ok (by omega), Option.bind_some, ck_ok (by omega), Option.bind_some, ck_ok (by omega), Option.bind_some, ck_ok (by omega), Option.bind_some, ck_ok (by omega), Option.bind_some,
    ck_ok (by omega), Option.bind_some, ck_ok (by omega), Option.bind_some, ck_ok (by omega), Option.bind_some, ck_ok (by omega), Option.bind_some, dv_ok hs (by omega), Option.bind_some, dv_ok hs (by omega), Option.map_some]
  congr 3 <;> omega

theorem mul_bound {a c : Int} {n : Int} (hn : 0 ≤ n) (ha : -n ≤ a ∧ a ≤ n) (hc : -1000 ≤ c ∧ c ≤ 1000) : -(n * 1000) ≤ a * c ∧ a * c ≤ n * 1000 := by
  have h1 : (a * c).natAbs ≤ n.natAbs * 1000 := by
    rw [Int.natAbs_mul]
    exact Nat.mul_le_mul (by omega) (by omega)
  omega

theorem turnSrc_ok {x y xr yr sr cr sc i j : Int} (hx : -100000 ≤ x ∧ x ≤ 100000) (hy : -100000 ≤ y ∧ y ≤ 100000) (hxr : -100000 ≤ xr ∧ xr ≤ 100000) (hyr : -100000 ≤ yr ∧ yr ≤ 100000)
    (hsr : -1000 ≤ sr ∧ sr ≤ 1000) (hcr : -1000 ≤ cr ∧ cr ≤ 1000) (hs : sc ≠ 0) (hi : 0 ≤ i ∧ i < 65536) (hj : 0 ≤ j ∧ j < 65536) :
    turnSrc x y xr yr sr cr sc i j = some (turnAt x y xr yr sr cr sc i j) := by
  have b1 := mul_bound (a := i - x - xr) (c := cr) (n := 270000) (by omega) (by omega) hcr
  have b2 := mul_bound (a := j - y - yr) (c := sr) (n := 270000) (by omega) (by omega) hsr
  have b3 := mul_bound (a := -(i - x - xr)) (c := sr) (n := 270000) (by omega) (by omega) hsr
  have b4 := mul_bound (a := j - y - yr) (c := cr) (n := 270000) (by omega) (by omega) hcr
  unfold turnSrc turnAt
  rw [ck_ok (by omega), Option.bind_some, ck_ok (by omega), Option.bind_some, ck_ok (by omega), Option.bind_some, ck_ok (by omega), Option.bind_some, ck_ok (by omega), Option.bind_some, ck_ok (by omega), Option.bind_some,
    ck_ok (by omega), Option.bind_some, ck_ok (by omega), Option.bind_some, ck_ok (by omega), Option.bind_some, ck_ok (by omega), Option.bind_some, ck_ok (by omega), Option.bind_some, ck_ok (by omega), Option.bind_some,
    ck_ok (by omega), Option.bind_some, ck_ok (by omega), Option.bind_some, ck_ok (by omega), Option.bind_some, dv_ok hs (by omega), Option.bind_some, dv_ok hs (by omega), Option.map_some]

end Verif.Img
