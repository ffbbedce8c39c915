import Verif.Img.Ops
import Verif.Img.Text
import Verif.Img.Color

/-! # Properties of the drawing functions -/

namespace Verif.Img

/-! ## C75: drawing stays inside the array of the image -/

/-- A new image buffer is accepted by all functions, with its width, height and format, all pixels zero, and an array that is large enough. -/
theorem imgBuffer_ok {fmt w h : Nat} (hf : fmt = 1 ∨ fmt = 2 ∨ fmt = 4 ∨ fmt = 8 ∨ fmt = 16 ∨ fmt = 24) (hw : 0 < w ∧ w < 32000) (hh : 0 < h ∧ h < 32000) (hm : w * h * 3 < 2147483648) :
    ∃ a m, imgBuffer fmt w h = some a ∧ decodeImg a = some m ∧ m.w = w ∧ m.h = h ∧ m.fmt = fmt ∧ (∀ i j k, pix m i j k = false) ∧ Ok m := by
  have hl : w * h * fmt ≤ 8 * dimsToSize fmt w h ∧ dimsToSize fmt w h ≤ w * h * 3 := by
    have hp : 0 < w * h := Nat.mul_pos hw.1 hh.1
    rcases hf with rfl | rfl | rfl | rfl | rfl | rfl <;> simp only [dimsToSize] <;> first | omega | (split <;> omega)
  have hw' : be16 (BitVec.ofNat 8 (w / 256)) (BitVec.ofNat 8 w) = w := by simp only [be16, BitVec.toNat_ofNat]; omega
  have hh' : be16 (BitVec.ofNat 8 (h / 256)) (BitVec.ofNat 8 h) = h := by simp only [be16, BitVec.toNat_ofNat]; omega
  have hf' : (BitVec.ofNat 8 fmt).toNat = fmt := by rw [BitVec.toNat_ofNat]; omega
  have hpos : 0 < dimsToSize fmt w h := by
    have hp : 0 < w * h := Nat.mul_pos hw.1 hh.1
    have : 0 < w * h * fmt := Nat.mul_pos hp (by omega)
    omega
  refine ⟨_, ⟨w, h, fmt, List.replicate (dimsToSize fmt w h) 0#8⟩, if_pos ⟨hw.1, hh.1, hw.2, hh.2⟩, ?_, rfl, rfl, rfl, ?_, hf, ?_, ?_, ?_⟩
  · simp only [header, List.cons_append, List.nil_append, decodeImg, hw', hh', hf', List.length_replicate]
    exact if_pos ⟨hpos, Nat.div_le_of_le_mul (Nat.le_trans (Nat.mod_le _ _) hl.1)⟩
  · intro i j k
    simp only [pix, bit, List.getD_eq_getElem?_getD, List.getElem?_replicate]
    split <;> simp
  · simpa using hl.1
  · simp only [List.length_replicate]; omega
  · simp only; omega

/-- Any number of drawing calls with coordinates between -8000 and 8000 is defined for an image of any origin whose array is large enough: no byte outside of the array is accessed and no number overflows. The size and the format stay as they are. -/
theorem drawing_safe_image {m : Img} (wf : Ok m) (ops : List Op) (ho : ∀ o ∈ ops, o.Small) : ∃ s' m', runAll ops (⟨0, 0, 0⟩, m) = some (s', m') ∧ SameDims m m' := by
  suffices H : ∀ (ops : List Op) (s : Dots) (m : Img), (∀ o ∈ ops, o.Small) → DotsOk s → Ok m → ∃ s' m', runAll ops (s, m) = some (s', m') ∧ SameDims m m' from
    H ops ⟨0, 0, 0⟩ m ho (by constructor <;> decide) wf
  intro ops
  induction ops with
  | nil => exact fun s m _ _ _ => ⟨s, m, rfl, .refl m⟩
  | cons o l ih =>
    intro s m ho hs wf
    obtain ⟨s1, m1, e1, d1, h1⟩ := run_ok (ho o List.mem_cons_self) hs wf
    obtain ⟨s2, m2, e2, d2⟩ := ih s1 m1 (fun p hp => ho p (List.mem_cons_of_mem _ hp)) h1 (d1.ok wf)
    exact ⟨s2, m2, by rw [runAll, e1]; exact e2, d1.trans d2⟩

/-- Any number of drawing calls with coordinates between -8000 and 8000 on a new image buffer is defined: no byte outside of the array is accessed and no number overflows. The size and the format stay as they are. -/
theorem drawing_safe_partial {fmt w h : Nat} (hf : fmt = 1 ∨ fmt = 2 ∨ fmt = 4 ∨ fmt = 8 ∨ fmt = 16 ∨ fmt = 24) (hw : 0 < w ∧ w < 32000) (hh : 0 < h ∧ h < 32000) (hm : w * h * 3 < 2147483648)
    (ops : List Op) (ho : ∀ o ∈ ops, o.Small) : ∃ a m s' m', imgBuffer fmt w h = some a ∧ decodeImg a = some m ∧ runAll ops (⟨0, 0, 0⟩, m) = some (s', m') ∧ SameDims m m' := by
  obtain ⟨a, m, e1, e2, -, -, -, -, wf⟩ := imgBuffer_ok hf hw hh hm
  obtain ⟨s', m', e, d⟩ := drawing_safe_image wf ops ho
  exact ⟨a, m, s', m', e1, e2, e, d⟩

example : ∃ a m s' m', imgBuffer 2 7 5 = some a ∧ decodeImg a = some m ∧
    runAll [.clear 1, .setpix 70000 (-3) 9, .line (-5) (-5) 20 3 2 1 2 1, .rectangle (-3) 2 50 1 false 4 0 0 2, .rounded (-2) 1 6 9 3 2, .circle 3 3 9 true 0 1, .circle 2 (-3) 9 false 4 2, .triangle (-9) 3 7 7 2 (-4) true 0 0 0 3] (⟨0, 0, 0⟩, m) = some (s', m') ∧ SameDims m m' :=
  drawing_safe_partial (by decide) (by decide) (by decide) (by decide) _ (by
    intro o ho
    simp only [List.mem_cons, List.not_mem_nil, or_false] at ho
    rcases ho with rfl | rfl | rfl | rfl | rfl | rfl | rfl | rfl <;> simp [Op.Small, Lim])

/-- The full claim fails for arrays that were not made by `img-buffer`: the array `[0 3 0 3 1 0]` is accepted as an image of three times three pixels with one bit each, and setting its last pixel writes behind its end. -/
theorem drawing_forged : ∃ m, decodeImg [0, 3, 0, 3, 1, 0] = some m ∧ putpixel m 2 2 1 = none := ⟨⟨3, 3, 1, [0]⟩, by decide +kernel, by decide +kernel⟩

/-- It fails for sizes that do not fit in 32 bits: an array with a single byte of data is accepted as an image of 32768 times 32768 bytes. -/
theorem drawing_forged_wrap : ∃ m, decodeImg [0x80, 0, 0x80, 0, 8, 0] = some m ∧ putpixel m 1 0 1 = none := ⟨⟨32768, 32768, 8, [0]⟩, by decide +kernel, by decide +kernel⟩

/-- It fails for large triangles: the products overflow. -/
theorem drawing_overflow : ∃ a m, imgBuffer 1 8 8 = some a ∧ decodeImg a = some m ∧ fillTriangle m 0 0 50000 0 0 50000 1 = none :=
  ⟨header 1 8 8 ++ List.replicate 8 0, ⟨8, 8, 1, List.replicate 8 0⟩, by decide +kernel, by decide +kernel, by decide +kernel⟩

/-- It fails for large lines: the distance of the ends overflows. -/
theorem drawing_overflow_line : ∃ a m, imgBuffer 1 8 8 = some a ∧ decodeImg a = some m ∧ line ⟨0, 0, 0⟩ m (-2000000000) 0 2000000000 0 0 0 0 1 = none :=
  ⟨header 1 8 8 ++ List.replicate 8 0, ⟨8, 8, 1, List.replicate 8 0⟩, by decide +kernel, by decide +kernel, by decide +kernel⟩

/-! ## C76: setting a pixel sets that pixel, and no other -/

/-- Setting a pixel of an image changes the bits of that pixel to those of the colour, and nothing else; outside of the image it changes nothing. The colour must be one that the format can hold, and the coordinates must not wrap around. -/
theorem setpix_partial {m : Img} (wf : Ok m) {x y : Int} {c : Color} (hc : Plain m.fmt c) (hn : Near m x y) :
    ∃ m', putpixel m x y c = some m' ∧ Painted m m' (fun i j => i = x ∧ j = y) fun _ _ => c := by
  obtain ⟨m', e, d⟩ := putpixel_drawn wf x y c
  exact ⟨m', e, (d.paint hc).near fun i j h => by rw [h.1, h.2]; exact hn⟩

/-- The pixel that was set has the colour that was set, as far as the format can hold it, and all others have the colour that they had before. -/
theorem setpix_get_partial {m : Img} (wf : Ok m) {x y : Nat} (hx : x < m.w) (hy : y < m.h) {c : Color} (hc : Plain m.fmt c) :
    ∃ m' c', putpixel m x y c = some m' ∧ getpixel m' x y = some c' ∧ (∀ n, c'.getLsbD n = decBit m.fmt (encBit m.fmt c) n) ∧
      ∀ i j : Nat, i < m.w → j < m.h → (i ≠ x ∨ j ≠ y) → getpixel m' i j = getpixel m i j := by
  have hd := wf.dims
  obtain ⟨m', e, p⟩ := setpix_partial wf hc (x := x) (y := y) (by constructor <;> omega)
  have wf' := p.same.ok wf
  obtain ⟨c', e', h⟩ := getpixel_spec wf' (i := x) (j := y) (by rw [p.w]; exact hx) (by rw [p.h]; exact hy)
  refine ⟨m', c', e, e', fun n => ?_, fun i j hi hj hne => ?_⟩
  · rw [h, p.fmt]
    exact decBit_congr wf.fmt (fun k hk => p.set x y k hx hy hk ⟨rfl, rfl⟩) n
  · obtain ⟨a, ea, ha⟩ := getpixel_spec wf' (i := i) (j := j) (by rw [p.w]; exact hi) (by rw [p.h]; exact hj)
    obtain ⟨b, eb, hb⟩ := getpixel_spec wf hi hj
    rw [ea, eb]
    congr 1
    apply BitVec.eq_of_getLsbD_eq
    intro n _
    rw [ha, hb, p.fmt]
    refine decBit_congr wf.fmt (fun k hk => ?_) n
    have := p.keep ((j * m.w + i) * m.fmt + k) fun i' j' k' hi' hj' hk' hs he => by
      have h1 := addr_inj hi hi' hk hk' he
      omega
    simpa only [pix, p.w, p.fmt] using this

/-- Colours for images with four colours. -/
theorem plain2 {c : Color} (h : c.toNat < 4) : Plain 2 c := ⟨fun _ => h, fun h => absurd h (by decide), fun h => absurd h (by decide)⟩

/-- An image of 7 times 5 pixels with 2 bits each. -/
def sample : Img := ⟨7, 5, 2, List.replicate 9 0x1B#8⟩

theorem sample_ok : Ok sample := ⟨by decide, by decide, by decide, by decide⟩

example : ∃ m', putpixel sample 6 4 2 = some m' ∧ Painted sample m' (fun i j => i = 6 ∧ j = 4) fun _ _ => 2 :=
  setpix_partial sample_ok (plain2 (by decide)) (by simp [Near, sample])

example : ∃ m' c', putpixel sample (3 : Nat) (2 : Nat) 1 = some m' ∧ getpixel m' (3 : Nat) (2 : Nat) = some c' ∧ (∀ n, c'.getLsbD n = decBit 2 (encBit 2 1) n) ∧
    ∀ i j : Nat, i < 7 → j < 5 → (i ≠ 3 ∨ j ≠ 2) → getpixel m' i j = getpixel sample i j :=
  setpix_get_partial sample_ok (by decide) (by decide) (plain2 (by decide))

/-- The full claim fails for `rgb565`: red becomes black. -/
theorem setpix_red_lost : (putpixel ⟨1, 1, 16, [0, 0]⟩ 0 0 0xFF0000).map (·.data) = some [0, 0] ∧ encBit 16 0xFF0000 0 = true := by decide

/-- It fails for colour numbers that are too large: setting a pixel to colour 4 of an image with four colours changes the pixel before it. -/
theorem setpix_bleeds : (putpixel ⟨4, 1, 2, [0]⟩ 1 0 4).map (fun m => pix m 0 0 1) = some true ∧ pix ⟨4, 1, 2, [0]⟩ 0 0 1 = false := by decide

/-- It fails for coordinates far outside of the image: the coordinate 65536 is taken for 0. -/
theorem setpix_wraps : (putpixel ⟨4, 1, 2, [0]⟩ 65536 0 3).map (·.data) = some [0xC0] := by decide

/-! ## C77: clearing an image sets all of its pixels -/

/-- After clearing, every pixel has the colour; for `indexed2` the colour must be 0 or 1, and `rgb565` is excluded. Nothing behind the image is changed. -/
theorem clear_partial {m : Img} (wf : Ok m) (c : Color) (h16 : m.fmt ≠ 16) (h1 : m.fmt = 1 → c.toNat < 2) : ∃ m', clear m c = some m' ∧ SameDims m m' ∧
    (∀ i j k, i < m.w → j < m.h → k < m.fmt → pix m' i j k = encBit m.fmt c k) ∧ ∀ q, 8 * ((m.w * m.h * m.fmt + 7) / 8) ≤ q → bit m'.data q = bit m.data q := by
  obtain ⟨m', e, d, h, r⟩ := clear_ok wf c h16
  refine ⟨m', e, d, fun i j k hi hj hk => ?_, r⟩
  rw [h i j k hi hj hk]
  unfold clearBit
  split
  · rename_i hf
    rw [hf]
    have := h1 hf
    have hc : c = 0#32 ∨ c = 1#32 := by
      have : c.toNat = 0 ∨ c.toNat = 1 := by omega
      rcases this with h | h
      · left; apply BitVec.eq_of_toNat_eq; simpa using h
      · right; apply BitVec.eq_of_toNat_eq; simpa using h
    rcases hc with rfl | rfl <;> rfl
  · rfl

example : ∃ m', clear sample 2 = some m' ∧ SameDims sample m' ∧ (∀ i j k, i < 7 → j < 5 → k < 2 → pix m' i j k = encBit 2 2 k) ∧ ∀ q, 8 * ((7 * 5 * 2 + 7) / 8) ≤ q → bit m'.data q = bit sample.data q :=
  clear_partial sample_ok 2 (by decide) (by decide)

/-- For `rgb565` only the first quarter of the image is cleared. -/
theorem clear_quarter {m : Img} (wf : Ok m) (h16 : m.fmt = 16) {c : Color} (hc : Plain 16 c) : ∃ m', clear m c = some m' ∧ SameDims m m' ∧
    ∀ i j k, i < m.w → j < m.h → k < 16 → pix m' i j k = if j * m.w + i < (m.w * m.h / 2 + 1) / 2 then encBit 16 c k else pix m i j k := by
  obtain ⟨m', e, d, h⟩ := clear_565 wf h16 c
  exact ⟨m', e, d, h hc⟩

/-- The full claim fails: of an image of 4 times 1 pixels in `rgb565` only the first one becomes blue. -/
theorem clear_565_incomplete : (clear ⟨4, 1, 16, List.replicate 8 0⟩ 0x0000FF).map (·.data) = some [0, 0x1F, 0, 0, 0, 0, 0, 0] := by decide

/-- In a black and white image clearing with colour 2 gives black, whereas setting a pixel to colour 2 gives white. -/
theorem clear_two_black : (clear ⟨8, 1, 1, [0]⟩ 2).map (·.data) = some [0] ∧ (putpixel ⟨8, 1, 1, [0]⟩ 0 0 2).map (·.data) = some [0x80] := by decide

/-! ## C78: filled rectangles and triangles -/

/-- A filled rectangle sets exactly the pixels of its `w` columns and `h` rows. -/
theorem rectangle_partial {m : Img} (wf : Ok m) (s : Dots) {x y w h : Int} (hx : -1073741824 ≤ x ∧ x ≤ 1073741824) (hy : -1073741824 ≤ y ∧ y ≤ 1073741824)
    (hw : -1073741824 ≤ w ∧ w ≤ 1073741823) (hh : -1073741824 ≤ h ∧ h ≤ 1073741823) (t d1 d2 : Int) {c : Color} (hc : Plain m.fmt c)
    (hn : ∀ i j, x ≤ i → i < x + w → y ≤ j → j < y + h → Near m i j) :
    ∃ m', rectangle s m x y w h true t d1 d2 c = some (s, m') ∧ Painted m m' (fun i j => x ≤ i ∧ i < x + w ∧ y ≤ j ∧ j < y + h) fun _ _ => c := by
  obtain ⟨m', e, d⟩ := rectangle_filled wf s hx hy hw hh t d1 d2 c
  exact ⟨m', e, (d.paint hc).near fun i j h => hn i j h.1 h.2.1 h.2.2.1 h.2.2.2⟩

/-- A filled triangle sets exactly the pixels that lie in the triangle, its sides included. -/
theorem triangle_partial {m : Img} (wf : Ok m) (s : Dots) {x0 y0 x1 y1 x2 y2 : Int} (h0 : Sm x0) (g0 : Sm y0) (h1 : Sm x1) (g1 : Sm y1) (h2 : Sm x2) (g2 : Sm y2) (t d1 d2 : Int) {c : Color} (hc : Plain m.fmt c)
    (hw : m.w ≤ 32000) (hh : m.h ≤ 32000) :
    ∃ m', triangle s m x0 y0 x1 y1 x2 y2 true t d1 d2 c = some (s, m') ∧ Painted m m' (InTriangle x0 y0 x1 y1 x2 y2) fun _ _ => c := by
  obtain ⟨m', e, d⟩ := fillTriangle_drawn wf c h0 g0 h1 g1 h2 g2
  refine ⟨m', by rw [triangle, if_pos rfl, e]; rfl, (d.paint hc).near ?_⟩
  rintro i j ⟨a, b, e, ha, hb, hcc, hs, hi, hj⟩
  have q1 := mean_le ha hb hcc hs hi h0.2 h1.2 h2.2
  have q2 := mean_le ha hb hcc hs hj g0.2 g1.2 g2.2
  have q3 := mean_ge ha hb hcc hs hi h0.1 h1.1 h2.1
  have q4 := mean_ge ha hb hcc hs hj g0.1 g1.1 g2.1
  constructor <;> omega

example : ∃ m', rectangle ⟨0, 0, 0⟩ sample (-2) 1 5 9 true 0 0 0 3 = some (⟨0, 0, 0⟩, m') ∧ Painted sample m' (fun i j => -2 ≤ i ∧ i < -2 + 5 ∧ 1 ≤ j ∧ j < 1 + 9) fun _ _ => 3 :=
  rectangle_partial sample_ok _ (by decide) (by decide) (by decide) (by decide) 0 0 0 (plain2 (by decide)) fun i j h1 h2 h3 h4 => by
    have h5 : ((7 : Nat) : Int) - 65536 ≤ i ∧ i < 65536 ∧ ((5 : Nat) : Int) - 65536 ≤ j ∧ j < 65536 := by omega
    exact h5

example : ∃ m', triangle ⟨0, 0, 0⟩ sample 0 0 6 1 (-3) 9 true 0 0 0 3 = some (⟨0, 0, 0⟩, m') ∧ Painted sample m' (InTriangle 0 0 6 1 (-3) 9) fun _ _ => 3 :=
  triangle_partial sample_ok _ ⟨by decide, by decide⟩ ⟨by decide, by decide⟩ ⟨by decide, by decide⟩ ⟨by decide, by decide⟩ ⟨by decide, by decide⟩ ⟨by decide, by decide⟩ 0 0 0 (plain2 (by decide)) (by decide) (by decide)

example : InTriangle 0 0 6 1 (-3) 9 1 3 := ⟨22, 18, 17, by decide, by decide, by decide, by decide, by decide, by decide⟩

/-- The full claim fails: a rectangle that starts at column 65536 appears at the left side of the image. -/
theorem rectangle_wraps : (rectangle ⟨0, 0, 0⟩ ⟨4, 1, 2, [0]⟩ 65536 0 1 1 true 0 0 0 3).map (·.2.data) = some [0xC0] := by decide +kernel

/-! ## C79: lines -/

/-- A line of thickness 1 without dots sets exactly the pixels of a path without gaps that starts at the first end, stays in the box of its ends and close to the line between them, and ends at the second end unless the line is flat; horizontal,
vertical and diagonal lines are exact. The path depends on the ends alone. -/
theorem line_partial {x0 y0 x1 y1 : Int} (hx0 : -134217728 ≤ x0 ∧ x0 ≤ 134217728) (hy0 : -134217728 ≤ y0 ∧ y0 ≤ 134217728) (hx1 : -134217728 ≤ x1 ∧ x1 ≤ 134217728) (hy1 : -134217728 ≤ y1 ∧ y1 ≤ 134217728) :
    ∃ l, LinePath x0 y0 x1 y1 l ∧ ∀ (s : Dots) (m : Img) (t d2 : Int) (c : Color), Ok m → t ≤ 1 → Plain m.fmt c → Near m x0 y0 → Near m x1 y1 →
      ∃ m', line s m x0 y0 x1 y1 t 0 d2 c = some (s, m') ∧ Painted m m' (fun i j => (i, j) ∈ l) fun _ _ => c := by
  obtain ⟨l, hl, e⟩ := line_spec hx0 hy0 hx1 hy1
  refine ⟨l, hl, fun s m t d2 c wf ht hc n0 n1 => ?_⟩
  obtain ⟨m', e', d⟩ := foldPen_drawn (t := t) (by omega) c l m wf fun p hp => by
    have := hl.box p hp
    omega
  refine ⟨m', by rw [e, if_neg (by decide), e']; rfl, ((d.paint hc).near ?_).congr fun i j _ _ => ?_⟩
  · rintro i j ⟨p, hp, hi⟩
    have hb := hl.box p hp
    rw [InPen, if_neg (by omega)] at hi
    obtain ⟨a1, a2, a3, a4⟩ := n0
    obtain ⟨b1, b2, b3, b4⟩ := n1
    constructor <;> omega
  · constructor
    · rintro ⟨p, hp, hi⟩
      rw [InPen, if_neg (by omega)] at hi
      rw [hi.1, hi.2]; exact hp
    · exact fun h => ⟨_, h, by rw [InPen, if_neg (by omega)]; exact ⟨rfl, rfl⟩⟩

/-- A thick line sets exactly the pixels of the disks around the pixels of such a path. -/
theorem line_thick_partial {x0 y0 x1 y1 : Int} (hx0 : -134217728 ≤ x0 ∧ x0 ≤ 134217728) (hy0 : -134217728 ≤ y0 ∧ y0 ≤ 134217728) (hx1 : -134217728 ≤ x1 ∧ x1 ≤ 134217728) (hy1 : -134217728 ≤ y1 ∧ y1 ≤ 134217728) :
    ∃ l, LinePath x0 y0 x1 y1 l ∧ ∀ (s : Dots) (m : Img) (t d2 : Int) (c : Color), Ok m → t ≤ 32767 → Plain m.fmt c →
      ∃ m', line s m x0 y0 x1 y1 t 0 d2 c = some (s, m') ∧ Painted m m' (Wrap fun i j => ∃ p ∈ l, InPen t p.1 p.2 i j) fun _ _ => c := by
  obtain ⟨l, hl, e⟩ := line_spec hx0 hy0 hx1 hy1
  refine ⟨l, hl, fun s m t d2 c wf ht hc => ?_⟩
  obtain ⟨m', e', d⟩ := foldPen_drawn ht c l m wf fun p hp => by
    have := hl.box p hp
    omega
  exact ⟨m', by rw [e, if_neg (by decide), e']; rfl, d.paint hc⟩

/-- A dotted line sets the pixels around some of the pixels of such a path. -/
theorem line_dotted_partial {m : Img} (wf : Ok m) {s : Dots} (hs : DotsOk s) {x0 y0 x1 y1 t d1 d2 : Int} (hx0 : -134217728 ≤ x0 ∧ x0 ≤ 134217728) (hy0 : -134217728 ≤ y0 ∧ y0 ≤ 134217728)
    (hx1 : -134217728 ≤ x1 ∧ x1 ≤ 134217728) (hy1 : -134217728 ≤ y1 ∧ y1 ≤ 134217728) (ht : t ≤ 32767) (hd : 0 ≤ d1 ∧ 0 ≤ d2 ∧ d1 + d2 < 2147483648) {c : Color} (hc : Plain m.fmt c) :
    ∃ s' m', ∃ l l' : List (Int × Int), line s m x0 y0 x1 y1 t d1 d2 c = some (s', m') ∧ LinePath x0 y0 x1 y1 l ∧ l'.Sublist l ∧ DotsOk s' ∧ Painted m m' (Wrap fun i j => ∃ p ∈ l', InPen t p.1 p.2 i j) fun _ _ => c := by
  obtain ⟨s', m', l, l', e, hl, hsub, -, d, h⟩ := line_drawn wf hs hx0 hy0 hx1 hy1 ht hd c
  exact ⟨s', m', l, l', e, hl, hsub, h, d.paint hc⟩

/-- A triangle that is not filled sets exactly the pixels of the three lines between its corners, with the pen of the given thickness. -/
theorem triangle_outline_partial {x0 y0 x1 y1 x2 y2 : Int} (hx0 : -134217728 ≤ x0 ∧ x0 ≤ 134217728) (hy0 : -134217728 ≤ y0 ∧ y0 ≤ 134217728) (hx1 : -134217728 ≤ x1 ∧ x1 ≤ 134217728) (hy1 : -134217728 ≤ y1 ∧ y1 ≤ 134217728)
    (hx2 : -134217728 ≤ x2 ∧ x2 ≤ 134217728) (hy2 : -134217728 ≤ y2 ∧ y2 ≤ 134217728) : ∃ a b e, LinePath x0 y0 x1 y1 a ∧ LinePath x1 y1 x2 y2 b ∧ LinePath x2 y2 x0 y0 e ∧
      ∀ (s : Dots) (m : Img) (t d2 : Int) (c : Color), Ok m → t ≤ 32767 → Plain m.fmt c →
      ∃ m', triangle s m x0 y0 x1 y1 x2 y2 false t 0 d2 c = some (s, m') ∧ Painted m m' (Wrap fun i j => ∃ p, (p ∈ a ∨ p ∈ b ∨ p ∈ e) ∧ InPen t p.1 p.2 i j) fun _ _ => c := by
  obtain ⟨a, ha, fa⟩ := line_spec hx0 hy0 hx1 hy1
  obtain ⟨b, hb, fb⟩ := line_spec hx1 hy1 hx2 hy2
  obtain ⟨e, he, fe⟩ := line_spec hx2 hy2 hx0 hy0
  refine ⟨a, b, e, ha, hb, he, fun s m t d2 c wf ht hc => ?_⟩
  obtain ⟨m1, e1, d1⟩ := foldPen_drawn ht c a m wf fun p hp => by
    have := ha.box p hp
    omega
  have w1 := d1.same.ok wf
  obtain ⟨m2, e2, d2'⟩ := foldPen_drawn ht c b m1 w1 fun p hp => by
    have := hb.box p hp
    omega
  obtain ⟨m3, e3, d3⟩ := foldPen_drawn ht c e m2 (d2'.same.ok w1) fun p hp => by
    have := he.box p hp
    omega
  refine ⟨m3, ?_, (((d1.trans d2').trans d3).congr fun i j => ?_).paint hc⟩
  · rw [triangle, if_neg (by decide), fa, if_neg (by decide), e1]
    simp only [Option.map_some, Option.bind_some]
    rw [fb, if_neg (by decide), e2]
    simp only [Option.map_some, Option.bind_some]
    rw [fe, if_neg (by decide), e3]
    rfl
  · constructor
    · rintro ((⟨p, hp, h⟩ | ⟨p, hp, h⟩) | ⟨p, hp, h⟩)
      · exact ⟨p, .inl hp, h⟩
      · exact ⟨p, .inr (.inl hp), h⟩
      · exact ⟨p, .inr (.inr hp), h⟩
    · rintro ⟨p, hp | hp | hp, h⟩
      · exact .inl (.inl ⟨p, hp, h⟩)
      · exact .inl (.inr ⟨p, hp, h⟩)
      · exact .inr ⟨p, hp, h⟩

example : ∃ l, LinePath 1 4 6 (-2) l ∧ ∀ (s : Dots) (m : Img) (t d2 : Int) (c : Color), Ok m → t ≤ 1 → Plain m.fmt c → Near m 1 4 → Near m 6 (-2) →
    ∃ m', line s m 1 4 6 (-2) t 0 d2 c = some (s, m') ∧ Painted m m' (fun i j => (i, j) ∈ l) fun _ _ => c :=
  line_partial (by decide) (by decide) (by decide) (by decide)

example : ∃ s' m', ∃ l l' : List (Int × Int), line ⟨0, 0, 0⟩ sample 1 4 6 (-2) 2 1 2 3 = some (s', m') ∧ LinePath 1 4 6 (-2) l ∧ l'.Sublist l ∧ DotsOk s' ∧ Painted sample m' (Wrap fun i j => ∃ p ∈ l', InPen 2 p.1 p.2 i j) fun _ _ => 3 :=
  line_dotted_partial sample_ok (by constructor <;> decide) (by decide) (by decide) (by decide) (by decide) (by decide) (by decide) (plain2 (by decide))

example : ¬ Flat 1 4 6 (-2) ∧ Flat 0 0 2 1 := by unfold Flat; decide

/-- The full claim fails: the line from (0, 0) to (2, 1) misses its end, and backwards it misses the other one. -/
theorem line_misses_end : (line ⟨0, 0, 0⟩ ⟨4, 2, 1, [0]⟩ 0 0 2 1 0 0 0 1).map (·.2.data) = some [0b10000100] ∧ (line ⟨0, 0, 0⟩ ⟨4, 2, 1, [0]⟩ 2 1 0 0 0 0 0 1).map (·.2.data) = some [0b01000010] := by decide +kernel

/-! ## C80: copying an image into another one -/

/-- `img-blit` without rotation and scaling sets exactly the pixels of the overlap whose source pixel is not of the transparent colour, to the colour of the source pixel. -/
theorem blit_partial {m src : Img} (wf : Ok m) (ws : Ok src) {x y : Int} (hx : -1073741824 ≤ x ∧ x ≤ 1073741824) (hy : -1073741824 ≤ y ∧ y ≤ 1073741824) (tr : Color)
    (hp : ∀ i j, Copied src x y tr i j → Plain m.fmt (srcCol src x y i j)) : ∃ m', blit m src x y tr = some m' ∧ Painted m m' (Copied src x y tr) (srcCol src x y) := by
  obtain ⟨m', e, -, h⟩ := blit_drawn wf ws hx hy tr
  exact ⟨m', e, h hp⟩

/-- If both images have the same format, other than `rgb565`, then the bits of the pixels are copied as they are. -/
theorem blit_same_partial {m src : Img} (wf : Ok m) (ws : Ok src) (hf : src.fmt = m.fmt) (h16 : m.fmt ≠ 16) {x y : Int} (hx : -1073741824 ≤ x ∧ x ≤ 1073741824) (hy : -1073741824 ≤ y ∧ y ≤ 1073741824) (tr : Color) :
    ∃ m', blit m src x y tr = some m' ∧ SameDims m m' ∧
      (∀ a b k : Nat, a < src.w → b < src.h → ∀ i j : Nat, i < m.w → j < m.h → (i : Int) = x + a → (j : Int) = y + b → k < m.fmt → getpixel src a b ≠ some tr → pix m' i j k = pix src a b k) ∧
      ∀ i j k : Nat, i < m.w → j < m.h → k < m.fmt → (∀ a b : Nat, a < src.w → b < src.h → (i : Int) = x + a → (j : Int) = y + b → getpixel src a b = some tr) → pix m' i j k = pix m i j k := by
  have hcol : ∀ i j : Int, 0 ≤ i - x → i - x < src.w → 0 ≤ j - y → j - y < src.h → ∃ a b : Nat, i - x = a ∧ j - y = b ∧ a < src.w ∧ b < src.h ∧ getpixel src a b = some (srcCol src x y i j) ∧
      ∀ n, (srcCol src x y i j).getLsbD n = decBit src.fmt (pix src a b) n := by
    intro i j h1 h2 h3 h4
    obtain ⟨a, ha⟩ := Int.eq_ofNat_of_zero_le h1
    obtain ⟨b, hb⟩ := Int.eq_ofNat_of_zero_le h3
    obtain ⟨c, ec, hc⟩ := getpixel_spec ws (i := a) (j := b) (by omega) (by omega)
    have : srcCol src x y i j = c := by rw [srcCol, ha, hb, ec]; rfl
    exact ⟨a, b, ha, hb, by omega, by omega, by rw [this]; exact ec, by rw [this]; exact hc⟩
  obtain ⟨m', e, p⟩ := blit_partial wf ws hx hy tr fun i j h => by
    obtain ⟨h1, h2, h3, h4, -⟩ := h
    obtain ⟨a, b, -, -, -, -, -, hc⟩ := hcol i j h1 h2 h3 h4
    rw [← hf]
    exact plain_dec (by rw [hf]; exact h16) hc
  refine ⟨m', e, p.same, ?_, ?_⟩
  · intro a b k ha hb i j hi hj hia hjb hk hne
    obtain ⟨a', b', e1, e2, -, -, hg, hc⟩ := hcol i j (by omega) (by omega) (by omega) (by omega)
    have ea : a' = a := by omega
    have eb : b' = b := by omega
    subst ea eb
    rw [p.set i j k hi hj hk ⟨by omega, by omega, by omega, by omega, fun h => hne (by rw [hg, h])⟩, ← hf]
    exact enc_dec ws.fmt hc (by rw [hf]; exact hk)
  · intro i j k hi hj hk h
    have := p.keep ((j * m.w + i) * m.fmt + k) fun i' j' k' hi' hj' hk' hs he => by
      obtain ⟨e1, e2, -⟩ := addr_inj hi hi' hk hk' he
      subst e1 e2
      obtain ⟨h1, h2, h3, h4, h5⟩ := hs
      obtain ⟨a', b', f1, f2, f3, f4, hg, hc⟩ := hcol i j h1 h2 h3 h4
      have := h a' b' f3 f4 (by omega) (by omega)
      rw [this] at hg
      exact h5 (Option.some.inj hg).symm
    simpa only [pix, p.w, p.fmt] using this

/-- An image of 3 times 2 pixels. -/
def stamp : Img := ⟨3, 2, 2, [0x1B, 0x1B]⟩

theorem stamp_ok : Ok stamp := ⟨by decide, by decide, by decide, by decide⟩

example : ∃ m', blit sample stamp (-1) 4 0xFFFFFFFF = some m' ∧ SameDims sample m' ∧
    (∀ a b k : Nat, a < stamp.w → b < stamp.h → ∀ i j : Nat, i < sample.w → j < sample.h → (i : Int) = -1 + a → (j : Int) = 4 + b → k < sample.fmt → getpixel stamp a b ≠ some 0xFFFFFFFF → pix m' i j k = pix stamp a b k) ∧
    ∀ i j k : Nat, i < sample.w → j < sample.h → k < sample.fmt → (∀ a b : Nat, a < stamp.w → b < stamp.h → (i : Int) = -1 + a → (j : Int) = 4 + b → getpixel stamp a b = some 0xFFFFFFFF) → pix m' i j k = pix sample i j k :=
  blit_same_partial sample_ok stamp_ok rfl (by decide) (by decide) (by decide) _

/-- The full claim fails for `rgb565`: a red image is copied as a black one. -/
theorem blit_red_lost : (blit ⟨1, 1, 16, [0, 0]⟩ ⟨1, 1, 16, [0xF8, 0]⟩ 0 0 0xFFFFFFFF).map (·.data) = some [0, 0] ∧ getpixel ⟨1, 1, 16, [0xF8, 0]⟩ 0 0 = some 0xF80000 := by decide +kernel

/-! ## C81: circles -/

/-- The outline of a circle: exactly the pixels off the diagonals that are less than half a pixel away from the circle. A filled circle has the pixels of the disk in addition. -/
theorem circle_partial {m : Img} (wf : Ok m) {x y r : Int} (hx : -1073741824 ≤ x ∧ x ≤ 1073741824) (hy : -1073741824 ≤ y ∧ y ≤ 1073741824) (hr : 0 ≤ r ∧ r ≤ 32767) (fill : Bool) {t : Int} (ht : t ≤ 0) {c : Color} (hc : Plain m.fmt c) :
    ∃ m', circle m x y r fill t c = some m' ∧ Painted m m' (Wrap fun i j => (fill = true ∧ InDisk x y r i j) ∨ OnCircle x y r i j) fun _ _ => c := by
  obtain ⟨m', e, d⟩ := circle_drawn wf hx hy hr fill ht c
  exact ⟨m', e, d.paint hc⟩

example : ∃ m', circle sample 3 2 2 false 0 3 = some m' ∧ Painted sample m' (Wrap fun i j => (false = true ∧ InDisk 3 2 2 i j) ∨ OnCircle 3 2 2 i j) fun _ _ => 3 :=
  circle_partial sample_ok (by decide) (by decide) (by decide) false (by decide) (plain2 (by decide))

/-- The full claim fails: a filled circle with radius 1 is not symmetric about its centre. The pixel to the lower left of the centre is not set, the one to the upper left is. -/
theorem circle_crooked : (circle ⟨3, 3, 8, List.replicate 9 0⟩ 1 1 1 true 0 0xFFFFFF).map (·.data) = some [0xFF, 0xFF, 0, 0xFF, 0xFF, 0xFF, 0, 0xFF, 0] := by decide +kernel

/-- The outline of a circle has holes at its diagonals: from the centre of a circle with radius 3 there is a way to the outside that goes from pixel to pixel, left, right, up or down, and over no pixel of the outline. -/
theorem circle_leaks : ∃ l : List (Int × Int), l.head? = some (0, 0) ∧ l.getLast? = some (4, 2) ∧ (∀ p ∈ l, ¬ OnCircle 0 0 3 p.1 p.2) ∧
    ∀ n p q, l[n]? = some p → l[n + 1]? = some q → (p.1 - q.1).natAbs + (p.2 - q.2).natAbs = 1 := by
  refine ⟨[(0, 0), (1, 0), (1, 1), (2, 1), (2, 2), (3, 2), (4, 2)], rfl, rfl, ?_, ?_⟩
  · intro p hp
    simp only [List.mem_cons, List.not_mem_nil, or_false] at hp
    rcases hp with rfl | rfl | rfl | rfl | rfl | rfl | rfl <;> unfold OnCircle <;> decide
  · intro n p q h1 h2
    match n with
    | 0 | 1 | 2 | 3 | 4 | 5 => simp at h1 h2; subst h1 h2; decide
    | n + 6 => simp at h2

/-- A thick circle is exactly the ring between the circle of its radius and the one that is smaller by the thickness. -/
theorem circle_thick_partial {m : Img} (wf : Ok m) {x y r t : Int} (hx : -1073741824 ≤ x ∧ x ≤ 1073741824) (hy : -1073741824 ≤ y ∧ y ≤ 1073741824) (hr : 0 ≤ r ∧ r ≤ 2001) (fill : Bool) (ht : 0 < t ∧ t ≤ 16383) {c : Color}
    (hc : Plain m.fmt c) :
    ∃ m', circle m x y r fill t c = some m' ∧ Painted m m' (Wrap fun i j => (fill = true ∧ InDisk x y r i j) ∨ InRing x y r t i j) fun _ _ => c := by
  obtain ⟨m', S, e, d, -, ex⟩ := circle_thick wf hx hy ⟨hr.1, by omega⟩ fill ht c
  exact ⟨m', e, (d.congr (ex hr.2)).paint hc⟩

example : ∃ m', circle sample 3 2 4 false 2 3 = some m' ∧ Painted sample m' (Wrap fun i j => (false = true ∧ InDisk 3 2 4 i j) ∨ InRing 3 2 4 2 i j) fun _ _ => 3 :=
  circle_thick_partial sample_ok (by decide) (by decide) (by decide) false (by decide) (plain2 (by decide))

example : InRing 3 2 4 2 0 2 ∧ ¬ InRing 3 2 4 2 3 2 ∧ ¬ InRing 3 2 4 2 0 6 := by unfold InRing; decide

/-- The full claim fails: the inner end of a row is only searched for up to 2000 pixels from the centre, so that every larger ring is hollow. The second pixel of its middle row belongs to the ring and keeps its colour. -/
theorem circle_thick_violated {m : Img} (wf : Ok m) {x y r t : Int} (hr : 2002 ≤ r ∧ r ≤ 16383) (ht : 2 ≤ t ∧ t < r) (hx : 0 ≤ x - r + 1 ∧ x - r + 1 < m.w ∧ x + r ≤ 65536) (hy : 0 ≤ y ∧ y < m.h ∧ y + r ≤ 65536)
    (hw : m.w + r ≤ 65536 + x) (hh : m.h + r ≤ 65536 + y) {c : Color} (hc : Plain m.fmt c) :
    ∃ m', circle m x y r false t c = some m' ∧ InRing x y r t (x - r + 1) y ∧ ∀ k, k < m.fmt → pix m' (x - r + 1).toNat y.toNat k = pix m (x - r + 1).toNat y.toNat k := by
  obtain ⟨m', S, e, d, b, hS⟩ := circleThick_hollow wf (x := x) (y := y) (r := r) (t := t) (by omega) (by omega) hr ⟨by omega, ht.2⟩ c
  refine ⟨m', ?_, ?_, fun k hk => ?_⟩
  · unfold circle
    rw [if_neg (by decide), Option.bind_some, if_neg (by omega), e]
  · unfold InRing
    have e1 : 2 * (x - r + 1 - x) + 1 = -(2 * r - 3) := by omega
    have e2 : (2 * (y - y) + 1) * (2 * (y - y) + 1) = 1 := by rw [Int.sub_self]; rfl
    rw [e1, Int.neg_mul_neg, e2, sq_3]
    refine ⟨by omega, by omega, fun h => ?_⟩
    have h2 := sq_le (a := r - t) (b := r - 2) (by omega) (by omega)
    have h3 : 4 * ((r - 2) * (r - 2)) = 4 * (r * r) - 16 * r + 16 := by grind
    omega
  · have hp := (d.paint hc).near fun i j h => by
      have := b i j h
      unfold Near
      omega
    unfold pix
    rw [hp.w, hp.fmt]
    refine hp.keep _ fun i j k' hi hj hk' hs' he => hS ?_
    obtain ⟨h1, h2, -⟩ := addr_inj (show (x - r + 1).toNat < m.w by omega) hi hk hk' he
    have h3 : (i : Int) = x - r + 1 := by omega
    have h4 : (j : Int) = y := by omega
    rwa [h3, h4] at hs'

example : ∃ m', circle ⟨2, 1, 8, [0, 0]⟩ 2010 0 2010 false 2 0xFFFFFF = some m' ∧ InRing 2010 0 2010 2 1 0 ∧ ∀ k, k < 8 → pix m' 1 0 k = pix ⟨2, 1, 8, [0, 0]⟩ 1 0 k :=
  circle_thick_violated ⟨by decide, by decide, by decide, by decide⟩ (by decide) (by decide) (by decide) (by decide) (by decide) (by decide) ⟨fun h => absurd h (by decide), fun h => absurd h (by decide), fun h => absurd h (by decide)⟩

/-! ## C112: rectangles with round corners -/

/-- A filled rectangle with round corners is the rectangle without what is outside of the disks of its corners. -/
theorem rounded_partial {m : Img} (wf : Ok m) (s : Dots) {x y w h rad : Int} (hx : -268435456 ≤ x ∧ x ≤ 268435456) (hy : -268435456 ≤ y ∧ y ≤ 268435456) (hw : 2 * rad ≤ w ∧ w ≤ 268435456) (hh : 2 * rad ≤ h ∧ h ≤ 268435456)
    (hr : 0 ≤ rad ∧ rad ≤ 4) {c : Color} (hc : Plain m.fmt c) :
    ∃ m', roundedRect s m x y w h rad c = some (s, m') ∧ Painted m m' (Wrap (InRounded x y w h rad)) fun _ _ => c := by
  obtain ⟨m', e, d⟩ := roundedRect_drawn wf s (rad := rad) hx hy ⟨by omega, hw.2⟩ ⟨by omega, hh.2⟩ ⟨by omega, by omega⟩ c
  refine ⟨m', e, (d.congr (S' := InRounded x y w h rad) fun i j => ?_).paint hc⟩
  have hb : ∀ a b, InDisk a b rad i j → -rad ≤ i - a ∧ i - a < rad ∧ -rad ≤ j - b ∧ j - b < rad := by
    intro a b h
    have h2 := h.2
    rw [if_pos hr.2] at h2
    have hr4 : (2 * rad) * (2 * rad) = 4 * (rad * rad) := by grind
    have g1 := sq_nonneg (2 * (i - a) + 1)
    have g2 := sq_nonneg (2 * (j - b) + 1)
    have b1 := sq_bound (z := 2 * (i - a) + 1) (n := 2 * rad) (by omega) (by omega)
    have b2 := sq_bound (z := 2 * (j - b) + 1) (n := 2 * rad) (by omega) (by omega)
    omega
  have mono : ∀ a b a' b', InDisk a b rad i j → (2 * (i - a') + 1).natAbs ≤ (2 * (i - a) + 1).natAbs → (2 * (j - b') + 1).natAbs ≤ (2 * (j - b) + 1).natAbs → InDisk a' b' rad i j := by
    intro a b a' b' h h1 h2
    refine ⟨hr.1, ?_⟩
    have h3 := h.2
    rw [if_pos hr.2] at h3 ⊢
    have g1 := Int.natAbs_mul_self (a := 2 * (i - a') + 1)
    have g2 := Int.natAbs_mul_self (a := 2 * (i - a) + 1)
    have g3 := Int.natAbs_mul_self (a := 2 * (j - b') + 1)
    have g4 := Int.natAbs_mul_self (a := 2 * (j - b) + 1)
    have q1 := Nat.mul_le_mul h1 h1
    have q2 := Nat.mul_le_mul h2 h2
    omega
  have h1 := hb (x + rad) (y + rad)
  have h2 := hb (x + rad) (y + h - rad)
  have h3 := hb (x + w - rad) (y + rad)
  have h4 := hb (x + w - rad) (y + h - rad)
  unfold InRounded
  constructor
  · rintro ((((((h | h) | h) | g) | g) | g) | g)
    · exact ⟨by omega, by omega, by omega, by omega, fun _ _ => by omega, fun _ _ => by omega, fun _ _ => by omega, fun _ _ => by omega⟩
    · exact ⟨by omega, by omega, by omega, by omega, fun _ _ => by omega, fun _ _ => by omega, fun _ _ => by omega, fun _ _ => by omega⟩
    · exact ⟨by omega, by omega, by omega, by omega, fun _ _ => by omega, fun _ _ => by omega, fun _ _ => by omega, fun _ _ => by omega⟩
    · have := h1 g; exact ⟨by omega, by omega, by omega, by omega, fun _ _ => mono _ _ _ _ g (by omega) (by omega), fun _ _ => mono _ _ _ _ g (by omega) (by omega), fun _ _ => mono _ _ _ _ g (by omega) (by omega), fun _ _ => mono _ _ _ _ g (by omega) (by omega)⟩
    · have := h2 g; exact ⟨by omega, by omega, by omega, by omega, fun _ _ => mono _ _ _ _ g (by omega) (by omega), fun _ _ => mono _ _ _ _ g (by omega) (by omega), fun _ _ => mono _ _ _ _ g (by omega) (by omega), fun _ _ => mono _ _ _ _ g (by omega) (by omega)⟩
    · have := h3 g; exact ⟨by omega, by omega, by omega, by omega, fun _ _ => mono _ _ _ _ g (by omega) (by omega), fun _ _ => mono _ _ _ _ g (by omega) (by omega), fun _ _ => mono _ _ _ _ g (by omega) (by omega), fun _ _ => mono _ _ _ _ g (by omega) (by omega)⟩
    · have := h4 g; exact ⟨by omega, by omega, by omega, by omega, fun _ _ => mono _ _ _ _ g (by omega) (by omega), fun _ _ => mono _ _ _ _ g (by omega) (by omega), fun _ _ => mono _ _ _ _ g (by omega) (by omega), fun _ _ => mono _ _ _ _ g (by omega) (by omega)⟩
  · rintro ⟨a1, a2, a3, a4, k1, k2, k3, k4⟩
    by_cases q1 : i < x + rad <;> by_cases q2 : x + w - rad ≤ i <;> by_cases q3 : j < y + rad <;> by_cases q4 : y + h - rad ≤ j
    all_goals first
      | omega
      | exact .inl (.inl (.inl (.inr (k1 q1 q3))))
      | exact .inl (.inl (.inr (k2 q1 q4)))
      | exact .inl (.inr (k3 q2 q3))
      | exact .inr (k4 q2 q4)
      | exact .inl (.inl (.inl (.inl (by omega))))

example : ∃ m', roundedRect ⟨0, 0, 0⟩ sample 1 0 5 4 2 3 = some (⟨0, 0, 0⟩, m') ∧ Painted sample m' (Wrap (InRounded 1 0 5 4 2)) fun _ _ => 3 :=
  rounded_partial sample_ok _ (by decide) (by decide) (by decide) (by decide) (by decide) (plain2 (by decide))

example : InRounded 1 0 5 4 2 2 0 ∧ ¬ InRounded 1 0 5 4 2 1 0 := by simp [InRounded, InDisk]

/-- The full claim fails for radii above 4: a rectangle of ten times ten pixels with round corners of radius 5 has a pixel in the eleventh column, which a rectangle without round corners does not have. -/
theorem rounded_larger : ((roundedRect ⟨0, 0, 0⟩ ⟨11, 11, 8, List.replicate 121 0⟩ 0 0 10 10 5 0xFFFFFF).bind fun r => r.2.data[5 * 11 + 10]?) = some 0xFF ∧
    ((rectangle ⟨0, 0, 0⟩ ⟨11, 11, 8, List.replicate 121 0⟩ 0 0 10 10 true 0 0 0 0xFFFFFF).bind fun r => r.2.data[5 * 11 + 10]?) = some 0 := by decide +kernel

/-- Whatever the radius is, a rectangle with round corners reaches at most one column and one row further than the rectangle. -/
theorem rounded_bound {m : Img} (wf : Ok m) (s : Dots) {x y w h rad : Int} (hx : -268435456 ≤ x ∧ x ≤ 268435456) (hy : -268435456 ≤ y ∧ y ≤ 268435456) (hw : 2 * rad ≤ w ∧ w ≤ 268435456) (hh : 2 * rad ≤ h ∧ h ≤ 268435456)
    (hr : 0 ≤ rad ∧ rad ≤ 32767) {c : Color} (hc : Plain m.fmt c) :
    ∃ m' S, roundedRect s m x y w h rad c = some (s, m') ∧ Painted m m' (Wrap S) (fun _ _ => c) ∧ (∀ i j, S i j → x ≤ i ∧ i ≤ x + w ∧ y ≤ j ∧ j ≤ y + h) ∧
      ∀ i j, x ≤ i → i < x + w → y ≤ j → j < y + h → (x + rad ≤ i ∧ i < x + w - rad ∨ y + rad ≤ j ∧ j < y + h - rad) → S i j := by
  obtain ⟨m', e, d⟩ := roundedRect_drawn wf s (rad := rad) hx hy ⟨by omega, hw.2⟩ ⟨by omega, hh.2⟩ ⟨by omega, hr.2⟩ c
  refine ⟨m', _, e, d.paint hc, fun i j g => ?_, fun i j g1 g2 g3 g4 g5 => .inl (.inl (.inl (.inl (by omega))))⟩
  have hb : ∀ a b, InDisk a b rad i j → -rad ≤ i - a ∧ i - a ≤ rad ∧ -rad ≤ j - b ∧ j - b ≤ rad := by
    intro a b h
    have h2 := h.2
    by_cases hs : rad ≤ 4
    · rw [if_pos hs] at h2
      have hr4 : (2 * rad) * (2 * rad) = 4 * (rad * rad) := by grind
      have g1 := sq_nonneg (2 * (i - a) + 1)
      have g2 := sq_nonneg (2 * (j - b) + 1)
      have b1 := sq_bound (z := 2 * (i - a) + 1) (n := 2 * rad) (by omega) (by omega)
      have b2 := sq_bound (z := 2 * (j - b) + 1) (n := 2 * rad) (by omega) (by omega)
      omega
    · rw [if_neg hs] at h2
      have g1 := sq_nonneg (i - a)
      have g2 := sq_nonneg (j - b)
      have b1 := sq_bound (z := i - a) (n := rad) (by omega) (by omega)
      have b2 := sq_bound (z := j - b) (n := rad) (by omega) (by omega)
      omega
  rcases g with (((((g | g) | g) | g) | g) | g) | g
  · omega
  · omega
  · omega
  · have := hb _ _ g; omega
  · have := hb _ _ g; omega
  · have := hb _ _ g; omega
  · have := hb _ _ g; omega

/-! ## C82: the outline of a rectangle -/

/-- The outline of a rectangle has `w + 1` columns and `h + 1` rows, and its last corner is missing. -/
theorem rectangle_outline_partial {m : Img} (wf : Ok m) (s : Dots) {x y w h t : Int} (hx : -1073741824 ≤ x ∧ x ≤ 1073741824) (hy : -1073741824 ≤ y ∧ y ≤ 1073741824)
    (hw : 0 < w ∧ w ≤ 1073741823) (hh : 0 < h ∧ h ≤ 1073741823) (ht : t ≤ 1) (d2 : Int) {c : Color} (hc : Plain m.fmt c) :
    ∃ m', rectangle s m x y w h false t 0 d2 c = some (s, m') ∧
      Painted m m' (Wrap fun i j => x ≤ i ∧ i ≤ x + w ∧ y ≤ j ∧ j ≤ y + h ∧ (i = x ∨ i = x + w ∨ j = y ∨ j = y + h) ∧ ¬ (i = x + w ∧ j = y + h)) fun _ _ => c := by
  obtain ⟨m', e, d⟩ := rectangle_thin wf s hx hy ⟨by omega, hw.2⟩ ⟨by omega, hh.2⟩ ht d2 c
  exact ⟨m', e, (d.congr (S' := fun i j => x ≤ i ∧ i ≤ x + w ∧ y ≤ j ∧ j ≤ y + h ∧ (i = x ∨ i = x + w ∨ j = y ∨ j = y + h) ∧ ¬ (i = x + w ∧ j = y + h)) fun i j => by omega).paint hc⟩

example : ∃ m', rectangle ⟨0, 0, 0⟩ sample 1 1 3 2 false 1 0 0 3 = some (⟨0, 0, 0⟩, m') ∧
    Painted sample m' (Wrap fun i j => 1 ≤ i ∧ i ≤ 1 + 3 ∧ 1 ≤ j ∧ j ≤ 1 + 2 ∧ (i = 1 ∨ i = 1 + 3 ∨ j = 1 ∨ j = 1 + 2) ∧ ¬ (i = 1 + 3 ∧ j = 1 + 2)) fun _ _ => 3 :=
  rectangle_outline_partial sample_ok _ (by decide) (by decide) (by decide) (by decide) (by decide) 0 (plain2 (by decide))

/-- The full claim, that the outline is the border of the filled rectangle, fails: in an image of three times three pixels the filled rectangle of two times two pixels covers four pixels, its outline reaches outside of them. -/
theorem rectangle_outline_larger : (rectangle ⟨0, 0, 0⟩ ⟨3, 3, 8, List.replicate 9 0⟩ 0 0 2 2 true 0 0 0 0xFFFFFF).map (·.2.data) = some [0xFF, 0xFF, 0, 0xFF, 0xFF, 0, 0, 0, 0] ∧
    (rectangle ⟨0, 0, 0⟩ ⟨3, 3, 8, List.replicate 9 0⟩ 0 0 2 2 false 0 0 0 0xFFFFFF).map (·.2.data) = some [0xFF, 0xFF, 0xFF, 0xFF, 0, 0xFF, 0xFF, 0xFF, 0] := by decide +kernel

/-! ## C83: text -/

/-- A text sets exactly the pixels of its characters, which stand next to each other in the direction of the text, to the colours that the font and the arguments give them. -/
theorem text_partial {m : Img} (wf : Ok m) {f : Font} {a : List Byte} (hf : f.In a) (ha : 254 ≤ a.length) (cs : Nat → Color) (txt : List Byte) {x y : Int} (up down : Bool)
    (hx : -536870912 ≤ x ∧ x ≤ 536870912) (hy : -536870912 ≤ y ∧ y ≤ 536870912) (hl : txt.length ≤ 2097152)
    (hn : ∀ i j, 0 ≤ col x y up down i j → col x y up down i j < txt.length * f.w → 0 ≤ row x y up down i j → row x y up down i j < f.h → Near m i j)
    (hc : ∀ i j, OnText f cs txt x y up down i j → Plain m.fmt (textCol f cs txt x y up down i j)) :
    ∃ m', text m x y cs a txt up down = some (some m') ∧ Painted m m' (OnText f cs txt x y up down) (textCol f cs txt x y up down) := by
  obtain ⟨m', e, d⟩ := textLoop_drawn hf cs txt (x := x) (y := y) (up := up) (down := down) hx hy hl hn txt 0 m rfl (by omega) wf (.refl m)
  have hsm := hf.small
  have hwt : (BitVec.ofNat 8 f.w).toNat = f.w := by rw [BitVec.toNat_ofNat]; omega
  have hht : (BitVec.ofNat 8 f.h).toNat = f.h := by rw [BitVec.toNat_ofNat]; omega
  refine ⟨m', ?_, (d.congr (S' := OnText f cs txt x y up down) fun i j => ?_).paint hc⟩
  · have ha' := ha
    rw [hf.head] at ha' e ⊢
    simp only [text, hwt, hht]
    rw [if_neg (by omega), e]
    rfl
  · constructor
    · exact fun h => h.2
    · intro h
      refine ⟨?_, h⟩
      rcases Int.lt_or_le (col x y up down i j) 0 with hneg | hpos
      · rw [OnText, Font.at, if_neg (by omega)] at h
        simp at h
      · simpa using hpos

/-- A font of ten characters of 5 times 5 pixels, all of them black on white squares. -/
def sampleFont : Font := ⟨5, 5, 10, 1, List.replicate 250 0x0F#8⟩

example : ∃ m', text sample 1 1 (fun n => if n = 0 then 3 else 1) (BitVec.ofNat 8 5 :: BitVec.ofNat 8 5 :: BitVec.ofNat 8 10 :: BitVec.ofNat 8 1 :: List.replicate 250 0x0F#8) [0x31, 0x41, 0x32] false false = some (some m') ∧
    Painted sample m' (OnText sampleFont (fun n => if n = 0 then 3 else 1) [0x31, 0x41, 0x32] 1 1 false false) (textCol sampleFont (fun n => if n = 0 then 3 else 1) [0x31, 0x41, 0x32] 1 1 false false) := by
  refine text_partial sample_ok (f := sampleFont) ⟨rfl, by decide, by decide, by decide +kernel⟩ (by decide +kernel) _ _ false false (by decide) (by decide) (by decide) ?_ ?_
  · intro i j h1 h2 h3 h4
    have hw : (sampleFont.w : Int) = 5 := rfl
    have hh : (sampleFont.h : Int) = 5 := rfl
    have hlen : (([0x31, 0x41, 0x32] : List Byte).length : Int) = 3 := rfl
    rw [hlen, hw] at h2
    rw [hh] at h4
    simp only [col, row, Bool.false_eq_true, if_false] at h1 h2 h3 h4
    have h5 : ((7 : Nat) : Int) - 65536 ≤ i ∧ i < 65536 ∧ ((5 : Nat) : Int) - 65536 ≤ j ∧ j < 65536 := by omega
    exact h5
  · intro i j h
    refine plain2 ?_
    unfold OnText at h
    unfold textCol
    cases e : sampleFont.at (fun n => if n = 0 then 3 else 1) [0x31, 0x41, 0x32] (col 1 1 false false i j) (row 1 1 false false i j) with
    | none => rw [e] at h; cases h
    | some c =>
      unfold Font.at at e
      split at e
      · split at e
        · split at e
          · unfold Font.colour at e
            split at e
            · rename_i hb; exact absurd hb (by decide)
            · split at e
              · cases e; decide
              · split at e
                · cases e; decide
                · cases e
          · cases e
        · cases e
      · cases e

example : (sampleFont.at (fun n => if n = 0 then 3 else 1) [0x31, 0x41, 0x32] 12 2) = some 1 ∧ (sampleFont.at (fun n => if n = 0 then 3 else 1) [0x31, 0x41, 0x32] 11 0) = some 3 ∧ (sampleFont.at (fun n => if n = 0 then 3 else 1) [0x31, 0x41, 0x32] 6 2) = none := by decide +kernel

/-- The full claim fails: an array that announces more characters than it contains is read behind its end. -/
theorem text_font_overrun : text ⟨8, 8, 1, List.replicate 8 0⟩ 0 0 (fun _ => 1) ([16, 16, 95, 1] ++ List.replicate 250 0) [0x7E] false false = none := by decide +kernel

/-- An array of zeros is accepted as a font, and then a number is divided by zero. -/
theorem text_font_zero : text ⟨8, 8, 1, List.replicate 8 0⟩ 0 0 (fun _ => 1) (List.replicate 254 0) [0x30] false false = none := by decide +kernel

/-! ## C84: gradients -/

/-- Every colour of a gradient lies between its two colours. It begins at the offset with the first colour and comes nearer to the second one on its width, where a mirrored one reaches it; from there on it repeats itself with its width, or its doubled width if it is mirrored. -/
theorem gradient_partial {t : ColorType} (ht : t = .gradX ∨ t = .gradY) (c1 c2 : Color) {w o : Nat} (hw : 0 < w ∧ w < 65536) (ho : o < 65536) (mirrored : Bool) (junk : List Color) :
    ∃ c, makeColor t c1 c2 w o mirrored junk = some c ∧
      (∀ x y, -8000000 ≤ axis t x y ∧ axis t x y ≤ 8000000 → ∃ r, toRgb c x y = some r ∧ Between c1 c2 r) ∧
      (∀ x y, axis t x y = o → toRgb c x y = some c1) ∧
      (mirrored = true → ∀ x y, axis t x y = o + w → toRgb c x y = some c2) ∧
      (∀ x y x' y' r r', o ≤ axis t x y → axis t x y ≤ axis t x' y' → axis t x' y' < o + w → toRgb c x y = some r → toRgb c x' y' = some r' → Nearer c1 c2 r r') ∧
      ∀ x y x' y', o ≤ axis t x y → axis t x y ≤ 6000000 → axis t x' y' = axis t x y + (if mirrored then 2 * w else w : Nat) → toRgb c x' y' = toRgb c x y := by
  have hu : u16 w = w := u16_nat hw.2
  have huo : u16 o = o := u16_nat ho
  obtain ⟨c, ec, hrgb⟩ : ∃ c, makeColor t c1 c2 w o mirrored junk = some c ∧ ∀ x y, toRgb c x y = gradAt c1 c2 w o mirrored (axis t x y) := by
    refine ⟨⟨t, c1, c2, w, o, mirrored, []⟩, ?_, fun x y => ?_⟩
    · rcases ht with rfl | rfl <;> simp only [makeColor, hu, huo]
    · rcases ht with rfl | rfl <;> rfl
  refine ⟨c, ec, ?_, ?_, ?_, ?_, ?_⟩
  · intro x y h
    rw [hrgb]
    exact gradAt_some c1 c2 hw.1 ho mirrored h
  · intro x y h
    have := gradAt_nat c1 c2 hw.1 ho mirrored (d := 0) (by omega)
    rw [hrgb, h]
    simp only [Nat.zero_mul, Nat.zero_div, Nat.zero_mod, Int.natCast_zero, Int.add_zero] at this
    rw [this]
    exact congrArg some (mixed_255 c1 c2)
  · intro hm x y h
    have := gradAt_nat c1 c2 hw.1 ho mirrored (d := w) (by omega)
    rw [hrgb, h, this, hm, if_pos rfl, show w * 256 / w = 256 by rw [Nat.mul_div_cancel_left _ hw.1]]
    exact congrArg some (mixed_0 c1 c2)
  · intro x y x' y' r r' h1 h2 h3 hr hr'
    rw [hrgb] at hr hr'
    generalize axis t x y = p at *
    generalize axis t x' y' = q at *
    obtain ⟨d, rfl⟩ : ∃ d : Nat, p = o + d := ⟨(p - o).toNat, by omega⟩
    obtain ⟨e, rfl⟩ : ∃ e : Nat, q = o + e := ⟨(q - o).toNat, by omega⟩
    rw [gradAt_nat c1 c2 hw.1 ho mirrored (by omega)] at hr hr'
    obtain rfl := Option.some.inj hr
    obtain rfl := Option.some.inj hr'
    have hd := tab_lt (p1 := w) (d := d) (by omega)
    have he := tab_lt (p1 := w) (d := e) (by omega)
    have hle : d * 256 / w / 2 ≤ e * 256 / w / 2 := Nat.div_le_div_right (Nat.div_le_div_right (by omega))
    have key : ∀ u, u < 128 → u % (if mirrored then 256 else 128) = u := fun u hu => by cases mirrored <;> simp only [Bool.false_eq_true, if_false, if_true] <;> omega
    rw [key _ hd, key _ he]
    exact mixed_nearer c1 c2 (cosTab_mono' hle (Nat.le_of_lt he)) (cosTab_get (Nat.lt_trans hd (by decide))).2
  · intro x y x' y' h1 h2 h3
    rw [hrgb, hrgb, h3]
    generalize axis t x y = p at *
    obtain ⟨d, rfl⟩ : ∃ d : Nat, p = o + d := ⟨(p - o).toNat, by omega⟩
    rw [Int.add_assoc, ← Int.natCast_add, gradAt_nat c1 c2 hw.1 ho mirrored (by split <;> omega), gradAt_nat c1 c2 hw.1 ho mirrored (by omega)]
    cases mirrored
    · have := tab_period hw.1 d 1
      simp only [Bool.false_eq_true, if_false, Nat.one_mul] at this ⊢
      rw [this, Nat.add_mod_right]
    · have := tab_period hw.1 d 2
      simp only [if_true] at this ⊢
      rw [this, show 2 * 128 = 256 from rfl, Nat.add_mod_right]

/-- A precalculated gradient has colours between its two colours everywhere; if it is not mirrored and its width is at most 512, then it has the same colours as the gradient, from the offset on. -/
theorem precalc_partial {t g : ColorType} (ht : (t = .preX ∧ g = .gradX) ∨ (t = .preY ∧ g = .gradY)) (c1 c2 : Color) {w o : Nat} (hw : 0 < w ∧ w < 65536) (ho : o < 65536) (mirrored : Bool) (junk : List Color) :
    ∃ c, makeColor t c1 c2 w o mirrored junk = some c ∧
      (∀ x y, -8000000 ≤ axis t x y ∧ axis t x y ≤ 8000000 → ∃ r, toRgb c x y = some r ∧ Between c1 c2 r) ∧
      (w ≤ 512 → mirrored = false → ∃ c', makeColor g c1 c2 w o false junk = some c' ∧ ∀ x y, o ≤ axis t x y → axis t x y ≤ 6000000 → toRgb c x y = toRgb c' x y) := by
  have hu : u16 w = w := u16_nat hw.2
  have huo : u16 o = o := u16_nat ho
  obtain ⟨p, hp, hp0, hpe⟩ : ∃ p, (if w > 512 then 512 else w) = p ∧ (0 < p ∧ p ≤ 512) ∧ (w ≤ 512 → p = w) := ⟨_, rfl, by split <;> omega, fun h => if_neg (by omega)⟩
  obtain ⟨l, el, hl, hk⟩ : ∃ l, preLoop ⟨g, c1, c2, p, o, mirrored, []⟩ p 0 = some l ∧ l.length = p ∧ ∀ k, k < p → l[k]? = gradAt c1 c2 p o mirrored (o + k) := by
    obtain ⟨l, e, h1, h2⟩ := preLoop_spec (c := ⟨g, c1, c2, p, o, mirrored, []⟩) (f := fun k => mixed c1 c2 (cosTab.getD (k * 256 / p / 2 % (if mirrored then 256 else 128)) 0)) p 0 (fun k _ hk => by
      simp only
      rw [ck_ok (by omega), Option.bind_some, ← gradAt_nat c1 c2 hp0.1 ho mirrored (by omega), Int.add_comm]
      rcases ht with ⟨-, rfl⟩ | ⟨-, rfl⟩ <;> rfl)
    refine ⟨l, e, h1, fun k hk => ?_⟩
    rw [h2 k hk, gradAt_nat c1 c2 hp0.1 ho mirrored (by omega), Nat.zero_add]
  have hidx : ∀ {i : Nat}, i < p → (l ++ junk.drop p)[i]? = gradAt c1 c2 p o mirrored (o + i) := fun {i} hi => by
    rw [List.getElem?_append_left (by omega), hk i hi]
  have hne : (l ++ junk.drop p).isEmpty = false := by
    cases l with
    | nil => simp only [List.length_nil] at hl; omega
    | cons a l => rfl
  refine ⟨⟨t, c1, c2, p, o, mirrored, l ++ junk.drop p⟩, ?_, ?_, ?_⟩
  · rcases ht with ⟨rfl, rfl⟩ | ⟨rfl, rfl⟩ <;> simp only [makeColor, hu, huo, hp, el] <;> rfl
  · intro x y h
    have hgo : ∃ k, k < p ∧ toRgb ⟨t, c1, c2, p, o, mirrored, l ++ junk.drop p⟩ x y = (l ++ junk.drop p)[k]? := by
      have hck : ck (axis t x y - o) = some (axis t x y - o) := ck_ok (by omega)
      have r1 := tmod_range (axis t x y - o) (b := p) (by omega)
      have r2 := tmod_range (axis t x y - o) (b := p * 2) (by omega)
      rcases ht with ⟨rfl, -⟩ | ⟨rfl, -⟩
      all_goals
        simp only [axis, reduceCtorEq, or_true, or_self, if_true, if_false] at hck r1 r2
        simp only [toRgb, reduceCtorEq, if_false, hne, Bool.false_eq_true, applyPre]
        rw [if_neg (by omega), hck, Option.bind_some]
        cases mirrored
        · rw [if_neg (by decide)]
          exact ⟨_, by split <;> omega, rfl⟩
        · rw [if_pos rfl]
          exact ⟨_, by split <;> split <;> omega, rfl⟩
    obtain ⟨k, hk1, hk2⟩ := hgo
    rw [hk2, hidx hk1]
    exact gradAt_some c1 c2 hp0.1 ho mirrored (by omega)
  · intro hw512 hm
    obtain rfl := hpe hw512
    subst hm
    refine ⟨⟨g, c1, c2, p, o, false, []⟩, ?_, fun x y h1 h2 => ?_⟩
    · rcases ht with ⟨-, rfl⟩ | ⟨-, rfl⟩ <;> simp only [makeColor, hu, huo]
    · obtain ⟨d, hd⟩ : ∃ d : Nat, axis t x y = o + d := ⟨(axis t x y - o).toNat, by omega⟩
      have hg : toRgb ⟨g, c1, c2, p, o, false, []⟩ x y = gradAt c1 c2 p o false (axis t x y) := by
        rcases ht with ⟨rfl, rfl⟩ | ⟨rfl, rfl⟩ <;> rfl
      have hpre : toRgb ⟨t, c1, c2, p, o, false, l ++ junk.drop p⟩ x y = (l ++ junk.drop p)[d % p]? := by
        have hck : ck (axis t x y - o) = some (d : Int) := by rw [hd, show (o : Int) + d - o = d by omega]; exact ck_ok (by omega)
        have hmod : (d : Int).tmod p = ((d % p : Nat) : Int) := rfl
        rcases ht with ⟨rfl, -⟩ | ⟨rfl, -⟩
        all_goals
          simp only [axis, reduceCtorEq, or_true, or_self, if_true, if_false] at hck
          simp only [toRgb, reduceCtorEq, if_false, hne, Bool.false_eq_true, applyPre]
          rw [if_neg (by omega), hck, Option.bind_some, hmod, if_neg (by omega), Int.toNat_natCast]
      have hlt := Nat.mod_lt d hp0.1
      rw [hg, hpre, hidx hlt, hd, gradAt_nat c1 c2 hp0.1 ho false (by omega), gradAt_nat c1 c2 hp0.1 ho false (by omega)]
      have := tab_period hp0.1 (d % p) (d / p)
      rw [show d % p + d / p * p = d by rw [Nat.mul_comm]; exact Nat.mod_add_div d p] at this
      simp only [Bool.false_eq_true, if_false]
      rw [this, Nat.add_mul_mod_self_right]

example : ∃ c, makeColor .preX 0xFF0000 0x0000FF (100 : Nat) (7 : Nat) false [] = some c ∧
    (∀ x y, -8000000 ≤ axis .preX x y ∧ axis .preX x y ≤ 8000000 → ∃ r, toRgb c x y = some r ∧ Between 0xFF0000 0x0000FF r) ∧
    (100 ≤ 512 → false = false → ∃ c', makeColor .gradX 0xFF0000 0x0000FF (100 : Nat) (7 : Nat) false [] = some c' ∧ ∀ x y, (7 : Nat) ≤ axis .preX x y → axis .preX x y ≤ 6000000 → toRgb c x y = toRgb c' x y) :=
  precalc_partial (.inl ⟨rfl, rfl⟩) _ _ (by decide) (by decide) false []

/-- The full claim fails for gradients without a width: a number is divided by zero. -/
theorem gradient_no_width : (makeColor .gradX 0xFF0000 0x0000FF 0 0 false []).bind (fun c => toRgb c 0 0) = none := by decide +kernel

/-- A precalculated gradient that is mirrored differs from the gradient: in column 2 of one of width 2 it has the middle instead of the second colour. -/
theorem precalc_mirrored : (makeColor .preX 0xFF0000 0x0000FF 2 0 true []).bind (fun c => toRgb c 2 0) = some 0x7F0080 ∧ (makeColor .gradX 0xFF0000 0x0000FF 2 0 true []).bind (fun c => toRgb c 2 0) = some 0x0000FF := by decide +kernel

/-- A gradient does not repeat itself before its offset. -/
theorem gradient_negative : (makeColor .gradX 0xFF0000 0x0000FF 3 0 false []).bind (fun c => toRgb c (-1) 0) ≠ (makeColor .gradX 0xFF0000 0x0000FF 3 0 false []).bind (fun c => toRgb c 2 0) := by decide +kernel

end Verif.Img
