import Verif.Img.Ring
import Verif.Img.Tri
import Verif.Img.Line
import Verif.Img.Warp
import Verif.Img.Clear

/-! # The drawing functions as operations on an image -/

namespace Verif.Img

/-- `ext_circle` without the attribute `dotted`, `src/extensions/display_extensions.c:2303-2341`: the outline is drawn as well if the circle is filled. `t` is the thickness, 0 without the attribute. -/
def circle (m : Img) (x y r : Int) (fill : Bool) (t : Int) (c : Color) : Option Img :=
  (if fill then fillCircle m x y r c else some m).bind fun m => if t ≤ 0 then circleThin m x y r c else circleThick m x y r t c

/-- `ext_triangle`, `src/extensions/display_extensions.c:2490-2519`. -/
def triangle (s : Dots) (m : Img) (x0 y0 x1 y1 x2 y2 : Int) (fill : Bool) (t d1 d2 : Int) (c : Color) : Option (Dots × Img) :=
  if fill then (fillTriangle m x0 y0 x1 y1 x2 y2 c).map fun m => (s, m)
  else
    (line s m x0 y0 x1 y1 t d1 d2 c).bind fun (s, m) => (line s m x1 y1 x2 y2 t d1 d2 c).bind fun (s, m) => line s m x2 y2 x0 y0 t d1 d2 c

/-- A call of a drawing function: `img-setpix`, `img-clear`, `img-line`, `img-rectangle` (`rounded` with the attributes `filled` and `rounded`), `img-circle`, `img-triangle` and `img-blit` (`scaled` and `turned` with the attributes `scale` and `rotate`). The numbers `t`, `d1` and `d2` are those of the attributes `thickness` and `dotted`. -/
inductive Op where
  | setpix (x y : Int) (c : Color)
  | clear (c : Color)
  | line (x0 y0 x1 y1 t d1 d2 : Int) (c : Color)
  | rectangle (x y w h : Int) (fill : Bool) (t d1 d2 : Int) (c : Color)
  | rounded (x y w h rad : Int) (c : Color)
  | circle (x y r : Int) (fill : Bool) (t : Int) (c : Color)
  | triangle (x0 y0 x1 y1 x2 y2 : Int) (fill : Bool) (t d1 d2 : Int) (c : Color)
  | blit (src : Img) (x y : Int) (tr : Color)
  | scaled (src : Img) (x y xr yr sc : Int) (tr : Color)
  | turned (src : Img) (x y xr yr sr cr sc : Int) (tr : Color)

/-- The effect of a call on the image and on the variables that dotted lines keep. -/
def Op.run : Op → Dots × Img → Option (Dots × Img)
  | .setpix x y c, (s, m) => (putpixel m x y c).map fun m => (s, m)
  | .clear c, (s, m) => (Img.clear m c).map fun m => (s, m)
  | .line x0 y0 x1 y1 t d1 d2 c, (s, m) => Img.line s m x0 y0 x1 y1 t d1 d2 c
  | .rectangle x y w h fill t d1 d2 c, (s, m) => Img.rectangle s m x y w h fill t d1 d2 c
  | .rounded x y w h rad c, (s, m) => roundedRect s m x y w h rad c
  | .circle x y r fill t c, (s, m) => (Img.circle m x y r fill t c).map fun m => (s, m)
  | .triangle x0 y0 x1 y1 x2 y2 fill t d1 d2 c, (s, m) => Img.triangle s m x0 y0 x1 y1 x2 y2 fill t d1 d2 c
  | .blit src x y tr, (s, m) => (Img.blit m src x y tr).map fun m => (s, m)
  | .scaled src x y xr yr sc tr, (s, m) => (Img.blitScale m src x y xr yr sc tr).map fun m => (s, m)
  | .turned src x y xr yr sr cr sc tr, (s, m) => (Img.blitTurn m src x y xr yr sr cr sc tr).map fun m => (s, m)

/-- Several calls. -/
def runAll : List Op → Dots × Img → Option (Dots × Img)
  | [], r => some r
  | o :: l, r => (o.run r).bind (runAll l)

/-- A coordinate between -8000 and 8000. -/
def Lim (z : Int) : Prop := -8000 ≤ z ∧ z ≤ 8000

/-- Calls with moderate numbers. The source of a blit is an image too. -/
def Op.Small : Op → Prop
  | .setpix _ _ _ | .clear _ => True
  | .line x0 y0 x1 y1 t d1 d2 _ => Lim x0 ∧ Lim y0 ∧ Lim x1 ∧ Lim y1 ∧ Lim t ∧ 0 ≤ d1 ∧ d1 ≤ 8000 ∧ 0 ≤ d2 ∧ d2 ≤ 8000
  | .rectangle x y w h _ t d1 d2 _ => Lim x ∧ Lim y ∧ Lim w ∧ Lim h ∧ Lim t ∧ 0 ≤ d1 ∧ d1 ≤ 8000 ∧ 0 ≤ d2 ∧ d2 ≤ 8000
  | .rounded x y w h rad _ => Lim x ∧ Lim y ∧ Lim w ∧ Lim h ∧ Lim rad
  | .circle x y r _ t _ => Lim x ∧ Lim y ∧ 0 ≤ r ∧ r ≤ 8000 ∧ Lim t
  | .triangle x0 y0 x1 y1 x2 y2 _ t d1 d2 _ => Lim x0 ∧ Lim y0 ∧ Lim x1 ∧ Lim y1 ∧ Lim x2 ∧ Lim y2 ∧ Lim t ∧ 0 ≤ d1 ∧ d1 ≤ 8000 ∧ 0 ≤ d2 ∧ d2 ≤ 8000
  | .blit src x y _ => Ok src ∧ Lim x ∧ Lim y
  | .scaled src x y xr yr sc _ => Ok src ∧ Lim x ∧ Lim y ∧ Lim xr ∧ Lim yr ∧ sc ≠ 0
  | .turned src x y xr yr sr cr sc _ => Ok src ∧ Lim x ∧ Lim y ∧ Lim xr ∧ Lim yr ∧ -1000 ≤ sr ∧ sr ≤ 1000 ∧ -1000 ≤ cr ∧ cr ≤ 1000 ∧ sc ≠ 0

theorem tdiv2 (t : Int) : Int.tdiv t 2 = if 0 ≤ t then t / 2 else -(-t / 2) := by
  split
  · exact Int.tdiv_eq_ediv_of_nonneg ‹_›
  · rw [← Int.neg_neg t, Int.neg_tdiv, Int.neg_neg, Int.tdiv_eq_ediv_of_nonneg (by omega)]

/-- The counter of dotted lines. -/
def DotsOk (s : Dots) : Prop := 0 ≤ s.cnt ∧ s.cnt < 2147483647

/-- A line, dotted or not. -/
theorem line_drawn {m : Img} (wf : Ok m) {s : Dots} (hs : DotsOk s) {x0 y0 x1 y1 t d1 d2 : Int} (hx0 : -134217728 ≤ x0 ∧ x0 ≤ 134217728) (hy0 : -134217728 ≤ y0 ∧ y0 ≤ 134217728)
    (hx1 : -134217728 ≤ x1 ∧ x1 ≤ 134217728) (hy1 : -134217728 ≤ y1 ∧ y1 ≤ 134217728) (ht : t ≤ 32767) (hd : 0 ≤ d1 ∧ 0 ≤ d2 ∧ d1 + d2 < 2147483648) (c : Color) :
    ∃ s' m', ∃ l l' : List (Int × Int), line s m x0 y0 x1 y1 t d1 d2 c = some (s', m') ∧ LinePath x0 y0 x1 y1 l ∧ l'.Sublist l ∧ (d1 = 0 → l' = l ∧ s' = s) ∧
      Drawn m m' (fun i j => ∃ p ∈ l', InPen t p.1 p.2 i j) c ∧ DotsOk s' := by
  obtain ⟨l, hl, e⟩ := line_spec hx0 hy0 hx1 hy1
  have hb : ∀ p ∈ l, (-1073741824 ≤ p.1 ∧ p.1 ≤ 1073741824) ∧ -1073741824 ≤ p.2 ∧ p.2 ≤ 1073741824 := by
    intro p hp
    have := hl.box p hp
    omega
  by_cases h : d1 > 0
  · obtain ⟨s', m', l', e', hsub, hdr, hs'⟩ := foldDots_drawn ht ⟨h, hd.2.1, hd.2.2⟩ c l s m wf hs hb
    exact ⟨s', m', l, l', by rw [e, if_pos h, e'], hl, hsub, fun h0 => by omega, hdr, hs'⟩
  · obtain ⟨m', e', hdr⟩ := foldPen_drawn ht c l m wf hb
    exact ⟨s, m', l, l, by rw [e, if_neg h, e']; rfl, hl, .refl l, fun _ => ⟨rfl, rfl⟩, hdr, hs⟩

theorem circle_drawn {m : Img} (wf : Ok m) {x y r : Int} (hx : -1073741824 ≤ x ∧ x ≤ 1073741824) (hy : -1073741824 ≤ y ∧ y ≤ 1073741824) (hr : 0 ≤ r ∧ r ≤ 32767) (fill : Bool) {t : Int} (ht : t ≤ 0) (c : Color) :
    ∃ m', circle m x y r fill t c = some m' ∧ Drawn m m' (fun i j => (fill = true ∧ InDisk x y r i j) ∨ OnCircle x y r i j) c := by
  unfold circle
  simp only [if_pos ht]
  cases fill
  · obtain ⟨m', e, d⟩ := circleThin_drawn wf hx hy ⟨hr.1, by omega⟩ c
    exact ⟨m', by simpa using e, d.congr fun i j => by simp⟩
  · obtain ⟨m1, e1, d1⟩ := fillCircle_drawn wf hx hy ⟨by omega, hr.2⟩ c
    obtain ⟨m', e, d⟩ := circleThin_drawn (d1.same.ok wf) hx hy ⟨hr.1, by omega⟩ c
    exact ⟨m', by simp [e1, e], (d1.trans d).congr fun i j => by simp⟩

/-- A thick circle, which may be filled. -/
theorem circle_thick {m : Img} (wf : Ok m) {x y r t : Int} (hx : -1073741824 ≤ x ∧ x ≤ 1073741824) (hy : -1073741824 ≤ y ∧ y ≤ 1073741824) (hr : 0 ≤ r ∧ r ≤ 16383) (fill : Bool) (ht : 0 < t ∧ t ≤ 16383) (c : Color) :
    ∃ m' S, circle m x y r fill t c = some m' ∧ Drawn m m' S c ∧
      (∀ i j, S i j → (fill = true ∧ InDisk x y r i j) ∨ (2 * (i - x) + 1) * (2 * (i - x) + 1) + (2 * (j - y) + 1) * (2 * (j - y) + 1) ≤ 4 * (r * r)) ∧
      (r ≤ 2001 → ∀ i j, S i j ↔ (fill = true ∧ InDisk x y r i j) ∨ InRing x y r t i j) := by
  unfold circle
  simp only [if_neg (show ¬ t ≤ 0 by omega)]
  cases fill
  · obtain ⟨m', S, e, d, b, ex⟩ := circleThick_drawn wf hx hy hr ht c
    exact ⟨m', S, by simpa using e, d, fun i j h => .inr (b i j h), fun hl i j => by rw [ex hl]; simp⟩
  · obtain ⟨m1, e1, d1⟩ := fillCircle_drawn wf (r := r) hx hy ⟨by omega, by omega⟩ c
    obtain ⟨m', S, e, d, b, ex⟩ := circleThick_drawn (d1.same.ok wf) hx hy hr ht c
    exact ⟨m', _, by simp [e1, e], d1.trans d, fun i j h => h.elim (fun g => .inl ⟨rfl, g⟩) (fun g => .inr (b i j g)), fun hl i j => by rw [ex hl]; simp⟩

/-- A filled rectangle. -/
theorem rectangle_filled {m : Img} (wf : Ok m) (s : Dots) {x y w h : Int} (hx : -1073741824 ≤ x ∧ x ≤ 1073741824) (hy : -1073741824 ≤ y ∧ y ≤ 1073741824) (hw : -1073741824 ≤ w ∧ w ≤ 1073741823) (hh : -1073741824 ≤ h ∧ h ≤ 1073741823)
    (t d1 d2 : Int) (c : Color) :
    ∃ m', rectangle s m x y w h true t d1 d2 c = some (s, m') ∧ Drawn m m' (fun i j => x ≤ i ∧ i < x + w ∧ y ≤ j ∧ j < y + h) c := by
  obtain ⟨m', e, d⟩ := rectRows_drawn c x w.toNat (by omega) h.toNat y m wf
  exact ⟨m', by simp only [rectangle, if_true]; rw [ck_ok (by omega), Option.bind_some, e]; rfl, d.congr fun i j => by omega⟩

/-- A thin rectangle. -/
theorem rectangle_thin {m : Img} (wf : Ok m) (s : Dots) {x y w h t : Int} (hx : -1073741824 ≤ x ∧ x ≤ 1073741824) (hy : -1073741824 ≤ y ∧ y ≤ 1073741824) (hw : -1073741824 ≤ w ∧ w ≤ 1073741823) (hh : -1073741824 ≤ h ∧ h ≤ 1073741823)
    (ht : t ≤ 1) (d2 : Int) (c : Color) :
    ∃ m', rectangle s m x y w h false t 0 d2 c = some (s, m') ∧
      Drawn m m' (fun i j => ((j = y ∨ j = y + h) ∧ x ≤ i ∧ i < x + w) ∨ ((i = x ∨ i = x + w) ∧ y ≤ j ∧ j < y + h)) c := by
  have htt : Int.tdiv t 2 ≤ 0 := by rw [tdiv2]; split <;> omega
  obtain ⟨m1, e1, g1⟩ := hLine_drawn c y w.toNat x m wf (by omega) (by omega)
  obtain ⟨m2, e2, g2⟩ := hLine_drawn c (y + h) w.toNat x m1 (g1.same.ok wf) (by omega) (by omega)
  obtain ⟨m3, e3, g3⟩ := vLine_drawn c x h.toNat y m2 (g2.same.ok (g1.same.ok wf)) (by omega) (by omega)
  obtain ⟨m4, e4, g4⟩ := vLine_drawn c (x + w) h.toNat y m3 (g3.same.ok (g2.same.ok (g1.same.ok wf))) (by omega) (by omega)
  refine ⟨m4, ?_, (((g1.trans g2).trans g3).trans g4).congr fun i j => by omega⟩
  simp only [rectangle]
  rw [if_neg (by simp), if_pos ⟨htt, trivial⟩, ck_ok (by omega), Option.bind_some, ck_ok (by omega), Option.bind_some, e1, Option.bind_some, e2, Option.bind_some, e3, Option.bind_some, e4]
  rfl

/-- A filled rectangle with round corners. -/
theorem roundedRect_drawn {m : Img} (wf : Ok m) (s : Dots) {x y w h rad : Int} (hx : -268435456 ≤ x ∧ x ≤ 268435456) (hy : -268435456 ≤ y ∧ y ≤ 268435456) (hw : -268435456 ≤ w ∧ w ≤ 268435456) (hh : -268435456 ≤ h ∧ h ≤ 268435456)
    (hr : -32767 ≤ rad ∧ rad ≤ 32767) (c : Color) :
    ∃ m', roundedRect s m x y w h rad c = some (s, m') ∧
      Drawn m m' (fun i j => ((((((x + rad ≤ i ∧ i < x + w - rad ∧ y ≤ j ∧ j < y + rad) ∨ (x + rad ≤ i ∧ i < x + w - rad ∧ y + h - rad ≤ j ∧ j < y + h)) ∨ (x ≤ i ∧ i < x + w ∧ y + rad ≤ j ∧ j < y + h - rad)) ∨
        InDisk (x + rad) (y + rad) rad i j) ∨ InDisk (x + rad) (y + h - rad) rad i j) ∨ InDisk (x + w - rad) (y + rad) rad i j) ∨ InDisk (x + w - rad) (y + h - rad) rad i j) c := by
  obtain ⟨m1, e1, d1⟩ := rectangle_filled wf s (x := x + rad) (y := y) (w := w - 2 * rad) (h := rad) (by omega) (by omega) (by omega) (by omega) 1 0 0 c
  have w1 := d1.same.ok wf
  obtain ⟨m2, e2, d2⟩ := rectangle_filled w1 s (x := x + rad) (y := y + h - rad) (w := w - 2 * rad) (h := rad) (by omega) (by omega) (by omega) (by omega) 1 0 0 c
  have w2 := d2.same.ok w1
  obtain ⟨m3, e3, d3⟩ := rectangle_filled w2 s (x := x) (y := y + rad) (w := w) (h := h - 2 * rad) (by omega) (by omega) (by omega) (by omega) 1 0 0 c
  have w3 := d3.same.ok w2
  obtain ⟨m4, e4, d4⟩ := fillCircle_drawn w3 (x := x + rad) (y := y + rad) (r := rad) (by omega) (by omega) hr c
  have w4 := d4.same.ok w3
  obtain ⟨m5, e5, d5⟩ := fillCircle_drawn w4 (x := x + rad) (y := y + h - rad) (r := rad) (by omega) (by omega) hr c
  have w5 := d5.same.ok w4
  obtain ⟨m6, e6, d6⟩ := fillCircle_drawn w5 (x := x + w - rad) (y := y + rad) (r := rad) (by omega) (by omega) hr c
  have w6 := d6.same.ok w5
  obtain ⟨m7, e7, d7⟩ := fillCircle_drawn w6 (x := x + w - rad) (y := y + h - rad) (r := rad) (by omega) (by omega) hr c
  refine ⟨m7, ?_, (((((((d1.trans d2).trans d3).congr fun i j => ?_).trans d4).trans d5).trans d6).trans d7)⟩
  · unfold roundedRect
    rw [ck_ok (by omega), Option.bind_some, ck_ok (by omega), Option.bind_some, ck_ok (by omega), Option.bind_some, ck_ok (by omega), Option.bind_some, ck_ok (by omega), Option.bind_some, ck_ok (by omega), Option.bind_some,
      ck_ok (by omega), Option.bind_some, ck_ok (by omega), Option.bind_some]
    simp only [e1, e2, e3, e4, e5, e6, e7, Option.bind_some, Option.map_some]
  · omega

/-- Moderate calls are defined and keep the size and the format. -/
theorem run_ok {o : Op} (ho : o.Small) {s : Dots} (hs : DotsOk s) {m : Img} (wf : Ok m) : ∃ s' m', o.run (s, m) = some (s', m') ∧ SameDims m m' ∧ DotsOk s' := by
  cases o with
  | setpix x y c =>
    obtain ⟨m', e, d⟩ := putpixel_drawn wf x y c
    exact ⟨s, m', by simp only [Op.run, e]; rfl, d.same, hs⟩
  | clear c =>
    by_cases h : m.fmt = 16
    · obtain ⟨m', e, d, -⟩ := clear_565 wf h c
      exact ⟨s, m', by simp only [Op.run, e]; rfl, d, hs⟩
    · obtain ⟨m', e, d, -⟩ := clear_ok wf c h
      exact ⟨s, m', by simp only [Op.run, e]; rfl, d, hs⟩
  | line x0 y0 x1 y1 t d1 d2 c =>
    simp only [Op.Small, Lim] at ho
    obtain ⟨s', m', l, l', e, -, -, -, d, h⟩ := line_drawn wf hs (x0 := x0) (y0 := y0) (x1 := x1) (y1 := y1) (t := t) (d1 := d1) (d2 := d2) (by omega) (by omega) (by omega) (by omega) (by omega) (by omega) c
    exact ⟨s', m', e, d.same, h⟩
  | rectangle x y w h fill t d1 d2 c =>
    simp only [Op.Small, Lim] at ho
    simp only [Op.run]
    have h2 := tdiv2 t
    have h3 : -4000 ≤ Int.tdiv t 2 ∧ Int.tdiv t 2 ≤ 4000 ∧ (Int.tdiv t 2 ≤ 0 → t ≤ 1) := by
      rw [h2]; split <;> omega
    clear h2
    cases fill
    · by_cases hc : Int.tdiv t 2 ≤ 0 ∧ d1 = 0
      · obtain ⟨m', e, d⟩ := rectangle_thin wf s (x := x) (y := y) (w := w) (h := h) (t := t) (by omega) (by omega) (by omega) (by omega) (by omega) d2 c
        exact ⟨s, m', by rw [hc.2]; exact e, d.same, hs⟩
      · simp only [rectangle]
        rw [if_neg (by simp), if_neg hc, ck_ok (by omega), Option.bind_some, ck_ok (by omega), Option.bind_some, ck_ok (by omega), Option.bind_some, ck_ok (by omega), Option.bind_some, ck_ok (by omega), Option.bind_some,
          ck_ok (by omega), Option.bind_some]
        generalize hT : Int.tdiv t 2 = T
        rw [hT] at h3
        clear hT hc
        obtain ⟨s1, m1, _, _, e1, -, -, -, g1, h1⟩ := line_drawn wf hs (x0 := x + T) (y0 := y + T) (x1 := x + T + (w - T * 2)) (y1 := y + T) (t := T) (d1 := d1) (d2 := d2) (by omega) (by omega) (by omega) (by omega) (by omega) (by omega) c
        have w1 := g1.same.ok wf
        obtain ⟨s2, m2, _, _, e2, -, -, -, g2, h2⟩ := line_drawn w1 h1 (x0 := x + T) (y0 := y + T + (h - T * 2)) (x1 := x + T + (w - T * 2)) (y1 := y + T + (h - T * 2)) (t := T) (d1 := d1) (d2 := d2) (by omega) (by omega) (by omega) (by omega) (by omega) (by omega) c
        have w2 := g2.same.ok w1
        obtain ⟨s3, m3, _, _, e3, -, -, -, g3, h3⟩ := line_drawn w2 h2 (x0 := x + T) (y0 := y + T) (x1 := x + T) (y1 := y + T + (h - T * 2)) (t := T) (d1 := d1) (d2 := d2) (by omega) (by omega) (by omega) (by omega) (by omega) (by omega) c
        have w3 := g3.same.ok w2
        obtain ⟨s4, m4, _, _, e4, -, -, -, g4, h4⟩ := line_drawn w3 h3 (x0 := x + T + (w - T * 2)) (y0 := y + T) (x1 := x + T + (w - T * 2)) (y1 := y + T + (h - T * 2)) (t := T) (d1 := d1) (d2 := d2) (by omega) (by omega) (by omega) (by omega) (by omega) (by omega) c
        exact ⟨s4, m4, by rw [e1, Option.bind_some]; simp only; rw [e2, Option.bind_some]; simp only; rw [e3, Option.bind_some]; exact e4,
          ((g1.same.trans g2.same).trans g3.same).trans g4.same, h4⟩
    · obtain ⟨m', e, d⟩ := rectangle_filled wf s (x := x) (y := y) (w := w) (h := h) (by omega) (by omega) (by omega) (by omega) t d1 d2 c
      exact ⟨s, m', e, d.same, hs⟩
  | rounded x y w h rad c =>
    simp only [Op.Small, Lim] at ho
    obtain ⟨m', e, d⟩ := roundedRect_drawn wf s (x := x) (y := y) (w := w) (h := h) (rad := rad) (by omega) (by omega) (by omega) (by omega) (by omega) c
    exact ⟨s, m', e, d.same, hs⟩
  | circle x y r fill t c =>
    simp only [Op.Small, Lim] at ho
    obtain ⟨m', S, e, d⟩ : ∃ m' S, circle m x y r fill t c = some m' ∧ Drawn m m' S c := by
      by_cases ht : t ≤ 0
      · obtain ⟨m', e, d⟩ := circle_drawn wf (x := x) (y := y) (r := r) (by omega) (by omega) (by omega) fill ht c
        exact ⟨m', _, e, d⟩
      · obtain ⟨m', S, e, d, -⟩ := circle_thick wf (x := x) (y := y) (r := r) (t := t) (by omega) (by omega) (by omega) fill (by omega) c
        exact ⟨m', S, e, d⟩
    exact ⟨s, m', by simp only [Op.run, e]; rfl, d.same, hs⟩
  | triangle x0 y0 x1 y1 x2 y2 fill t d1 d2 c =>
    simp only [Op.Small, Lim] at ho
    simp only [Op.run, triangle]
    cases fill
    · obtain ⟨s1, m1, _, _, e1, -, -, -, g1, h1⟩ := line_drawn wf hs (x0 := x0) (y0 := y0) (x1 := x1) (y1 := y1) (t := t) (d1 := d1) (d2 := d2) (by omega) (by omega) (by omega) (by omega) (by omega) (by omega) c
      have w1 := g1.same.ok wf
      obtain ⟨s2, m2, _, _, e2, -, -, -, g2, h2⟩ := line_drawn w1 h1 (x0 := x1) (y0 := y1) (x1 := x2) (y1 := y2) (t := t) (d1 := d1) (d2 := d2) (by omega) (by omega) (by omega) (by omega) (by omega) (by omega) c
      have w2 := g2.same.ok w1
      obtain ⟨s3, m3, _, _, e3, -, -, -, g3, h3⟩ := line_drawn w2 h2 (x0 := x2) (y0 := y2) (x1 := x0) (y1 := y0) (t := t) (d1 := d1) (d2 := d2) (by omega) (by omega) (by omega) (by omega) (by omega) (by omega) c
      exact ⟨s3, m3, by rw [if_neg (by simp), e1, Option.bind_some]; simp only; rw [e2, Option.bind_some]; exact e3, (g1.same.trans g2.same).trans g3.same, h3⟩
    · obtain ⟨m', e, d⟩ := fillTriangle_drawn wf c (x0 := x0) (y0 := y0) (x1 := x1) (y1 := y1) (x2 := x2) (y2 := y2) (by constructor <;> omega) (by constructor <;> omega) (by constructor <;> omega) (by constructor <;> omega)
        (by constructor <;> omega) (by constructor <;> omega)
      exact ⟨s, m', by rw [if_pos rfl, e]; rfl, d.same, hs⟩
  | blit src x y tr =>
    simp only [Op.Small, Lim] at ho
    obtain ⟨m', e, d, -⟩ := blit_drawn wf ho.1 (x := x) (y := y) (by omega) (by omega) tr
    exact ⟨s, m', by simp only [Op.run, e]; rfl, d, hs⟩
  | scaled src x y xr yr sc tr =>
    simp only [Op.Small, Lim] at ho
    have hd := wf.dims
    obtain ⟨m', e, d, -⟩ := warp_drawn wf ho.1 (f := scaleSrc x y xr yr sc) (p := scaleAt x y sc) tr fun i j hi hj => scaleSrc_ok (x := x) (y := y) (xr := xr) (yr := yr) (sc := sc) (i := i) (j := j) (by omega) (by omega) (by omega) (by omega) (by omega) (by omega) (by omega)
    exact ⟨s, m', by simp only [Op.run, blitScale, e]; rfl, d, hs⟩
  | turned src x y xr yr sr cr sc tr =>
    simp only [Op.Small, Lim] at ho
    have hd := wf.dims
    obtain ⟨m', e, d, -⟩ := warp_drawn wf ho.1 (f := turnSrc x y xr yr sr cr sc) (p := turnAt x y xr yr sr cr sc) tr fun i j hi hj =>
      turnSrc_ok (x := x) (y := y) (xr := xr) (yr := yr) (sr := sr) (cr := cr) (sc := sc) (i := i) (j := j) (by omega) (by omega) (by omega) (by omega) (by omega) (by omega) (by omega) (by omega) (by omega)
    exact ⟨s, m', by simp only [Op.run, blitTurn, e]; rfl, d, hs⟩

end Verif.Img
