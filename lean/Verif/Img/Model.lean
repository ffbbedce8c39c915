/-!
# Model of the image buffers of the display extensions

Coordinates are C `int`s of 32 bits, colours are `uint32_t`. A result `none` is undefined behaviour: an access outside of the array, or an overflow of a signed number.
-/

namespace Verif.Img

abbrev Byte := BitVec 8
abbrev Color := BitVec 32

/-- `image_buffer_t`, `include/extensions/display_extensions.h:47-53`: `data` is the array behind its header of 5 bytes. The formats are numbered by their bits per pixel, as in `color_format_t`,
`include/extensions/display_extensions.h:29-37`. -/
structure Img where
  w : Nat
  h : Nat
  fmt : Nat
  data : List Byte
  deriving DecidableEq

/-- A C `int`: `none` on overflow. -/
def ck (z : Int) : Option Int := if -2147483648 ≤ z ∧ z < 2147483648 then some z else none

/-! ## Image buffers as byte arrays -/

/-- `image_dims_to_size_bytes`, `src/extensions/display_extensions.c:139-164`; width and height are smaller than 32000, so that nothing wraps around. -/
def dimsToSize (fmt w h : Nat) : Nat :=
  match fmt with
  | 1 => w * h / 8 + if w * h % 8 ≠ 0 then 1 else 0
  | 2 => w * h / 4 + if w * h % 4 ≠ 0 then 1 else 0
  | 4 => w * h / 2 + if w * h % 2 ≠ 0 then 1 else 0
  | 8 => w * h
  | 16 => w * h * 2
  | 24 => w * h * 3
  | _ => 0

/-- `image_buffer_lift`, `src/extensions/display_extensions.c:166-177`: the header. -/
def header (fmt w h : Nat) : List Byte := [BitVec.ofNat 8 (w / 256), BitVec.ofNat 8 w, BitVec.ofNat 8 (h / 256), BitVec.ofNat 8 h, BitVec.ofNat 8 fmt]

/-- `ext_image_buffer`, `src/extensions/display_extensions.c:1982-2016`, and `image_buffer_allocate`, `src/extensions/display_extensions.c:243-256`, for a format that is supported and with memory available. -/
def imgBuffer (fmt w h : Nat) : Option (List Byte) :=
  if 0 < w ∧ 0 < h ∧ w < 32000 ∧ h < 32000 then some (header fmt w h ++ List.replicate (dimsToSize fmt w h) 0#8) else none

/-- `image_buffer_width`, `image_buffer_height`, `include/extensions/display_extensions.h:74-80`. -/
def be16 (a b : Byte) : Nat := a.toNat * 256 + b.toNat

/-- `array_is_image_buffer`, `image_buffer_is_valid`, `image_buffer_size_bytes` and the decoding of the header, `include/extensions/display_extensions.h:74-123`;
`decode_args`, `src/extensions/display_extensions.c:1856-1962`. `none` if the array is rejected. The size is computed in 32 bits and rounded down. -/
def decodeImg (a : List Byte) : Option Img :=
  match a with
  | w1 :: w0 :: h1 :: h0 :: f :: d =>
    let w := be16 w1 w0
    let h := be16 h1 h0
    let fmt := f.toNat
    if 0 < d.length ∧ (w * h * fmt % 4294967296) / 8 ≤ d.length then some ⟨w, h, fmt, d⟩ else none
  | _ => none

/-! ## Pixels -/

/-- `rgb888to332`, `src/extensions/display_extensions.c:370-379`. -/
def rgb888to332 (rgb : Color) : Byte :=
  let r := (rgb >>> 21).setWidth 8
  let g := (rgb >>> 13).setWidth 8
  let b := (rgb >>> 6).setWidth 8
  (r <<< 5) ||| ((g &&& 0x7#8) <<< 2) ||| (b &&& 0x3#8)

/-- `rgb888to565`, `src/extensions/display_extensions.c:381-390`: the red part is cut to 8 bits after it has been shifted by 11. -/
def rgb888to565 (rgb : Color) : BitVec 16 :=
  let r := (rgb >>> 19).setWidth 16
  let g := (rgb >>> 10).setWidth 16
  let b := (rgb >>> 3).setWidth 16
  (((r <<< 11).setWidth 8).setWidth 16) ||| ((g &&& 0x3F#16) <<< 5) ||| (b &&& 0x1F#16)

/-- `rgb332to888`, `src/extensions/display_extensions.c:392-398`. -/
def rgb332to888 (v : Byte) : Color :=
  let r := ((v >>> 5) &&& 0x7#8).setWidth 32
  let g := ((v >>> 2) &&& 0x7#8).setWidth 32
  let b := (v &&& 0x3#8).setWidth 32
  (r <<< 21) ||| (g <<< 13) ||| (b <<< 6)

/-- `rgb565to888`, `src/extensions/display_extensions.c:400-406`. -/
def rgb565to888 (v : BitVec 16) : Color :=
  let r := (v >>> 11).setWidth 32
  let g := ((v >>> 5) &&& 0x3F#16).setWidth 32
  let b := (v &&& 0x1F#16).setWidth 32
  (r <<< 19) ||| (g <<< 10) ||| (b <<< 3)

/-- Change a byte of the array. -/
def setByte (d : List Byte) (i : Nat) (f : Byte → Byte) : Option (List Byte) :=
  match d[i]? with
  | some b => some (d.set i (f b))
  | none => none

/-- The tables `indexed4_mask` and `indexed16_mask`, `src/extensions/display_extensions.c:462-465`. -/
def mask4 : Nat → Byte
  | 0 => 0x03#8
  | 1 => 0x0C#8
  | 2 => 0x30#8
  | _ => 0xC0#8

def mask16 : Nat → Byte
  | 0 => 0x0F#8
  | _ => 0xF0#8

/-- The bytes that `putpixel` writes, `src/extensions/display_extensions.c:474-524`. -/
def putData (m : Img) (x y : Nat) (c : Color) : Option (List Byte) :=
  match m.fmt with
  | 1 =>
    let pos := y * m.w + x
    let bit := 1#8 <<< (7 - pos % 8)
    setByte m.data (pos / 8) fun b => if c ≠ 0 then b ||| bit else b &&& ~~~bit
  | 2 =>
    let pos := y * m.w + x
    let ix := 3 - pos % 4
    setByte m.data (pos / 4) fun b => (b &&& ~~~(mask4 ix)) ||| (c <<< (2 * ix)).setWidth 8
  | 4 =>
    let pos := y * m.w + x
    let ix := 1 - pos % 2
    setByte m.data (pos / 2) fun b => (b &&& ~~~(mask16 ix)) ||| (c <<< (4 * ix)).setWidth 8
  | 8 =>
    let pos := y * m.w + x
    if pos < 2147483648 then setByte m.data pos fun _ => rgb888to332 c else none
  | 16 =>
    let pos := y * (m.w * 2) + x * 2
    let v := rgb888to565 c
    if pos + 1 < 2147483648 then
      (setByte m.data pos fun _ => (v >>> 8).setWidth 8).bind fun d => setByte d (pos + 1) fun _ => v.setWidth 8
    else none
  | 24 =>
    let pos := y * (m.w * 3) + x * 3
    if pos + 2 < 2147483648 then
      (setByte m.data pos fun _ => (c >>> 16).setWidth 8).bind fun d =>
        (setByte d (pos + 1) fun _ => (c >>> 8).setWidth 8).bind fun d => setByte d (pos + 2) fun _ => c.setWidth 8
    else none
  | _ => some m.data

/-- A coordinate cut to `uint16_t`. -/
def u16 (x : Int) : Nat := (x % 65536).toNat

/-- `putpixel`, `src/extensions/display_extensions.c:468-526`. -/
def putpixel (m : Img) (x y : Int) (c : Color) : Option Img :=
  if u16 x < m.w ∧ u16 y < m.h then (putData m (u16 x) (u16 y) c).map fun d => { m with data := d } else some m

/-- `getpixel`, `src/extensions/display_extensions.c:528-577`. -/
def getpixel (m : Img) (xi yi : Int) : Option Color :=
  let x := u16 xi
  let y := u16 yi
  if x < m.w ∧ y < m.h then
    match m.fmt with
    | 1 =>
      let pos := y * m.w + x
      (m.data[pos / 8]?).map fun (b : Byte) => (b >>> (7 - pos % 8)).setWidth 32 &&& 1#32
    | 2 =>
      let pos := y * m.w + x
      let ix := 3 - pos % 4
      (m.data[pos / 4]?).map fun (b : Byte) => ((b &&& mask4 ix) >>> (2 * ix)).setWidth 32
    | 4 =>
      let pos := y * m.w + x
      let ix := 1 - pos % 2
      (m.data[pos / 2]?).map fun (b : Byte) => ((b &&& mask16 ix) >>> (4 * ix)).setWidth 32
    | 8 =>
      let pos := y * m.w + x
      if pos < 2147483648 then (m.data[pos]?).map rgb332to888 else none
    | 16 =>
      let pos := y * (m.w * 2) + x * 2
      if pos + 1 < 2147483648 then
        match m.data[pos]?, m.data[pos + 1]? with
        | some a, some b => some (rgb565to888 ((a.setWidth 16 <<< 8) ||| b.setWidth 16))
        | _, _ => none
      else none
    | 24 =>
      let pos := y * (m.w * 3) + x * 3
      if pos + 2 < 2147483648 then
        match m.data[pos]?, m.data[pos + 1]?, m.data[pos + 2]? with
        | some r, some g, some b => some ((r.setWidth 32 <<< 16) ||| (g.setWidth 32 <<< 8) ||| b.setWidth 32)
        | _, _, _ => none
      else none
    | _ => some 0
  else some 0

/-! ## Clearing -/

/-- `memset` on the first `n` bytes. -/
def memset (d : List Byte) (v : Byte) (n : Nat) : Option (List Byte) := if n ≤ d.length then some (List.replicate n v ++ d.drop n) else none

/-- The loop for `rgb565`, `src/extensions/display_extensions.c:439-447`, `n` steps from `i`. -/
def clear565 (v : BitVec 16) : Nat → Nat → List Byte → Option (List Byte)
  | 0, _, d => some d
  | n + 1, i, d =>
    (setByte d i fun _ => (v >>> 8).setWidth 8).bind fun d => (setByte d (i + 1) fun _ => v.setWidth 8).bind fun d => clear565 v n (i + 2) d

/-- The loop for `rgb888`, `src/extensions/display_extensions.c:448-456`. -/
def clear888 (c : Color) : Nat → Nat → List Byte → Option (List Byte)
  | 0, _, d => some d
  | n + 1, i, d =>
    (setByte d i fun _ => (c >>> 16).setWidth 8).bind fun d => (setByte d (i + 1) fun _ => (c >>> 8).setWidth 8).bind fun d =>
      (setByte d (i + 2) fun _ => c.setWidth 8).bind fun d => clear888 c n (i + 3) d

/-- The table `index4_table`, `src/extensions/display_extensions.c:422`. -/
def index4 : Nat → Byte
  | 0 => 0#8
  | 1 => 0x55#8
  | 2 => 0xAA#8
  | _ => 0xFF#8

/-- `image_buffer_clear`, `src/extensions/display_extensions.c:408-460`. The loop for `rgb565` runs while `i < size / 2`, where `i` counts bytes; the limits of the loops are computed in 32 bits. -/
def clear (m : Img) (c : Color) : Option Img :=
  let size := m.w * m.h
  (match m.fmt with
  | 1 => memset m.data (if c &&& 1#32 ≠ 0 then 0xFF#8 else 0#8) (size / 8 + if size % 8 ≠ 0 then 1 else 0)
  | 2 => memset m.data (index4 (c &&& 3#32).toNat) (size / 4 + if size % 4 ≠ 0 then 1 else 0)
  | 4 =>
    let ix := (c &&& 0xF#32).setWidth 8
    memset m.data (ix ||| (ix <<< 4)) (size / 2 + if size % 2 ≠ 0 then 1 else 0)
  | 8 => memset m.data (rgb888to332 c) size
  | 16 => clear565 (rgb888to565 c) ((size / 2 + 1) / 2) 0 m.data
  | 24 => clear888 c (((size * 3 % 4294967296) + 2) / 3) 0 m.data
  | _ => some m.data).map fun d => { m with data := d }

/-! ## Shapes -/

/-- `h_line`, `src/extensions/display_extensions.c:579-583`: `n` pixels from `x`. -/
def hLine (c : Color) (y : Int) : Nat → Int → Img → Option Img
  | 0, _, m => some m
  | n + 1, x, m => (ck x).bind fun x => (putpixel m x y c).bind fun m => hLine c y n (x + 1) m

/-- `v_line`, `src/extensions/display_extensions.c:585-589`. -/
def vLine (c : Color) (x : Int) : Nat → Int → Img → Option Img
  | 0, _, m => some m
  | n + 1, y, m => (ck y).bind fun y => (putpixel m x y c).bind fun m => vLine c x n (y + 1) m

/-- Horizontal lines of a table, given by their offsets and lengths. -/
def hLines (c : Color) (x y : Int) : List (Int × Int × Nat) → Img → Option Img
  | [], m => some m
  | (dx, dy, n) :: l, m => (ck (y + dy)).bind fun y1 => (ck (x + dx)).bind fun x1 => (hLine c y1 n x1 m).bind fun m => hLines c x y l m

/-- The search for the left end of a row of `fill_circle`, `src/extensions/display_extensions.c:633-634`; at most `n` steps. -/
def rowStart (rsq ysq : Int) : Nat → Int → Option Int
  | 0, _ => none
  | n + 1, x => if x * x + ysq ≤ rsq then some x else rowStart rsq ysq n (x + 1)

/-- The search for the right end, `src/extensions/display_extensions.c:637-639`. -/
def rowEnd (r rsq ysq : Int) : Nat → Int → Int
  | 0, x => x
  | n + 1, x => if x + 1 ≤ r ∧ (x + 1) * (x + 1) + ysq ≤ rsq then rowEnd r rsq ysq n (x + 1) else x

/-- The rows of `fill_circle`, `src/extensions/display_extensions.c:632-650`: `n` rows from `y1`. -/
def diskRows (c : Color) (x y r : Int) : Nat → Int → Img → Option Img
  | 0, _, m => some m
  | n + 1, y1, m =>
    (match rowStart (r * r) (y1 * y1) (2 * r + 1).toNat (-r) with
    | some xl =>
      let xr := rowEnd r (r * r) (y1 * y1) (2 * r + 1).toNat xl
      (ck (x + xl)).bind fun x0 => (ck (y + y1)).bind fun y0 => hLine c y0 (xr - xl + 1).toNat x0 m
    | none => some m).bind fun m => diskRows c x y r n (y1 + 1) m

/-- `fill_circle`, `src/extensions/display_extensions.c:591-653`. The squares must not overflow. -/
def fillCircle (m : Img) (x y r : Int) (c : Color) : Option Img :=
  if r = 0 then some m
  else if r = 1 then hLines c x y [(-1, -1, 2), (-1, 0, 2)] m
  else if r = 2 then hLines c x y [(-1, -2, 2), (-2, -1, 4), (-2, 0, 4), (-1, 1, 2)] m
  else if r = 3 then hLines c x y [(-2, -3, 4), (-3, -2, 6), (-3, -1, 6), (-3, 0, 6), (-3, 1, 6), (-2, 2, 4)] m
  else if r = 4 then
    hLines c x y [(-2, -4, 4), (-3, -3, 6), (-4, -2, 8), (-4, -1, 8), (-4, 0, 8), (-4, 1, 8), (-3, 2, 6), (-2, 3, 4)] m
  else (ck (2 * (r * r))).bind fun _ => diskRows c x y r (2 * r + 1).toNat (-r) m

/-- The eight pixels of a step of `circle`, `src/extensions/display_extensions.c:708-715`. -/
def puts (c : Color) : List (Int × Int) → Img → Option Img
  | [], m => some m
  | (x, y) :: l, m => (ck x).bind fun x => (ck y).bind fun y => (putpixel m x y c).bind fun m => puts c l m

/-- The loop of `circle` for a thickness of 0, `src/extensions/display_extensions.c:707-720`; `none` after `f` steps without an end. -/
def circleLoop (c : Color) (x y : Int) : Nat → Int → Int → Int → Int → Int → Img → Option Img
  | 0, _, _, _, _, _, _ => none
  | f + 1, x0, y0, d, da, db, m =>
    if x0 < y0 then
      (puts c [(x + x0, y + y0), (x + x0, y - y0), (x - x0, y + y0), (x - x0, y - y0), (x + y0, y + x0), (x + y0, y - x0), (x - y0, y + x0), (x - y0, y - x0)] m).bind fun m =>
        if d < 0 then circleLoop c x y f (x0 + 1) y0 (d + da) (da + 8) (db + 8) m
        else circleLoop c x y f (x0 + 1) (y0 - 1) (d + db) (da + 8) (db + 16) m
    else some m

/-- `circle` for a thickness of at most 0, `src/extensions/display_extensions.c:699-720`. The numbers of the loop are at most `20 + 8 * r` in size, so that only this number is checked. -/
def circleThin (m : Img) (x y r : Int) (c : Color) : Option Img :=
  (ck (20 + 8 * r)).bind fun _ => (ck (20 - 8 * r)).bind fun _ => circleLoop c x y (r.toNat + 1) 0 r (5 - 4 * r) 12 (20 - 8 * r) m

/-- The search for the inner end of a slice in `handle_circle_slice`, `src/extensions/display_extensions.c:682-690`, with its limit of 2000; `none` after `n` steps without an end. -/
def sliceEnd (risq ysq delta : Int) : Nat → Int → Option Int
  | 0, _ => none
  | n + 1, cur =>
    if (2 * (cur + delta) + 1) * (2 * (cur + delta) + 1) + ysq ≤ risq ∨ ((cur + delta).natAbs : Int) > 2000 then some (cur + delta)
    else sliceEnd risq ysq delta n (cur + delta)

/-- `handle_circle_slice`, `src/extensions/display_extensions.c:657-696`. The squares are checked in `circleThick`. The search ends after at most 4002 steps. -/
def slice (c : Color) (cx cy ri risq ox oy : Int) (m : Img) : Option Img :=
  (ck (oy + cy)).bind fun y =>
    if (if oy < 0 then -oy > ri else oy ≥ ri) then
      if ox < 0 then (ck (ox + cx)).bind fun x => hLine c y (-ox).toNat x m
      else (ck (0 + cx)).bind fun x => hLine c y (ox + 1).toNat x m
    else
      (sliceEnd risq ((2 * oy + 1) * (2 * oy + 1)) (if ox > 0 then -1 else 1) 4100 ox).bind fun cur =>
        (ck ((if ox > 0 then cur + 1 else ox) + cx)).bind fun x => hLine c y (cur - ox).natAbs x m

/-- The search for the outer end of a row of a thick circle, `src/extensions/display_extensions.c:732-734`; at most `n` steps. -/
def outerEnd (rsq ysq : Int) : Nat → Int → Option Int
  | 0, _ => none
  | n + 1, x => if (2 * x + 1) * (2 * x + 1) + ysq ≤ rsq then some x else outerEnd rsq ysq n (x + 1)

/-- The rows of a thick circle, `src/extensions/display_extensions.c:728-748`: `n` rows from `y0`. -/
def ringRows (c : Color) (x y r ri : Int) : Nat → Int → Img → Option Img
  | 0, _, m => some m
  | n + 1, y0, m =>
    (match outerEnd (r * r * 4) ((2 * y0 + 1) * (2 * y0 + 1)) (r + 1).toNat (-r) with
    | some x0 =>
      (slice c x y ri (ri * ri * 4) x0 y0 m).bind fun m => (slice c x y ri (ri * ri * 4) (-x0 - 1) y0 m).bind fun m =>
        (slice c x y ri (ri * ri * 4) x0 (-y0 - 1) m).bind fun m => slice c x y ri (ri * ri * 4) (-x0 - 1) (-y0 - 1) m
    | none => some m).bind fun m => ringRows c x y r ri n (y0 + 1) m

/-- `circle` for a thickness above 0, `src/extensions/display_extensions.c:721-750`. No square is larger than `8 * r * r` or `4 * ri * ri`. -/
def circleThick (m : Img) (x y r t : Int) (c : Color) : Option Img :=
  (ck (r - t)).bind fun ri => (ck (r * r * 8)).bind fun _ => (ck (ri * ri * 4)).bind fun _ => ringRows c x y r ri r.toNat 0 m

/-- One pass of the loop of `line` after the pixel has been set, `src/extensions/display_extensions.c:815-831`: the new position and error, or nothing if the loop ends. -/
def lineNext (x1 y1 dx dy sx sy : Int) (x y e : Int) : Option (Option (Int × Int × Int)) :=
  if x = x1 ∧ y = y1 then some none
  else
    (ck (e * 2)).bind fun e2 =>
      if e2 ≥ dy then
        if x = x1 then some none
        else
          (ck (e + dy)).bind fun e =>
            (ck (e * 2)).bind fun e2 =>
              if e2 ≤ dx then
                if y = y1 then some none else (ck (e + dx)).bind fun e => some (some (x + sx, y + sy, e))
              else some (some (x + sx, y, e))
      else if e2 ≤ dx then
        if y = y1 then some none else (ck (e + dx)).bind fun e => some (some (x, y + sy, e))
      else some (some (x, y, e))

/-- The loop of `line`, `src/extensions/display_extensions.c:769-832`; `plot` is what is done at each position, with the variables that are kept between calls. `none` after `f` steps without an end. -/
def lineLoop {σ : Type} (plot : σ → Int → Int → Img → Option (σ × Img)) (x1 y1 dx dy sx sy : Int) : Nat → σ → Int → Int → Int → Img → Option (σ × Img)
  | 0, _, _, _, _, _ => none
  | f + 1, s, x, y, e, m =>
    (plot s x y m).bind fun r =>
      (lineNext x1 y1 dx dy sx sy x y e).bind fun
        | none => some r
        | some (x', y', e') => lineLoop plot x1 y1 dx dy sx sy f r.1 x' y' e' r.2

/-- `abs`. -/
def cabs (z : Int) : Option Int := if z < 0 then ck (-z) else some z

/-- The pen of `line`: a disk if the line is thick, `src/extensions/display_extensions.c:809-813`. -/
def pen (t : Int) (c : Color) (x y : Int) (m : Img) : Option Img := if t > 1 then fillCircle m x y t c else putpixel m x y c

/-- The static variables of `line`, `src/extensions/display_extensions.c:765-767`. -/
structure Dots where
  cnt : Int
  x : Int
  y : Int

/-- A dotted line at one position, `src/extensions/display_extensions.c:770-787`. -/
def dotPlot (t d1 d2 : Int) (c : Color) (s : Dots) (x y : Int) (m : Img) : Option (Dots × Img) :=
  (if s.cnt ≤ d1 then pen t c x y m else some m).bind fun m =>
    (ck (if x ≠ s.x ∨ y ≠ s.y then s.cnt + 1 else s.cnt)).bind fun n =>
      (ck (d1 + d2)).bind fun d => some (⟨if n ≥ d then 0 else n, x, y⟩, m)

/-- `line`, `src/extensions/display_extensions.c:755-834`. The number of steps is at most the sum of the distances. -/
def line (s : Dots) (m : Img) (x0 y0 x1 y1 t d1 d2 : Int) (c : Color) : Option (Dots × Img) :=
  (ck (x1 - x0)).bind fun ex => (ck (y1 - y0)).bind fun ey =>
    (cabs ex).bind fun dx => (cabs ey).bind fun ady =>
      let sx := if x0 < x1 then 1 else -1
      let sy := if y0 < y1 then 1 else -1
      if d1 > 0 then lineLoop (dotPlot t d1 d2 c) x1 y1 dx (-ady) sx sy (dx + ady + 1).toNat s x0 y0 (dx - ady) m
      else
        (lineLoop (fun (_ : Unit) x y m => (pen t c x y m).map fun m => ((), m)) x1 y1 dx (-ady) sx sy (dx + ady + 1).toNat () x0 y0 (dx - ady) m).map fun r => (s, r.2)

/-- The rows of a filled rectangle, `src/extensions/display_extensions.c:842-844`. -/
def rectRows (c : Color) (x : Int) (w : Nat) : Nat → Int → Img → Option Img
  | 0, _, m => some m
  | n + 1, y, m => (hLine c y w x m).bind fun m => rectRows c x w n (y + 1) m

/-- `rectangle`, `src/extensions/display_extensions.c:837-866`. -/
def rectangle (s : Dots) (m : Img) (x y w h : Int) (fill : Bool) (t d1 d2 : Int) (c : Color) : Option (Dots × Img) :=
  let t := Int.tdiv t 2
  if fill then (ck (y + h)).bind fun _ => (rectRows c x w.toNat h.toNat y m).map fun m => (s, m)
  else if t ≤ 0 ∧ d1 = 0 then
    (ck (y + h)).bind fun yh => (ck (x + w)).bind fun xw =>
      (hLine c y w.toNat x m).bind fun m => (hLine c yh w.toNat x m).bind fun m =>
        (vLine c x h.toNat y m).bind fun m => (vLine c xw h.toNat y m).map fun m => (s, m)
  else
    (ck (x + t)).bind fun x => (ck (y + t)).bind fun y => (ck (w - t * 2)).bind fun w => (ck (h - t * 2)).bind fun h =>
      (ck (x + w)).bind fun xw => (ck (y + h)).bind fun yh =>
        (line s m x y xw y t d1 d2 c).bind fun (s, m) => (line s m x yh xw yh t d1 d2 c).bind fun (s, m) =>
          (line s m x y x yh t d1 d2 c).bind fun (s, m) => line s m xw y xw yh t d1 d2 c

/-- `ext_rectangle` with the attributes `filled` and `rounded`, `src/extensions/display_extensions.c:2443-2450`. -/
def roundedRect (s : Dots) (m : Img) (x y w h rad : Int) (c : Color) : Option (Dots × Img) :=
  (ck (x + rad)).bind fun xl => (ck (w - 2 * rad)).bind fun wi => (ck (y + h)).bind fun yh => (ck (yh - rad)).bind fun yb =>
    (ck (y + rad)).bind fun yt => (ck (h - 2 * rad)).bind fun hi => (ck (x + w)).bind fun xw => (ck (xw - rad)).bind fun xr =>
      (rectangle s m xl y wi rad true 1 0 0 c).bind fun (s, m) => (rectangle s m xl yb wi rad true 1 0 0 c).bind fun (s, m) =>
        (rectangle s m x yt w hi true 1 0 0 c).bind fun (s, m) =>
          (fillCircle m xl yt rad c).bind fun m => (fillCircle m xl yb rad c).bind fun m => (fillCircle m xr yt rad c).bind fun m =>
            (fillCircle m xr yb rad c).map fun m => (s, m)

/-- `point_past_line`, `src/extensions/display_extensions.c:339-353`. -/
def pastLine (x y sx sy ex ey : Int) : Option Int :=
  (ck (x - sx)).bind fun a => (ck (ey - sy)).bind fun b => (ck (y - sy)).bind fun c => (ck (ex - sx)).bind fun d =>
    (ck (a * b)).bind fun p => (ck (c * d)).bind fun q => (ck (p - q)).map fun z => if z > 0 then 1 else if z < 0 then -1 else 0

/-- A row of `fill_triangle`, `src/extensions/display_extensions.c:879-888`: `n` pixels from `x`. -/
def triRow (c : Color) (x0 y0 x1 y1 x2 y2 y : Int) : Nat → Int → Img → Option Img
  | 0, _, m => some m
  | n + 1, x, m =>
    (pastLine x y x1 y1 x2 y2).bind fun w0 => (pastLine x y x2 y2 x0 y0).bind fun w1 => (pastLine x y x0 y0 x1 y1).bind fun w2 =>
      (if (w0 ≥ 0 ∧ w1 ≥ 0 ∧ w2 ≥ 0) ∨ (w0 ≤ 0 ∧ w1 ≤ 0 ∧ w2 ≤ 0) then putpixel m x y c else some m).bind fun m =>
        triRow c x0 y0 x1 y1 x2 y2 y n (x + 1) m

/-- The rows of `fill_triangle`, `src/extensions/display_extensions.c:878`. -/
def triRows (c : Color) (x0 y0 x1 y1 x2 y2 xmin : Int) (w : Nat) : Nat → Int → Img → Option Img
  | 0, _, m => some m
  | n + 1, y, m => (triRow c x0 y0 x1 y1 x2 y2 y w xmin m).bind fun m => triRows c x0 y0 x1 y1 x2 y2 xmin w n (y + 1) m

/-- `fill_triangle`, `src/extensions/display_extensions.c:871-890`. -/
def fillTriangle (m : Img) (x0 y0 x1 y1 x2 y2 : Int) (c : Color) : Option Img :=
  let xmin := min x0 (min x1 x2)
  let xmax := max x0 (max x1 x2)
  let ymin := min y0 (min y1 y2)
  let ymax := max y0 (max y1 y2)
  triRows c x0 y0 x1 y1 x2 y2 xmin (xmax - xmin + 1).toNat (ymax - ymin + 1).toNat ymin m

/-! ## Blit -/

/-- A row of `blit_rot_scale` without rotation and scaling, `src/extensions/display_extensions.c:1751-1763`: `n` pixels from `i`. The source and the destination are different arrays. -/
def blitRow (src : Img) (x y : Int) (tr : Color) (j : Int) : Nat → Int → Img → Option Img
  | 0, _, m => some m
  | n + 1, i, m =>
    (if 0 ≤ i - x ∧ i - x < src.w ∧ 0 ≤ j - y ∧ j - y < src.h then
      (getpixel src (i - x) (j - y)).bind fun p => if p ≠ tr then putpixel m i j p else some m
    else some m).bind fun m => blitRow src x y tr j n (i + 1) m

/-- The rows, `src/extensions/display_extensions.c:1750`. -/
def blitRows (src : Img) (x y : Int) (tr : Color) (i0 : Int) (w : Nat) : Nat → Int → Img → Option Img
  | 0, _, m => some m
  | n + 1, j, m => (blitRow src x y tr j w i0 m).bind fun m => blitRows src x y tr i0 w n (j + 1) m

/-- `blit_rot_scale` for rotation 0 and scale 1, `src/extensions/display_extensions.c:1720-1764`. -/
def blit (m src : Img) (x y : Int) (tr : Color) : Option Img :=
  let xs := if x > 0 then x else 0
  let ys := if y > 0 then y else 0
  (ck (m.w - x)).bind fun xw => (ck (m.h - y)).bind fun yh =>
    (ck (if xw > src.w then src.w + x else m.w)).bind fun xe => (ck (if yh > src.h then src.h + y else m.h)).bind fun ye =>
      blitRows src x y tr xs (xe - xs).toNat (ye - ys).toNat ys m

/-- The division of two `int`s: not defined for zero. -/
def dv (a b : Int) : Option Int := if b = 0 then none else ck (a.tdiv b)

/-- The pixel of the source for a pixel of the destination if there is no rotation, `src/extensions/display_extensions.c:1777-1784`. `xr`, `yr` and `sc` are `xr_i`, `yr_i` and `scale_i`, thousandths for the last one. -/
def scaleSrc (x y xr yr sc i j : Int) : Option (Int × Int) :=
  (ck (i - x)).bind fun a => (ck (a - xr)).bind fun a => (ck (a * 1000)).bind fun px =>
    (ck (j - y)).bind fun b => (ck (b - yr)).bind fun b => (ck (b * 1000)).bind fun py =>
      (ck (xr * 1000)).bind fun u => (ck (px + u)).bind fun px => (ck (yr * 1000)).bind fun v => (ck (py + v)).bind fun py =>
        (dv px sc).bind fun px => (dv py sc).map fun py => (px, py)

/-- The same with a rotation, `src/extensions/display_extensions.c:1810-1817`. `sr` and `cr` are `sr_i` and `cr_i`, the sine and the cosine in thousandths. -/
def turnSrc (x y xr yr sr cr sc i j : Int) : Option (Int × Int) :=
  (ck (i - x)).bind fun a => (ck (a - xr)).bind fun a => (ck (j - y)).bind fun b => (ck (b - yr)).bind fun b =>
    (ck (a * cr)).bind fun p => (ck (b * sr)).bind fun q => (ck (p + q)).bind fun px =>
      (ck (-a)).bind fun na => (ck (na * sr)).bind fun p => (ck (b * cr)).bind fun q => (ck (p + q)).bind fun py =>
        (ck (xr * 1000)).bind fun u => (ck (px + u)).bind fun px => (ck (yr * 1000)).bind fun v => (ck (py + v)).bind fun py =>
          (dv px sc).bind fun px => (dv py sc).map fun py => (px, py)

/-- A row of `blit_rot_scale` with scaling, `src/extensions/display_extensions.c:1776-1793`, or rotation, `1809-1826`: `n` pixels from `i`; `f` gives the pixel of the source. The source and the destination are different arrays. -/
def warpRow (src : Img) (f : Int → Int → Option (Int × Int)) (tr : Color) (j : Int) : Nat → Int → Img → Option Img
  | 0, _, m => some m
  | n + 1, i, m =>
    ((f i j).bind fun p =>
      if 0 ≤ p.1 ∧ p.1 < src.w ∧ 0 ≤ p.2 ∧ p.2 < src.h then
        (getpixel src p.1 p.2).bind fun c => if c ≠ tr then putpixel m i j c else some m
      else some m).bind fun m => warpRow src f tr j n (i + 1) m

/-- The rows, `src/extensions/display_extensions.c:1775` and `1808`. -/
def warpRows (src : Img) (f : Int → Int → Option (Int × Int)) (tr : Color) (w : Nat) : Nat → Int → Img → Option Img
  | 0, _, m => some m
  | n + 1, j, m => (warpRow src f tr j w 0 m).bind fun m => warpRows src f tr w n (j + 1) m

/-- `blit_rot_scale` without rotation, for a scale other than 1, `src/extensions/display_extensions.c:1765-1794`. The numbers are those after the conversion from `float` to `int`; what the conversion does is not modelled. -/
def blitScale (m src : Img) (x y xr yr sc : Int) (tr : Color) : Option Img := warpRows src (scaleSrc x y xr yr sc) tr m.w m.h 0 m

/-- `blit_rot_scale` with a rotation, `src/extensions/display_extensions.c:1795-1828`. The sine, the cosine and the conversions to `int` are not modelled. -/
def blitTurn (m src : Img) (x y xr yr sr cr sc : Int) (tr : Color) : Option Img := warpRows src (turnSrc x y xr yr sr cr sc) tr m.w m.h 0 m

end Verif.Img
