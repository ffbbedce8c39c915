import Verif.Img.Model

/-!
# What drawing on an image means

An image of `w` times `h` pixels with `fmt` bits per pixel is a string of bits: the pixel in column `i` and row `j` owns the `fmt` bits from `(j * w + i) * fmt` on, the most significant first.
-/

namespace Verif.Img

/-- The bits of an array, the most significant bit of a byte first. -/
def bit (d : List Byte) (q : Nat) : Bool := (d.getD (q / 8) 0#8).getLsbD (7 - q % 8)

/-- The bits of the pixel in column `i` and row `j`. -/
def pix (m : Img) (i j k : Nat) : Bool := bit m.data ((j * m.w + i) * m.fmt + k)

/-- The bits that stand for a colour `0xRRGGBB`, or for a colour number: the upper bits of red, green and blue, or the number. In a black and white image all numbers but 0 are white. -/
def encBit (fmt : Nat) (c : Color) (k : Nat) : Bool :=
  match fmt with
  | 1 => c ≠ 0
  | 2 => c.getLsbD (1 - k)
  | 4 => c.getLsbD (3 - k)
  | 8 => if k < 3 then c.getLsbD (23 - k) else if k < 6 then c.getLsbD (15 - (k - 3)) else c.getLsbD (7 - (k - 6))
  | 16 => if k < 5 then c.getLsbD (23 - k) else if k < 11 then c.getLsbD (15 - (k - 5)) else c.getLsbD (7 - (k - 11))
  | _ => c.getLsbD (23 - k)

/-- `m'` is `m` with the pixels `i`, `j` of `S` set to the colour `col i j` and everything else unchanged. -/
structure Painted (m m' : Img) (S : Int → Int → Prop) (col : Int → Int → Color) : Prop where
  w : m'.w = m.w
  h : m'.h = m.h
  fmt : m'.fmt = m.fmt
  len : m'.data.length = m.data.length
  set : ∀ i j k, i < m.w → j < m.h → k < m.fmt → S i j → pix m' i j k = encBit m.fmt (col i j) k
  keep : ∀ q, (∀ i j k : Nat, i < m.w → j < m.h → k < m.fmt → S i j → q ≠ (j * m.w + i) * m.fmt + k) → bit m'.data q = bit m.data q

/-- The size and the format of an image stay as they are. -/
structure SameDims (m m' : Img) : Prop where
  w : m'.w = m.w
  h : m'.h = m.h
  fmt : m'.fmt = m.fmt
  len : m'.data.length = m.data.length

/-- An image with one of the six formats whose array is large enough for its pixels, and small enough for a signed 32 bit index. -/
structure Ok (m : Img) : Prop where
  fmt : m.fmt = 1 ∨ m.fmt = 2 ∨ m.fmt = 4 ∨ m.fmt = 8 ∨ m.fmt = 16 ∨ m.fmt = 24
  room : m.w * m.h * m.fmt ≤ 8 * m.data.length
  small : m.data.length < 2147483648
  dims : m.w < 65536 ∧ m.h < 65536

/-- The colours that a format can hold as they are: the number is in range, and for `rgb565` the upper red bits are zero. -/
def Plain (fmt : Nat) (c : Color) : Prop :=
  (fmt = 2 → c.toNat < 4) ∧ (fmt = 4 → c.toNat < 16) ∧ (fmt = 16 → ∀ k, k < 5 → c.getLsbD (23 - k) = false)

/-- The pixels that are reached when the coordinates are cut to 16 bits. -/
def Wrap (S : Int → Int → Prop) (i j : Int) : Prop := ∃ x y, S x y ∧ x % 65536 = i ∧ y % 65536 = j

/-- Coordinates that are not moved into the image by the cut to 16 bits: less than 65536, and not too far below zero. -/
def Near (m : Img) (x y : Int) : Prop := m.w - 65536 ≤ x ∧ x < 65536 ∧ m.h - 65536 ≤ y ∧ y < 65536

/-- The pixels of a disk: for radii up to 4 the centre is the corner between four pixels, else it is a pixel. -/
def InDisk (x y r i j : Int) : Prop :=
  0 ≤ r ∧ if r ≤ 4 then (2 * (i - x) + 1) * (2 * (i - x) + 1) + (2 * (j - y) + 1) * (2 * (j - y) + 1) ≤ 4 * (r * r) else (i - x) * (i - x) + (j - y) * (j - y) ≤ r * r

/-- The pixels of a ring of the thickness `t`, whose outer circle has the radius `r`; the centre is the corner between four pixels. A ring that is as thick as its radius is a disk. -/
def InRing (x y r t i j : Int) : Prop :=
  0 ≤ r ∧ (2 * (i - x) + 1) * (2 * (i - x) + 1) + (2 * (j - y) + 1) * (2 * (j - y) + 1) ≤ 4 * (r * r) ∧
    ¬ (t < r ∧ (2 * (i - x) + 1) * (2 * (i - x) + 1) + (2 * (j - y) + 1) * (2 * (j - y) + 1) ≤ 4 * ((r - t) * (r - t)))

/-- The pixels of a rectangle with round corners: those of the rectangle that are in the disk of the corner if they are in the square of a corner. -/
def InRounded (x y w h rad i j : Int) : Prop :=
  x ≤ i ∧ i < x + w ∧ y ≤ j ∧ j < y + h ∧
    (i < x + rad → j < y + rad → InDisk (x + rad) (y + rad) rad i j) ∧ (i < x + rad → y + h - rad ≤ j → InDisk (x + rad) (y + h - rad) rad i j) ∧
    (x + w - rad ≤ i → j < y + rad → InDisk (x + w - rad) (y + rad) rad i j) ∧ (x + w - rad ≤ i → y + h - rad ≤ j → InDisk (x + w - rad) (y + h - rad) rad i j)

/-- The pixels of the pen. -/
def InPen (t x y i j : Int) : Prop := if t > 1 then InDisk x y t i j else i = x ∧ j = y

/-- Two different pixels that touch each other, if only at a corner. -/
def Neighbours (p q : Int × Int) : Prop := (p.1 - q.1).natAbs ≤ 1 ∧ (p.2 - q.2).natAbs ≤ 1 ∧ p ≠ q

/-- Each pixel touches the next one. -/
def Linked : List (Int × Int) → Prop
  | p :: q :: l => Neighbours p q ∧ Linked (q :: l)
  | _ => True

/-- Twice the area of the triangle that a point makes with the ends of a line: the distance from the line times its length. -/
def cross (x0 y0 x1 y1 x y : Int) : Int := (x - x0) * (y1 - y0) - (y - y0) * (x1 - x0)

/-- The lines that miss their end: they go up by at least half as much as they go to the side, and by less than that. -/
def Flat (x0 y0 x1 y1 : Int) : Prop := (y1 - y0).natAbs < (x1 - x0).natAbs ∧ (x1 - x0).natAbs ≤ 2 * (y1 - y0).natAbs

/-- A path of pixels for a line. -/
structure LinePath (x0 y0 x1 y1 : Int) (l : List (Int × Int)) : Prop where
  /-- It starts at the first end. -/
  first : l.head? = some (x0, y0)
  /-- It has no gaps. -/
  linked : Linked l
  /-- It stays in the box of the two ends. -/
  box : ∀ p ∈ l, min x0 x1 ≤ p.1 ∧ p.1 ≤ max x0 x1 ∧ min y0 y1 ≤ p.2 ∧ p.2 ≤ max y0 y1
  /-- It is at most one and a half pixels away from the line, measured along the shorter side. -/
  close : ∀ p ∈ l, 2 * (cross x0 y0 x1 y1 p.1 p.2).natAbs ≤ 3 * max (x1 - x0).natAbs (y1 - y0).natAbs
  /-- It ends at the second end, but for flat lines it stops one pixel before. -/
  last : ¬ Flat x0 y0 x1 y1 → l.getLast? = some (x1, y1)
  short : Flat x0 y0 x1 y1 → l.getLast? = some (x1 - (x1 - x0).sign, y1) ∧ (x1, y1) ∉ l
  /-- Horizontal, vertical and diagonal lines are exact. -/
  straight : x0 = x1 ∨ y0 = y1 ∨ (x1 - x0).natAbs = (y1 - y0).natAbs → ∀ x y, (x, y) ∈ l ↔
    min x0 x1 ≤ x ∧ x ≤ max x0 x1 ∧ min y0 y1 ≤ y ∧ y ≤ max y0 y1 ∧ cross x0 y0 x1 y1 x y = 0

/-- A point of the triangle with the given corners: a weighted mean of the corners. -/
def InTriangle (x0 y0 x1 y1 x2 y2 x y : Int) : Prop :=
  ∃ a b c : Int, 0 ≤ a ∧ 0 ≤ b ∧ 0 ≤ c ∧ 0 < a + b + c ∧ (a + b + c) * x = a * x0 + b * x1 + c * x2 ∧ (a + b + c) * y = a * y0 + b * y1 + c * y2

/-- The pixels of the outline of a circle: not on a diagonal, and less than half a pixel away from the circle, measured along the longer side. -/
def OnCircle (x y r i j : Int) : Prop :=
  let a := min (i - x).natAbs (j - y).natAbs
  let b := max (i - x).natAbs (j - y).natAbs
  a < b ∧ 4 * ((a : Int) * a) + (2 * b - 1) * (2 * b - 1) < 4 * (r * r) ∧ 4 * (r * r) < 4 * ((a : Int) * a) + (2 * b + 1) * (2 * b + 1)

/-- The bits of the colour that a pixel with the bits `p` has: the number, or its red, green and blue parts, filled up with zeros. -/
def decBit (fmt : Nat) (p : Nat → Bool) (n : Nat) : Bool :=
  match fmt with
  | 8 => if 21 ≤ n ∧ n ≤ 23 then p (23 - n) else if 13 ≤ n ∧ n ≤ 15 then p (18 - n) else if 6 ≤ n ∧ n ≤ 7 then p (13 - n) else false
  | 16 => if 19 ≤ n ∧ n ≤ 23 then p (23 - n) else if 10 ≤ n ∧ n ≤ 15 then p (20 - n) else if 3 ≤ n ∧ n ≤ 7 then p (18 - n) else false
  | _ => if n < fmt then p (fmt - 1 - n) else false

end Verif.Img
