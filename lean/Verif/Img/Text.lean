import Verif.Img.Blit

/-!
# Text

A font is an array of bytes: width, height, number of characters, bits per pixel, and then the characters, the pixels of each row by row and the first pixel of a byte in its least significant bits.
-/

namespace Verif.Img

/-! ## Model -/

/-- `putpixel` at a pixel of a character for the three directions, `src/extensions/display_extensions.c:1684-1690` and `1709-1715`. -/
def putGlyphPixel (m : Img) (x y : Int) (up down : Bool) (x0 y0 : Int) (c : Color) : Option Img :=
  if up then (ck (x + y0)).bind fun a => (ck (y - x0)).bind fun b => putpixel m a b c
  else if down then (ck (x - y0)).bind fun a => (ck (y + x0)).bind fun b => putpixel m a b c
  else (ck (x + x0)).bind fun a => (ck (y + y0)).bind fun b => putpixel m a b c

/-- The loop for two bits per pixel, `src/extensions/display_extensions.c:1678-1691`; `base` is the index of the character, `n` pixels from `i`. -/
def glyph2 (font : List Byte) (base w : Nat) (cs : Nat → Color) (x y : Int) (up down : Bool) : Nat → Nat → Img → Option Img
  | 0, _, m => some m
  | n + 1, i, m =>
    (font[base + i / 4]?).bind fun (b : Byte) =>
      (putGlyphPixel m x y up down (i % w : Nat) (i / w : Nat) (cs ((b >>> (i % 4 * 2)) &&& 3#8).toNat)).bind fun m => glyph2 font base w cs x y up down n (i + 1) m

/-- The loop for other fonts, `src/extensions/display_extensions.c:1704-1716`: a negative background is not drawn. -/
def glyph1 (font : List Byte) (base w : Nat) (cs : Nat → Color) (x y : Int) (up down : Bool) : Nat → Nat → Img → Option Img
  | 0, _, m => some m
  | n + 1, i, m =>
    (font[base + i / 8]?).bind fun (b : Byte) =>
      let bit := b &&& (1#8 <<< (i % 8))
      (if bit ≠ 0 ∨ (cs 1).msb = false then putGlyphPixel m x y up down (i % w : Nat) (i / w : Nat) (if bit ≠ 0 then cs 0 else cs 1) else some m).bind fun m =>
        glyph1 font base w cs x y up down n (i + 1) m

/-- `img_putc`, `src/extensions/display_extensions.c:1645-1718`, with four colours. A division by zero is undefined. -/
def imgPutc (m : Img) (x y : Int) (cs : Nat → Color) (font : List Byte) (ch : Byte) (up down : Bool) : Option Img :=
  match font with
  | w :: h :: num :: bpp :: _ =>
    if bpp.toNat = 0 ∨ 8 / bpp.toNat = 0 then none
    else
      let ppb := 8 / bpp.toNat
      let size := w.toNat * h.toNat
      let bpc := size / ppb + if size % ppb ≠ 0 then 1 else 0
      let ch := if num = 10 then ch - 48 else ch - 32
      if num ≤ ch then some m
      else if bpp = 2 then glyph2 font (4 + bpc * ch.toNat) w.toNat cs x y up down size 0 m
      else glyph1 font (4 + bpc * ch.toNat) w.toNat cs x y up down size 0 m
  | _ => none

/-- The loop of `ext_text`, `src/extensions/display_extensions.c:2603-2618`: the characters from the position `ind` on. `txt` is the string up to its terminator. -/
def textLoop (font : List Byte) (w h : Nat) (cs : Nat → Color) (x y : Int) (up down : Bool) : List Byte → Nat → Img → Option Img
  | [], _, m => some m
  | ch :: l, ind, m =>
    let incx : Int := if up ∨ down then 0 else 1
    let incy : Int := if up then -1 else if down then 1 else 0
    (ck (x + ind * (if up ∨ down then h else w : Nat) * incx)).bind fun a => (ck (y + ind * (if up ∨ down then w else h : Nat) * incy)).bind fun b =>
      (imgPutc m a b cs font ch up down).bind fun m => textLoop font w h cs x y up down l (ind + 1) m

/-- `ext_text`, `src/extensions/display_extensions.c:2521-2621`, after the decoding of its arguments. `none` inside: the call fails with a type error since the font is too small. -/
def text (m : Img) (x y : Int) (cs : Nat → Color) (font txt : List Byte) (up down : Bool) : Option (Option Img) :=
  match font with
  | w :: h :: _ => if font.length < 254 then some none else (textLoop font w.toNat h.toNat cs x y up down txt 0 m).map some
  | _ => some none

/-! ## Specification -/

/-- The bits of a font, the least significant bit of a byte first. -/
def fontBit (font : List Byte) (q : Nat) : Bool := (font.getD (q / 8) 0#8).getLsbD (q % 8)

/-- A font with 1 or 2 bits per pixel that contains all of its characters, each in whole bytes. -/
structure Font where
  w : Nat
  h : Nat
  num : Nat
  bpp : Nat
  data : List Byte

/-- The bytes of a character. -/
def Font.bytes (f : Font) : Nat := (f.w * f.h * f.bpp + 7) / 8

/-- The font in an array. -/
structure Font.In (f : Font) (a : List Byte) : Prop where
  head : a = BitVec.ofNat 8 f.w :: BitVec.ofNat 8 f.h :: BitVec.ofNat 8 f.num :: BitVec.ofNat 8 f.bpp :: f.data
  small : f.w < 256 ∧ f.h < 256 ∧ f.num < 256
  bpp : f.bpp = 1 ∨ f.bpp = 2
  room : f.num * f.bytes ≤ f.data.length

/-- The index of a character in the font: fonts with ten characters start at the digit 0, others at the space. -/
def Font.index (f : Font) (ch : Byte) : Nat := if f.num = 10 then (ch - 48).toNat else (ch - 32).toNat

/-- The number that a font has for the pixel in column `a` and row `b` of a character. -/
def Font.pixel (f : Font) (ch : Byte) (a b : Nat) : Nat :=
  let q := 8 * (f.bytes * f.index ch) + (b * f.w + a) * f.bpp
  if f.bpp = 1 then (fontBit f.data q).toNat else (fontBit f.data q).toNat + 2 * (fontBit f.data (q + 1)).toNat

/-- The colour of a pixel with this number: with two bits one of four colours; with one bit the first colour for 1 and the second one for 0, if it is not negative. -/
def Font.colour (f : Font) (cs : Nat → Color) (v : Nat) : Option Color := if f.bpp = 2 then some (cs v) else if v = 1 then some (cs 0) else if (cs 1).msb = false then some (cs 1) else none

/-- The colour that a text has in column `A` and row `B`: the characters stand next to each other; characters that are not in the font are blank. -/
def Font.at (f : Font) (cs : Nat → Color) (txt : List Byte) (A B : Int) : Option Color :=
  if 0 ≤ A ∧ 0 ≤ B ∧ B < f.h then
    match txt[A.toNat / f.w]? with
    | some ch => if f.index ch < f.num ∧ 0 < f.w then f.colour cs (f.pixel ch (A.toNat % f.w) B.toNat) else none
    | none => none
  else none

/-- The column of the text at the pixel `i`, `j` of an image if the text starts at `x`, `y`. -/
def col (x y : Int) (up down : Bool) (i j : Int) : Int := if up then y - j else if down then j - y else i - x

/-- The row. -/
def row (x y : Int) (up down : Bool) (i j : Int) : Int := if up then i - x else if down then x - i else j - y

/-- The pixels of a text. -/
def OnText (f : Font) (cs : Nat → Color) (txt : List Byte) (x y : Int) (up down : Bool) (i j : Int) : Prop := (f.at cs txt (col x y up down i j) (row x y up down i j)).isSome

/-- Their colours. -/
def textCol (f : Font) (cs : Nat → Color) (txt : List Byte) (x y : Int) (up down : Bool) (i j : Int) : Color := (f.at cs txt (col x y up down i j) (row x y up down i j)).getD 0

/-! ## Proofs -/

theorem putpixel_nearB {m : Img} (wf : Ok m) {x y : Int} (hn : Near m x y) (c : Color) (co : Int → Int → Color) (hco : co x y = c) :
    ∃ m', putpixel m x y c = some m' ∧ DrawnB m m' (fun i j => i = x ∧ j = y) co := by
  obtain ⟨m', e, d⟩ := putpixel_drawn wf x y c
  refine ⟨m', e, d.same, fun hp => ?_⟩
  have hp := hp x y ⟨rfl, rfl⟩
  rw [hco] at hp
  have p := (d.paint hp).near (fun i j h => by rw [h.1, h.2]; exact hn)
  exact ⟨p.w, p.h, p.fmt, p.len, fun i j k hi hj hk hs => by rw [p.set i j k hi hj hk hs, hs.1, hs.2, hco], p.keep⟩

/-- A pixel of a text. -/
theorem putGlyph_drawn {m : Img} (wf : Ok m) {x y : Int} {up down : Bool} {a b : Nat} (hx : -1073741824 ≤ x ∧ x ≤ 1073741824) (hy : -1073741824 ≤ y ∧ y ≤ 1073741824) (ha : a ≤ 1073741823) (hb : b ≤ 1073741823)
    (hn : ∀ i j, col x y up down i j = a → row x y up down i j = b → Near m i j) (c : Color) (co : Int → Int → Color) (hco : ∀ i j, col x y up down i j = a → row x y up down i j = b → co i j = c) :
    ∃ m', putGlyphPixel m x y up down a b c = some m' ∧ DrawnB m m' (fun i j => col x y up down i j = a ∧ row x y up down i j = b) co := by
  unfold putGlyphPixel
  cases up
  · cases down
    · simp only [col, row, Bool.false_eq_true, if_false] at *
      rw [ck_ok (by omega), Option.bind_some, ck_ok (by omega), Option.bind_some]
      obtain ⟨m', e, d⟩ := putpixel_nearB wf (hn (x + a) (y + b) (by omega) (by omega)) c co (hco _ _ (by omega) (by omega))
      exact ⟨m', e, d.congr fun i j => by omega⟩
    · simp only [col, row, Bool.false_eq_true, if_false, if_true] at *
      rw [ck_ok (by omega), Option.bind_some, ck_ok (by omega), Option.bind_some]
      obtain ⟨m', e, d⟩ := putpixel_nearB wf (hn (x - b) (y + a) (by omega) (by omega)) c co (hco _ _ (by omega) (by omega))
      exact ⟨m', e, d.congr fun i j => by omega⟩
  · simp only [col, row, if_true] at *
    rw [ck_ok (by omega), Option.bind_some, ck_ok (by omega), Option.bind_some]
    obtain ⟨m', e, d⟩ := putpixel_nearB wf (hn (x + b) (y - a) (by omega) (by omega)) c co (hco _ _ (by omega) (by omega))
    exact ⟨m', e, d.congr fun i j => by omega⟩

/-- The number of a pixel with two bits. -/
theorem two_bits (b : Byte) (i : Nat) : ((b >>> (i % 4 * 2)) &&& 3#8).toNat = (b.getLsbD (i % 4 * 2)).toNat + 2 * (b.getLsbD (i % 4 * 2 + 1)).toNat := by
  have h : i % 4 = 0 ∨ i % 4 = 1 ∨ i % 4 = 2 ∨ i % 4 = 3 := by omega
  rcases h with h | h | h | h <;> rw [h] <;> revert b <;> decide +kernel

theorem one_bit (b : Byte) (i : Nat) : (b &&& (1#8 <<< (i % 8)) ≠ 0) ↔ b.getLsbD (i % 8) = true := by
  have h : i % 8 < 8 := by omega
  rcases bits8 h with h | h | h | h | h | h | h | h <;> rw [h] <;> revert b <;> decide +kernel

theorem div_col {w i : Nat} (hw : 0 < w) : i / w * w + i % w = i := by rw [Nat.mul_comm]; exact Nat.div_add_mod i w

/-- The text coordinates of the pixels from `i` on. -/
theorem cell_step {w i n : Nat} {A B : Int} (hw : 0 < w) :
    ((0 ≤ A ∧ 0 ≤ B ∧ A < w ∧ (i : Int) ≤ B * w + A ∧ B * w + A < i + (n + 1 : Nat)) ↔
      (A = (i % w : Nat) ∧ B = (i / w : Nat)) ∨ (0 ≤ A ∧ 0 ≤ B ∧ A < w ∧ ((i + 1 : Nat) : Int) ≤ B * w + A ∧ B * w + A < (i + 1 : Nat) + n)) := by
  constructor
  · rintro ⟨h1, h2, h3, h4, h5⟩
    by_cases h : B * w + A = i
    · left
      obtain ⟨a, rfl⟩ := Int.eq_ofNat_of_zero_le h1
      obtain ⟨b, rfl⟩ := Int.eq_ofNat_of_zero_le h2
      have e : b * w + a = i := by exact_mod_cast h
      have ha : a < w := by omega
      subst e
      rw [Nat.add_comm, Nat.add_mul_mod_self_right, Nat.mod_eq_of_lt ha, Nat.add_mul_div_right _ _ hw, Nat.div_eq_of_lt ha]
      simp
    · right; omega
  · rintro (⟨rfl, rfl⟩ | h)
    · have := div_col (i := i) hw
      have h2 := Nat.mod_lt i hw
      have e : ((i / w : Nat) : Int) * w + (i % w : Nat) = i := by exact_mod_cast this
      generalize i / w = d at *
      generalize i % w = r at *
      omega
    · omega

/-- The loop over the pixels of a character, for any way to draw one. -/
theorem glyph_loop {w : Nat} (hw : 0 < w) {x y : Int} {up down : Bool} (co : Int → Int → Color) (loop : Nat → Nat → Img → Option Img) (one : Nat → Img → Option Img) (vis : Nat → Nat → Prop)
    (h0 : ∀ i m, loop 0 i m = some m) (h1 : ∀ n i m, loop (n + 1) i m = (one i m).bind (loop n (i + 1))) (total : Nat) (m0 : Img)
    (ho : ∀ i m, i < total → Ok m → SameDims m0 m → ∃ m', one i m = some m' ∧ DrawnB m m' (fun a b => (col x y up down a b = (i % w : Nat) ∧ row x y up down a b = (i / w : Nat)) ∧ vis (i % w) (i / w)) co) :
    ∀ (n i : Nat) (m : Img), i + n ≤ total → Ok m → SameDims m0 m → ∃ m', loop n i m = some m' ∧
      DrawnB m m' (fun a b => (0 ≤ col x y up down a b ∧ 0 ≤ row x y up down a b ∧ col x y up down a b < w ∧ (i : Int) ≤ row x y up down a b * w + col x y up down a b ∧ row x y up down a b * w + col x y up down a b < i + n) ∧
        vis (col x y up down a b).toNat (row x y up down a b).toNat) co
  | 0, i, m, _, _, _ => ⟨m, h0 i m, .none m fun a b h => by omega⟩
  | n + 1, i, m, hi, wf, hs => by
    obtain ⟨m1, e1, d1⟩ := ho i m (by omega) wf hs
    obtain ⟨m2, e2, d2⟩ := glyph_loop hw co loop one vis h0 h1 total m0 ho n (i + 1) m1 (by omega) (d1.same.ok wf) (hs.trans d1.same)
    refine ⟨m2, by rw [h1, e1]; exact e2, (d1.trans d2).congr fun a b => ?_⟩
    rw [cell_step hw]
    constructor
    · rintro (⟨h, hv⟩ | ⟨h, hv⟩)
      · exact ⟨.inl h, by rw [h.1, h.2, Int.toNat_natCast, Int.toNat_natCast]; exact hv⟩
      · exact ⟨.inr h, hv⟩
    · rintro ⟨h | h, hv⟩
      · exact .inl ⟨h, by rw [h.1, h.2, Int.toNat_natCast, Int.toNat_natCast] at hv; exact hv⟩
      · exact .inr ⟨h, hv⟩

/-- Where the bytes of a character are. -/
theorem Font.byte {f : Font} {a : List Byte} (hf : f.In a) {ch : Byte} (hi : f.index ch < f.num) {k : Nat} (hk : k < f.bytes) :
    a[4 + f.bytes * f.index ch + k]? = some (f.data.getD (f.bytes * f.index ch + k) 0#8) := by
  have h1 : f.bytes * f.index ch + f.bytes ≤ f.data.length := by
    have : f.bytes * (f.index ch + 1) ≤ f.bytes * f.num := Nat.mul_le_mul_left _ hi
    have h2 := hf.room
    rw [Nat.mul_comm f.num] at h2
    rw [Nat.mul_add, Nat.mul_one] at this
    omega
  rw [hf.head, show 4 + f.bytes * f.index ch + k = f.bytes * f.index ch + k + 1 + 1 + 1 + 1 by omega]
  simp only [List.getElem?_cons_succ]
  rw [List.getD_eq_getElem?_getD, List.getElem?_eq_getElem (by omega)]
  rfl

/-- A character. -/
theorem imgPutc_drawn {m : Img} (wf : Ok m) {f : Font} {a : List Byte} (hf : f.In a) (cs : Nat → Color) (ch : Byte) {x y : Int} {up down : Bool} (hx : -1073741824 ≤ x ∧ x ≤ 1073741824) (hy : -1073741824 ≤ y ∧ y ≤ 1073741824)
    (hn : ∀ i j, 0 ≤ col x y up down i j → col x y up down i j < f.w → 0 ≤ row x y up down i j → row x y up down i j < f.h → Near m i j) (co : Int → Int → Color)
    (hco : ∀ i j c, 0 ≤ col x y up down i j → col x y up down i j < f.w → 0 ≤ row x y up down i j → row x y up down i j < f.h → f.index ch < f.num →
      f.colour cs (f.pixel ch (col x y up down i j).toNat (row x y up down i j).toNat) = some c → co i j = c) :
    ∃ m', imgPutc m x y cs a ch up down = some m' ∧
      DrawnB m m' (fun i j => (0 ≤ col x y up down i j ∧ col x y up down i j < f.w ∧ 0 ≤ row x y up down i j ∧ row x y up down i j < f.h) ∧ f.index ch < f.num ∧
        (f.colour cs (f.pixel ch (col x y up down i j).toNat (row x y up down i j).toNat)).isSome) co := by
  have hsm := hf.small
  have hb := hf.bpp
  have hbt : (BitVec.ofNat 8 f.bpp).toNat = f.bpp := by rw [BitVec.toNat_ofNat]; omega
  have hwt : (BitVec.ofNat 8 f.w).toNat = f.w := by rw [BitVec.toNat_ofNat]; omega
  have hht : (BitVec.ofNat 8 f.h).toNat = f.h := by rw [BitVec.toNat_ofNat]; omega
  have hnt : (BitVec.ofNat 8 f.num).toNat = f.num := by rw [BitVec.toNat_ofNat]; omega
  have hbytes : f.w * f.h / (8 / f.bpp) + (if f.w * f.h % (8 / f.bpp) ≠ 0 then 1 else 0) = f.bytes := by
    unfold Font.bytes
    rcases hb with h | h <;> rw [h] <;> simp only [Nat.reduceDiv, Nat.div_one, Nat.mul_one] <;> split <;> omega
  have hn10 : (BitVec.ofNat 8 f.num = 10#8) ↔ f.num = 10 := by
    constructor
    · intro h
      have := congrArg BitVec.toNat h
      rw [hnt] at this
      simpa using this
    · intro h; rw [h]
  have hidx : (if BitVec.ofNat 8 f.num = 10#8 then ch - 48 else ch - 32 : Byte).toNat = f.index ch := by
    unfold Font.index
    by_cases h : f.num = 10
    · rw [if_pos (hn10.2 h), if_pos h]
    · rw [if_neg (fun e => h (hn10.1 e)), if_neg h]
  have hle : (BitVec.ofNat 8 f.num ≤ (if BitVec.ofNat 8 f.num = 10#8 then ch - 48 else ch - 32 : Byte)) ↔ f.num ≤ f.index ch := by
    rw [BitVec.le_def, hidx, hnt]
  have hb2 : (BitVec.ofNat 8 f.bpp = 2#8) ↔ f.bpp = 2 := by rcases hb with h | h <;> rw [h] <;> decide
  have hstart : imgPutc m x y cs a ch up down = if f.num ≤ f.index ch then some m else if f.bpp = 2 then glyph2 a (4 + f.bytes * f.index ch) f.w cs x y up down (f.w * f.h) 0 m
      else glyph1 a (4 + f.bytes * f.index ch) f.w cs x y up down (f.w * f.h) 0 m := by
    rw [hf.head]
    simp only [imgPutc, hbt, hwt, hht]
    rw [if_neg (by rcases hb with h | h <;> rw [h] <;> decide)]
    rw [hbytes]
    simp only [show (10 : Byte) = 10#8 from rfl, show (2 : Byte) = 2#8 from rfl, hle, hidx, hb2]
  rw [hstart]
  by_cases hi : f.num ≤ f.index ch
  · rw [if_pos hi]
    exact ⟨m, rfl, .none m fun i j h => by omega⟩
  rw [if_neg hi]
  have hi' : f.index ch < f.num := by omega
  by_cases hw : 0 < f.w
  rotate_left
  · have h0 : f.w * f.h = 0 := by rw [show f.w = 0 by omega, Nat.zero_mul]
    rw [h0]
    exact ⟨m, by simp [glyph1, glyph2], .none m fun i j h => by omega⟩
  have hcell : ∀ i, i < f.w * f.h → i % f.w < f.w ∧ i / f.w < f.h := fun i h => ⟨Nat.mod_lt _ hw, Nat.div_lt_of_lt_mul h⟩
  have fin : ∀ (loop : Nat → Nat → Img → Option Img) (one : Nat → Img → Option Img), (∀ i m, loop 0 i m = some m) → (∀ n i m, loop (n + 1) i m = (one i m).bind (loop n (i + 1))) →
      (∀ i m', i < f.w * f.h → Ok m' → SameDims m m' → ∃ m'', one i m' = some m'' ∧
        DrawnB m' m'' (fun a b => (col x y up down a b = (i % f.w : Nat) ∧ row x y up down a b = (i / f.w : Nat)) ∧ (f.colour cs (f.pixel ch (i % f.w) (i / f.w))).isSome) co) →
      ∃ m', loop (f.w * f.h) 0 m = some m' ∧ DrawnB m m' (fun i j => (0 ≤ col x y up down i j ∧ col x y up down i j < f.w ∧ 0 ≤ row x y up down i j ∧ row x y up down i j < f.h) ∧ f.index ch < f.num ∧
        (f.colour cs (f.pixel ch (col x y up down i j).toNat (row x y up down i j).toNat)).isSome) co := by
    intro loop one h0 h1 ho
    obtain ⟨m', e, d⟩ := glyph_loop hw (x := x) (y := y) (up := up) (down := down) co loop one (fun a b => (f.colour cs (f.pixel ch a b)).isSome) h0 h1 (f.w * f.h) m ho (f.w * f.h) 0 m (by omega) wf (.refl m)
    refine ⟨m', e, d.congr fun i j => ?_⟩
    generalize col x y up down i j = A
    generalize row x y up down i j = B
    have key : 0 ≤ A → 0 ≤ B → A < f.w → (B * f.w + A < ((0 : Nat) : Int) + (f.w * f.h : Nat) ↔ B < f.h) ∧ ((0 : Nat) : Int) ≤ B * f.w + A := by
      intro h1 h2 h3
      obtain ⟨a, rfl⟩ := Int.eq_ofNat_of_zero_le h1
      obtain ⟨b, rfl⟩ := Int.eq_ofNat_of_zero_le h2
      have e1 : ((b : Int) * f.w + a < ((0 : Nat) : Int) + (f.w * f.h : Nat)) ↔ b * f.w + a < f.w * f.h := by
        rw [show ((0 : Nat) : Int) + ((f.w * f.h : Nat) : Int) = ((f.w * f.h : Nat) : Int) by omega]
        exact_mod_cast Iff.rfl
      refine ⟨e1.trans ⟨fun h => ?_, fun h => ?_⟩, ?_⟩
      · have : b * f.w < f.w * f.h := by omega
        rw [Nat.mul_comm] at this
        have := Nat.lt_of_mul_lt_mul_left this
        omega
      · have : f.w * (b + 1) ≤ f.w * f.h := Nat.mul_le_mul_left _ (by omega)
        rw [Nat.mul_add, Nat.mul_one, Nat.mul_comm] at this
        omega
      · have : (0 : Int) ≤ b * f.w := Int.mul_nonneg (by omega) (by omega)
        omega
    constructor
    · rintro ⟨⟨h1, h2, h3, h4, h5⟩, hv⟩
      exact ⟨⟨h1, h3, h2, (key h1 h2 h3).1.1 h5⟩, hi', hv⟩
    · rintro ⟨⟨h1, h2, h3, h4⟩, -, hv⟩
      exact ⟨⟨h1, h3, h2, (key h1 h3 h2).2, (key h1 h3 h2).1.2 h4⟩, hv⟩
  have hdraw : ∀ i m' c, i < f.w * f.h → Ok m' → SameDims m m' → f.colour cs (f.pixel ch (i % f.w) (i / f.w)) = some c →
      ∃ m'', putGlyphPixel m' x y up down (i % f.w : Nat) (i / f.w : Nat) c = some m'' ∧
        DrawnB m' m'' (fun a b => (col x y up down a b = (i % f.w : Nat) ∧ row x y up down a b = (i / f.w : Nat)) ∧ (f.colour cs (f.pixel ch (i % f.w) (i / f.w))).isSome) co := by
    intro i m' c hi wf' hs hc
    obtain ⟨c1, c2⟩ := hcell i hi
    generalize hA : i % f.w = A at *
    generalize hB : i / f.w = B at *
    obtain ⟨m'', e, d⟩ := putGlyph_drawn wf' (x := x) (y := y) (up := up) (down := down) (a := A) (b := B) hx hy (by omega) (by omega)
      (fun i j h1 h2 => by
        have := hn i j (by omega) (by omega) (by omega) (by omega)
        obtain ⟨q1, q2, q3, q4⟩ := this
        exact ⟨by rw [hs.w]; exact q1, q2, by rw [hs.h]; exact q3, q4⟩) c co (fun i j h1 h2 => hco i j c (by omega) (by omega) (by omega) (by omega) hi' (by rw [h1, h2, Int.toNat_natCast, Int.toNat_natCast]; exact hc))
    exact ⟨m'', e, d.congr fun i j => by rw [hc]; simp⟩
  rcases hb with hb | hb
  · rw [if_neg (by omega)]
    refine fin _ (fun i m => (a[4 + f.bytes * f.index ch + i / 8]?).bind fun (b : Byte) => if b &&& (1#8 <<< (i % 8)) ≠ 0 ∨ (cs 1).msb = false then
        putGlyphPixel m x y up down (i % f.w : Nat) (i / f.w : Nat) (if b &&& (1#8 <<< (i % 8)) ≠ 0 then cs 0 else cs 1) else some m) (fun _ _ => rfl)
        (fun n i m => by rw [glyph1, Option.bind_assoc]) ?_
    intro i m' hlt wf' hs
    have hpix : f.pixel ch (i % f.w) (i / f.w) = ((f.data.getD (f.bytes * f.index ch + i / 8) 0#8).getLsbD (i % 8)).toNat := by
      simp only [Font.pixel, hb, if_true, Nat.mul_one]
      rw [div_col hw, fontBit, show (8 * (f.bytes * f.index ch) + i) / 8 = f.bytes * f.index ch + i / 8 by omega, show (8 * (f.bytes * f.index ch) + i) % 8 = i % 8 by omega]
    rw [Font.byte hf hi' (k := i / 8) (by unfold Font.bytes; rw [hb]; omega), Option.bind_some]
    generalize f.data.getD (f.bytes * f.index ch + i / 8) 0#8 = b at hpix
    simp only [one_bit]
    cases hbit : b.getLsbD (i % 8)
    · rw [hbit] at hpix
      by_cases hm : (cs 1).msb = false
      · rw [if_pos (.inr hm), if_neg (by simp)]
        exact hdraw i m' _ hlt wf' hs (by rw [hpix, Font.colour, if_neg (by omega)]; simp [hm])
      · rw [if_neg (by simp [hm])]
        refine ⟨m', rfl, .none m' fun i j h => ?_⟩
        have := h.2
        rw [hpix, Font.colour, if_neg (by omega)] at this
        simp [hm] at this
    · rw [hbit] at hpix
      rw [if_pos (.inl rfl), if_pos rfl]
      exact hdraw i m' _ hlt wf' hs (by rw [hpix, Font.colour, if_neg (by omega)]; rfl)
  · rw [if_pos hb]
    refine fin _ (fun i m => (a[4 + f.bytes * f.index ch + i / 4]?).bind fun (b : Byte) => putGlyphPixel m x y up down (i % f.w : Nat) (i / f.w : Nat) (cs ((b >>> (i % 4 * 2)) &&& 3#8).toNat)) (fun _ _ => rfl)
        (fun n i m => by rw [glyph2, Option.bind_assoc]) ?_
    intro i m' hlt wf' hs
    have hpix : f.pixel ch (i % f.w) (i / f.w) = ((f.data.getD (f.bytes * f.index ch + i / 4) 0#8).getLsbD (i % 4 * 2)).toNat + 2 * ((f.data.getD (f.bytes * f.index ch + i / 4) 0#8).getLsbD (i % 4 * 2 + 1)).toNat := by
      simp only [Font.pixel, hb, if_false, Nat.reduceEqDiff]
      rw [div_col hw, fontBit, fontBit, show (8 * (f.bytes * f.index ch) + i * 2) / 8 = f.bytes * f.index ch + i / 4 by omega, show (8 * (f.bytes * f.index ch) + i * 2) % 8 = i % 4 * 2 by omega,
        show (8 * (f.bytes * f.index ch) + i * 2 + 1) / 8 = f.bytes * f.index ch + i / 4 by omega, show (8 * (f.bytes * f.index ch) + i * 2 + 1) % 8 = i % 4 * 2 + 1 by omega]
    rw [Font.byte hf hi' (k := i / 4) (by unfold Font.bytes; rw [hb]; omega), Option.bind_some, two_bits, ← hpix]
    exact hdraw i m' _ hlt wf' hs (by rw [Font.colour, if_pos hb])

/-- The colour of a text inside of a character. -/
theorem Font.at_cell {f : Font} (cs : Nat → Color) {txt : List Byte} {n : Nat} {ch : Byte} (hch : txt[n]? = some ch) {A B : Int} (h1 : (n : Int) * f.w ≤ A) (h2 : A < (n + 1 : Nat) * f.w) :
    f.at cs txt A B = if 0 ≤ B ∧ B < f.h ∧ f.index ch < f.num then f.colour cs (f.pixel ch (A - n * f.w).toNat B.toNat) else none := by
  have hp : (0 : Int) ≤ n * f.w := Int.mul_nonneg (by omega) (by omega)
  obtain ⟨a, rfl⟩ := Int.eq_ofNat_of_zero_le (show 0 ≤ A by omega)
  have h1' : n * f.w ≤ a := by exact_mod_cast h1
  have h2' : a < (n + 1) * f.w := by exact_mod_cast h2
  have hw : 0 < f.w := by
    rcases Nat.eq_zero_or_pos f.w with h | h
    · rw [h] at h2'; omega
    · exact h
  obtain ⟨r, rfl⟩ : ∃ r, a = r + n * f.w := ⟨a - n * f.w, by omega⟩
  have hr : r < f.w := by rw [Nat.add_mul, Nat.one_mul] at h2'; omega
  have e1 : (r + n * f.w) / f.w = n := by rw [Nat.add_mul_div_right _ _ hw, Nat.div_eq_of_lt hr]; omega
  have e2 : (r + n * f.w) % f.w = r := by rw [Nat.add_mul_mod_self_right, Nat.mod_eq_of_lt hr]
  have e3 : (((r + n * f.w : Nat) : Int) - n * f.w).toNat = r := by
    have : ((r + n * f.w : Nat) : Int) - n * f.w = r := by push_cast; omega
    rw [this, Int.toNat_natCast]
  unfold Font.at
  rw [Int.toNat_natCast, e1, e2, e3, hch]
  simp only [hw, and_true]
  by_cases hB : 0 ≤ B ∧ B < f.h
  · rw [if_pos ⟨by omega, hB.1, hB.2⟩]
    by_cases hi : f.index ch < f.num
    · rw [if_pos hi, if_pos ⟨hB.1, hB.2, hi⟩]
    · rw [if_neg hi, if_neg (fun h => hi h.2.2)]
  · rw [if_neg (fun h => hB h.2), if_neg (fun h => hB ⟨h.1, h.2.1⟩)]

theorem Font.at_none {f : Font} (cs : Nat → Color) {txt : List Byte} {A B : Int} (h : (txt.length : Int) * f.w ≤ A) : f.at cs txt A B = none := by
  unfold Font.at
  split
  · rename_i h0
    obtain ⟨a, rfl⟩ := Int.eq_ofNat_of_zero_le h0.1
    rw [Int.toNat_natCast]
    split
    · rename_i ch hch
      rw [if_neg]
      rintro ⟨-, hw⟩
      have h' : txt.length * f.w ≤ a := by exact_mod_cast h
      have : txt.length ≤ a / f.w := (Nat.le_div_iff_mul_le hw).2 h'
      rw [List.getElem?_eq_none this] at hch
      cases hch
    · rfl
  · rfl

/-- The characters of a text from `ind` on. -/
theorem textLoop_drawn {f : Font} {a : List Byte} (hf : f.In a) (cs : Nat → Color) (txt : List Byte) {x y : Int} {up down : Bool} (hx : -536870912 ≤ x ∧ x ≤ 536870912) (hy : -536870912 ≤ y ∧ y ≤ 536870912) (hl : txt.length ≤ 2097152)
    {m0 : Img} (hn : ∀ i j, 0 ≤ col x y up down i j → col x y up down i j < txt.length * f.w → 0 ≤ row x y up down i j → row x y up down i j < f.h → Near m0 i j) :
    ∀ (l : List Byte) (ind : Nat) (m : Img), txt.drop ind = l → ind ≤ txt.length → Ok m → SameDims m0 m → ∃ m', textLoop a f.w f.h cs x y up down l ind m = some m' ∧
      DrawnB m m' (fun i j => (ind : Int) * f.w ≤ col x y up down i j ∧ OnText f cs txt x y up down i j) (textCol f cs txt x y up down)
  | [], ind, m, hd, hle, wf, hs => by
    refine ⟨m, rfl, .none m fun i j h => ?_⟩
    have : txt.length ≤ ind := List.drop_eq_nil_iff.1 hd
    rw [show ind = txt.length by omega] at h
    have h2 := h.2
    rw [OnText, Font.at_none cs h.1] at h2
    simp at h2
  | ch :: l, ind, m, hd, hle, wf, hs => by
    have hch : txt[ind]? = some ch := by
      have := congrArg List.head? hd
      rwa [List.head?_drop] at this
    have hlt : ind < txt.length := by
      rcases Nat.lt_or_ge ind txt.length with h | h
      · exact h
      · rw [List.getElem?_eq_none h] at hch; cases hch
    have hd' : txt.drop (ind + 1) = l := by rw [← List.drop_drop, hd]; rfl
    have hsm := hf.small
    have hiw : (ind : Int) * f.w ≤ 534773760 ∧ 0 ≤ (ind : Int) * f.w := by
      have h1 : ind * f.w ≤ 2097152 * 255 := Nat.mul_le_mul (by omega) (by omega)
      have : (ind : Int) * f.w = (ind * f.w : Nat) := by push_cast; rfl
      omega
    have hnext : ((ind + 1 : Nat) : Int) * f.w = ind * f.w + f.w := by push_cast; rw [Int.add_mul, Int.one_mul]
    have hend : ((ind + 1 : Nat) : Int) * f.w ≤ txt.length * f.w := by
      have h1 : (ind + 1) * f.w ≤ txt.length * f.w := Nat.mul_le_mul_right _ hlt
      exact_mod_cast h1
    -- the origin of the character
    obtain ⟨a1, b1, hpos, ha1, hb1, hcol, hrow⟩ : ∃ a1 b1 : Int, textLoop a f.w f.h cs x y up down (ch :: l) ind m =
          ((imgPutc m a1 b1 cs a ch up down).bind fun m => textLoop a f.w f.h cs x y up down l (ind + 1) m) ∧
        (-1073741824 ≤ a1 ∧ a1 ≤ 1073741824) ∧ (-1073741824 ≤ b1 ∧ b1 ≤ 1073741824) ∧ (∀ i j, col a1 b1 up down i j = col x y up down i j - ind * f.w) ∧ ∀ i j, row a1 b1 up down i j = row x y up down i j := by
      cases up
      · cases down
        · refine ⟨x + ind * f.w, y, ?_, by omega, by omega, fun i j => by simp only [col, Bool.false_eq_true, if_false]; omega, fun i j => rfl⟩
          simp only [textLoop, Bool.false_eq_true, or_self, if_false, Int.mul_one, Int.mul_zero, Int.add_zero]
          rw [ck_ok (by omega), Option.bind_some, ck_ok (by omega), Option.bind_some]
        · refine ⟨x, y + ind * f.w, ?_, by omega, by omega, fun i j => by simp only [col, Bool.false_eq_true, if_false, if_true]; omega, fun i j => rfl⟩
          simp only [textLoop, Bool.false_eq_true, false_or, if_false, if_true, Int.mul_one, Int.mul_zero, Int.add_zero]
          rw [ck_ok (by omega), Option.bind_some, ck_ok (by omega), Option.bind_some]
      · refine ⟨x, y - ind * f.w, ?_, by omega, by omega, fun i j => by simp only [col, if_true]; omega, fun i j => rfl⟩
        simp only [textLoop, true_or, if_true, Int.mul_zero, Int.add_zero, Int.mul_neg, Int.mul_one]
        rw [ck_ok (by omega), Option.bind_some, show y + -((ind : Int) * f.w) = y - ind * f.w by omega, ck_ok (by omega), Option.bind_some]
    obtain ⟨m1, e1, d1⟩ := imgPutc_drawn wf hf cs ch (x := a1) (y := b1) (up := up) (down := down) ha1 hb1
      (fun i j h1 h2 h3 h4 => by
        rw [hcol] at h1 h2
        rw [hrow] at h3 h4
        obtain ⟨q1, q2, q3, q4⟩ := hn i j (by omega) (by omega) h3 h4
        exact ⟨by rw [hs.w]; exact q1, q2, by rw [hs.h]; exact q3, q4⟩)
      (textCol f cs txt x y up down) (fun i j c h1 h2 h3 h4 h5 h6 => by
        rw [hcol] at h1 h2 h6
        rw [hrow] at h3 h4 h6
        rw [textCol, Font.at_cell cs hch (by omega) (by omega), if_pos ⟨h3, h4, h5⟩, h6]
        rfl)
    obtain ⟨m2, e2, d2⟩ := textLoop_drawn hf cs txt hx hy hl hn l (ind + 1) m1 hd' hlt (d1.same.ok wf) (hs.trans d1.same)
    refine ⟨m2, by rw [hpos, e1, Option.bind_some, e2], (d1.trans d2).congr fun i j => ?_⟩
    rw [hcol, hrow]
    by_cases hc : col x y up down i j < ((ind + 1 : Nat) : Int) * f.w
    · by_cases hc0 : (ind : Int) * f.w ≤ col x y up down i j
      · rw [OnText, Font.at_cell cs hch hc0 hc]
        by_cases hb : 0 ≤ row x y up down i j ∧ row x y up down i j < f.h ∧ f.index ch < f.num
        · rw [if_pos hb]
          constructor
          · rintro (h | h)
            · exact ⟨hc0, h.2.2⟩
            · omega
          · exact fun h => .inl ⟨⟨by omega, by omega, hb.1, hb.2.1⟩, hb.2.2, h.2⟩
        · rw [if_neg hb]
          constructor
          · rintro (h | h)
            · exact absurd ⟨h.1.2.2.1, h.1.2.2.2, h.2.1⟩ hb
            · omega
          · intro h; simp at h
      · constructor
        · rintro (h | h) <;> omega
        · intro h; omega
    · constructor
      · rintro (h | h)
        · omega
        · exact ⟨by omega, h.2⟩
      · exact fun h => .inr ⟨by omega, h.2⟩

end Verif.Img
