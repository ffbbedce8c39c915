import Verif.Img.Props
import Verif.Img.Args

/-! # Making images and asking for their size

`img-buffer`, `img-buffer?` and `img-dims`, `src/extensions/display_extensions.c:1964-2034`. -/

namespace Verif.Img.Buffer

/-- An argument. A symbol is the name of a format (its bits per pixel) or another one (`none`), `sym_to_color_format`, `src/extensions/display_extensions.c:128-137`. A number is
given by its whole part, before `lbm_dec_as_u32` cuts it to 32 bits. -/
inductive BArg where
  | sym (fmt : Option Nat)
  | num (z : Int)
  | defrag
  | arr (bytes : List Byte)
  | other

/-- What `img-buffer` gives: a type error, a lack of memory, or a byte array. -/
inductive BRes where
  | terror
  | merror
  | image (bytes : List Byte)
  deriving DecidableEq

/-- `lbm_dec_as_u32`. -/
def u32 (z : Int) : Nat := (z % 4294967296).toNat

/-- The header is written into the block, `src/extensions/display_extensions.c:170-174` and `src/extensions/display_extensions.c:267-271`. -/
def putHeader (fmt w h : Nat) (block : List Byte) : List Byte := header fmt w h ++ block.drop 5

/-- `image_buffer_allocate` and `image_buffer_lift`, `src/extensions/display_extensions.c:243-256` and `src/extensions/display_extensions.c:166-177`. `malloc` gives for a number of bytes a block with any content, or none;
`lift` says whether `lbm_lift_array` finds its cell and its header. The second result is the number of blocks that stay allocated. -/
def allocate (malloc : Nat → Option (List Byte)) (lift : Bool) (fmt w h : Nat) : BRes × Nat :=
  match malloc (5 + dimsToSize fmt w h) with
  | none => (.merror, 0)
  | some block =>
    let block := block.map fun _ => 0#8
    if lift then (.image (putHeader fmt w h block), 1) else (.merror, 0)

/-- `image_buffer_allocate_dm`, `src/extensions/display_extensions.c:258-273`; the block comes from the defragmented memory. -/
def allocateDm (dm : Nat → Option (List Byte)) (fmt w h : Nat) : BRes × Nat :=
  match dm (5 + dimsToSize fmt w h) with
  | none => (.merror, 0)
  | some block => (.image (putHeader fmt w h block), 1)

/-- The test of the format and the sizes, `src/extensions/display_extensions.c:2008`. -/
def sizesOk (fmt : Option Nat) (w h : Nat) : Bool := fmt.isSome && decide (0 < w) && decide (0 < h) && decide (w < 32000) && decide (h < 32000)

/-- `ext_image_buffer`, `src/extensions/display_extensions.c:1982-2016`. -/
def imageBuffer (malloc dm : Nat → Option (List Byte)) (lift : Bool) : List BArg → BRes × Nat
  | [.defrag, .sym f, .num zw, .num zh] => if sizesOk f (u32 zw) (u32 zh) then allocateDm dm (f.getD 0) (u32 zw) (u32 zh) else (.terror, 0)
  | [.sym f, .num zw, .num zh] => if sizesOk f (u32 zw) (u32 zh) then allocate malloc lift (f.getD 0) (u32 zw) (u32 zh) else (.terror, 0)
  | _ => (.terror, 0)

/-- `ext_is_image_buffer`, `src/extensions/display_extensions.c:2019-2034`; `none` is a type error. -/
def isImageBuffer : List BArg → Option Bool
  | [.arr a] => some (decodeImg a).isSome
  | [_] => some false
  | _ => none

/-- `ext_image_dims`, `src/extensions/display_extensions.c:1964-1980`, with memory for the list. `none` is undefined behaviour, `some none` a type error. -/
def imageDims (first : Option (List Byte)) (l : List Args.Arg) : Option (Option (Nat × Nat)) :=
  match Args.decode first l 0 with
  | none => none
  | some r => if r.valid then some (r.img.map fun m => (m.w, m.h)) else some none

/-! ## C140 -/

/-- The formats by their bits per pixel. -/
def Format (n : Nat) : Prop := n = 1 ∨ n = 2 ∨ n = 4 ∨ n = 8 ∨ n = 16 ∨ n = 24

/-- The bytes that the pixels need. -/
def pixelBytes (fmt w h : Nat) : Nat := (w * h * fmt + 7) / 8

/-- A memory gives blocks of the length asked for. -/
def Blocks (f : Nat → Option (List Byte)) : Prop := ∀ n b, f n = some b → b.length = n

theorem dimsToSize_eq {fmt w h : Nat} (hf : Format fmt) : dimsToSize fmt w h = pixelBytes fmt w h := by
  rcases hf with rfl | rfl | rfl | rfl | rfl | rfl <;> simp only [dimsToSize, pixelBytes] <;> first | omega | (split <;> omega)

theorem decode_made {fmt w h : Nat} (hf : Format fmt) (hw : 0 < w ∧ w < 32000) (hh : 0 < h ∧ h < 32000) (d : List Byte) (hd : d.length = pixelBytes fmt w h) :
    decodeImg (header fmt w h ++ d) = some ⟨w, h, fmt, d⟩ := by
  have hw' : be16 (BitVec.ofNat 8 (w / 256)) (BitVec.ofNat 8 w) = w := by simp only [be16, BitVec.toNat_ofNat]; omega
  have hh' : be16 (BitVec.ofNat 8 (h / 256)) (BitVec.ofNat 8 h) = h := by simp only [be16, BitVec.toNat_ofNat]; omega
  have hf' : (BitVec.ofNat 8 fmt).toNat = fmt := by rw [BitVec.toNat_ofNat]; unfold Format at hf; omega
  have hp : 0 < w * h * fmt := Nat.mul_pos (Nat.mul_pos hw.1 hh.1) (by unfold Format at hf; omega)
  have hm := Nat.mod_le (w * h * fmt) 4294967296
  simp only [header, List.cons_append, List.nil_append, decodeImg, hw', hh', hf']
  refine if_pos ⟨?_, ?_⟩ <;> simp only [hd, pixelBytes] <;> omega

theorem dims_of {a : List Byte} {m : Img} (h : decodeImg a = some m) : imageDims (some a) [] = some (some (m.w, m.h)) := by
  simp [imageDims, Args.decode, h, Args.argsLoop, Args.Res.empty]

/-- **C140 (making).**  With a format, a width and a height from 1 to 31999 (as 32 bits of the numbers given) and memory, `img-buffer` makes an array with exactly the bytes that the pixels need behind five
bytes; `img-buffer?` accepts it, and `img-dims` gives its width and height. Without a memory of its own all pixels are zero. -/
theorem C140_made {malloc dm : Nat → Option (List Byte)} (hb : Blocks malloc) (hd : Blocks dm) {fmt w h : Nat} (hf : Format fmt) (hw : 0 < w ∧ w < 32000) (hh : 0 < h ∧ h < 32000)
    {zw zh : Int} (ew : zw % 2 ^ 32 = w) (eh : zh % 2 ^ 32 = h) :
    (∀ b, malloc (5 + pixelBytes fmt w h) = some b → ∃ a, imageBuffer malloc dm true [.sym (some fmt), .num zw, .num zh] = (.image a, 1) ∧
      a.length = 5 + pixelBytes fmt w h ∧ isImageBuffer [.arr a] = some true ∧ imageDims (some a) [] = some (some (w, h)) ∧
      (∃ m, decodeImg a = some m ∧ m.fmt = fmt) ∧ ∀ x ∈ a.drop 5, x = 0#8) ∧
    (∀ b, dm (5 + pixelBytes fmt w h) = some b → ∃ a, imageBuffer malloc dm true [.defrag, .sym (some fmt), .num zw, .num zh] = (.image a, 1) ∧
      a.length = 5 + pixelBytes fmt w h ∧ isImageBuffer [.arr a] = some true ∧ imageDims (some a) [] = some (some (w, h)) ∧
      (∃ m, decodeImg a = some m ∧ m.fmt = fmt) ∧ a.drop 5 = b.drop 5) := by
  have uw : u32 zw = w := by simp only [u32]; omega
  have uh : u32 zh = h := by simp only [u32]; omega
  have hok : sizesOk (some fmt) w h = true := by simp [sizesOk, hw, hh]
  have hlen : (header fmt w h).length = 5 := rfl
  constructor
  · intro b hm
    have hl := hb _ _ hm
    have hdl : ((b.map fun _ => 0#8).drop 5).length = pixelBytes fmt w h := by simp [hl]
    have hdec := decode_made hf hw hh _ hdl
    refine ⟨putHeader fmt w h (b.map fun _ => 0#8), ?_, ?_, ?_, dims_of hdec, ⟨_, hdec, rfl⟩, ?_⟩
    · simp [imageBuffer, uw, uh, hok, allocate, dimsToSize_eq hf, hm]
    · rw [putHeader, List.length_append, hlen, hdl]
    · simp [isImageBuffer, putHeader, hdec]
    · intro x hx
      rw [putHeader, List.drop_append_of_le_length (by simp [header]), List.drop_of_length_le (by simp [header])] at hx
      have := List.mem_of_mem_drop hx
      simp only [List.mem_map] at this
      obtain ⟨_, _, rfl⟩ := this; rfl
  · intro b hm
    have hl := hd _ _ hm
    have hdl : (b.drop 5).length = pixelBytes fmt w h := by simp [hl]
    have hdec := decode_made hf hw hh _ hdl
    refine ⟨putHeader fmt w h b, ?_, ?_, ?_, dims_of hdec, ⟨_, hdec, rfl⟩, ?_⟩
    · simp [imageBuffer, uw, uh, hok, allocateDm, dimsToSize_eq hf, hm]
    · rw [putHeader, List.length_append, hlen, hdl]
    · simp [isImageBuffer, putHeader, hdec]
    · rw [putHeader, List.drop_append_of_le_length (by simp [header]), List.drop_of_length_le (by simp [header]), List.nil_append]

/-- The hypotheses are met: an image of 3 times 2 pixels of 4 bits takes 8 bytes. -/
example : ∃ a, imageBuffer (fun n => some (List.replicate n 7#8)) (fun _ => none) true [.sym (some 4), .num 3, .num 2] = (.image a, 1) ∧
    a.length = 8 ∧ imageDims (some a) [] = some (some (3, 2)) := by
  obtain ⟨a, h1, h2, _, h4, _⟩ := (C140_made (malloc := fun n => some (List.replicate n 7#8)) (dm := fun _ => none) (fun n b h => by cases h; simp) (fun n b h => by cases h) (fmt := 4) (w := 3) (h := 2)
    (by simp [Format]) (by decide) (by decide) (zw := 3) (zh := 2) (by decide) (by decide)).1 _ rfl
  exact ⟨a, h1, h2, h4⟩

/-- **C140 (refusing).**  An image is made only of such arguments; a call that does not give an image keeps no memory, and it is a type error exactly for other arguments. -/
theorem C140_refused (malloc dm : Nat → Option (List Byte)) (lift : Bool) (l : List BArg) :
    ((∃ a, (imageBuffer malloc dm lift l).1 = .image a) ∨ (imageBuffer malloc dm lift l).1 = .merror ↔
      (imageBuffer malloc dm lift l).1 ≠ .terror) ∧
    ((imageBuffer malloc dm lift l).1 ≠ .terror ↔ ∃ (fmt : Nat) (zw zh : Int), (0 < zw % 2 ^ 32 ∧ zw % 2 ^ 32 < 32000) ∧ (0 < zh % 2 ^ 32 ∧ zh % 2 ^ 32 < 32000) ∧
      (l = [.sym (some fmt), .num zw, .num zh] ∨ l = [.defrag, .sym (some fmt), .num zw, .num zh])) ∧
    ((∀ a, (imageBuffer malloc dm lift l).1 ≠ .image a) → (imageBuffer malloc dm lift l).2 = 0) := by
  have hal : ∀ f w h, (allocate malloc lift f w h).1 ≠ .terror := by
    intro f w h; unfold allocate; split
    · simp
    · simp only; split <;> simp
  have hdm : ∀ f w h, (allocateDm dm f w h).1 ≠ .terror := by
    intro f w h; unfold allocateDm; split <;> simp
  have hsz : ∀ (f : Option Nat) (zw zh : Int), sizesOk f (u32 zw) (u32 zh) = true ↔ (∃ fmt, f = some fmt) ∧ (0 < zw % 2 ^ 32 ∧ zw % 2 ^ 32 < 32000) ∧ (0 < zh % 2 ^ 32 ∧ zh % 2 ^ 32 < 32000) := by
    intro f zw zh
    simp only [sizesOk, Bool.and_eq_true, decide_eq_true_eq, Option.isSome_iff_exists]
    simp only [u32]
    constructor
    · rintro ⟨⟨⟨⟨h1, h2⟩, h3⟩, h4⟩, h5⟩
      exact ⟨h1, by omega, by omega⟩
    · rintro ⟨h1, h2, h3⟩
      exact ⟨⟨⟨⟨h1, by omega⟩, by omega⟩, by omega⟩, by omega⟩
  refine ⟨?_, ?_, ?_⟩
  · cases (imageBuffer malloc dm lift l).1 <;> simp
  · unfold imageBuffer
    split
    · next f zw zh =>
      by_cases hs : sizesOk f (u32 zw) (u32 zh) = true
      · rw [if_pos hs]
        obtain ⟨⟨fmt, rfl⟩, h1, h2⟩ := (hsz _ _ _).1 hs
        exact ⟨fun _ => ⟨fmt, zw, zh, h1, h2, .inr rfl⟩, fun _ => hdm _ _ _⟩
      · rw [if_neg hs]
        refine ⟨fun h => absurd rfl h, ?_⟩
        rintro ⟨fmt, zw', zh', h1, h2, h | h⟩
        · cases h
        · cases h; exact absurd ((hsz _ _ _).2 ⟨⟨_, rfl⟩, h1, h2⟩) hs
    · next f zw zh =>
      by_cases hs : sizesOk f (u32 zw) (u32 zh) = true
      · rw [if_pos hs]
        obtain ⟨⟨fmt, rfl⟩, h1, h2⟩ := (hsz _ _ _).1 hs
        exact ⟨fun _ => ⟨fmt, zw, zh, h1, h2, .inl rfl⟩, fun _ => hal _ _ _⟩
      · rw [if_neg hs]
        refine ⟨fun h => absurd rfl h, ?_⟩
        rintro ⟨fmt, zw', zh', h1, h2, h | h⟩
        · cases h; exact absurd ((hsz _ _ _).2 ⟨⟨_, rfl⟩, h1, h2⟩) hs
        · cases h
    · next h1 h2 =>
      refine ⟨fun h => absurd rfl h, ?_⟩
      rintro ⟨fmt, zw, zh, _, _, h | h⟩
      · exact absurd h (h2 _ _ _)
      · exact absurd h (h1 _ _ _)
  · intro hi
    have hal2 : ∀ f w h, (∀ a, (allocate malloc lift f w h).1 ≠ .image a) → (allocate malloc lift f w h).2 = 0 := by
      intro f w h; unfold allocate; split
      · simp
      · simp only; split <;> simp
    have hdm2 : ∀ f w h, (∀ a, (allocateDm dm f w h).1 ≠ .image a) → (allocateDm dm f w h).2 = 0 := by
      intro f w h; unfold allocateDm; split <;> simp
    revert hi
    unfold imageBuffer
    split
    · split
      · exact hdm2 _ _ _
      · simp
    · split
      · exact hal2 _ _ _
      · simp
    · simp

/-- **C140 (asking).**  `img-dims` gives a width and a height exactly for the arrays that `img-buffer?` accepts: the big endian numbers at the start of the array. -/
theorem C140_dims (a : List Byte) :
    (isImageBuffer [.arr a] = some true ↔ ∃ w h, imageDims (some a) [] = some (some (w, h))) ∧
    ∀ w h, imageDims (some a) [] = some (some (w, h)) → ∃ a0 a1 a2 a3 r, a = a0 :: a1 :: a2 :: a3 :: r ∧
      w = a0.toNat * 256 + a1.toNat ∧ h = a2.toNat * 256 + a3.toNat := by
  cases hd : decodeImg a with
  | none =>
    have h0 : imageDims (some a) [] = some none := by simp [imageDims, Args.decode, hd, Args.Res.empty]
    rw [h0]
    simp [isImageBuffer, hd]
  | some m =>
    rw [dims_of hd]
    refine ⟨by simp [isImageBuffer, hd], ?_⟩
    intro w h e
    simp only [Option.some.injEq, Prod.mk.injEq] at e
    obtain ⟨rfl, rfl⟩ := e
    unfold decodeImg at hd
    split at hd
    · next w1 w0 h1 h0 f d =>
      simp only at hd
      split at hd
      · simp only [Option.some.injEq] at hd
        subst hd
        exact ⟨_, _, _, _, _, rfl, rfl, rfl⟩
      · simp at hd
    · simp at hd

/-- **C140 (asking for other values).**  `img-buffer?` is false for everything that is not a byte array, and wants one argument. -/
theorem C140_others (l : List BArg) : (isImageBuffer l = none ↔ l.length ≠ 1) ∧ ∀ x, (∀ a, x ≠ .arr a) → isImageBuffer [x] = some false := by
  constructor
  · match l with
    | [] => simp [isImageBuffer]
    | [x] => cases x <;> simp [isImageBuffer]
    | x :: y :: r => simp [isImageBuffer]
  · intro x hx
    cases x with
    | arr a => exact absurd rfl (hx a)
    | _ => rfl

example : isImageBuffer [.num 5] = some false ∧ isImageBuffer [] = none := by decide

/-- **C140 fails** for arrays that were not made with `img-buffer`: `img-buffer?` accepts an array whose pixels do not fit in it (three rows of three pixels of one bit in one byte), and formats that do not
exist. -/
theorem C140_small_violated : isImageBuffer [.arr [0, 3, 0, 3, 1, 0]] = some true ∧ 5 + pixelBytes 1 3 3 > [0, 3, 0, 3, 1, 0].length ∧
    isImageBuffer [.arr [0, 1, 0, 1, 5, 0]] = some true := by decide

/-- A number that is 5 modulo 2^32 is the width 5. -/
example : (imageBuffer (fun n => some (List.replicate n 7#8)) (fun _ => none) true [.sym (some 8), .num 4294967301, .num 1]).1 =
    .image [0, 5, 0, 1, 8, 0, 0, 0, 0, 0] := by decide

end Verif.Img.Buffer
