import Verif.Jpg.Model

/-!
# What the JPEG decoder is meant to do

The entropy coded data as a stream of bits, the codes of a Huffman table, and the pixels of a unit of the image.
-/

namespace Verif.Jpg

/-! ## The stream of bits -/

/-- The data bytes of entropy coded data, and whether a marker ends them: `FF 00` stands for the byte `FF`, `FF` before any other byte is a marker. -/
def unstuff : List Nat → List Nat × Bool
  | [] => ([], false)
  | b :: r =>
    if b = 255 then
      match r with
      | [] => ([], false)
      | 0 :: r => (255 :: (unstuff r).1, (unstuff r).2)
      | _ :: _ => ([], true)
    else (b :: (unstuff r).1, (unstuff r).2)

/-- A stream of bits; `none` is the end of the data. -/
abbrev Stream := Nat → Option Bool

/-- The bits of bytes, the most significant first; behind a marker there are ones for ever. -/
def byteStream (l : List Nat × Bool) : Stream := fun i =>
  match l.1[i / 8]? with
  | some b => some (b.testBit (7 - i % 8))
  | none => if l.2 then some true else none

/-- The stream without its first `n` bits. -/
def Stream.drop (S : Stream) (n : Nat) : Stream := fun i => S (n + i)

/-- The number that the first `n` bits are. -/
def Stream.num (S : Stream) : Nat → Option Nat
  | 0 => some 0
  | n + 1 =>
    match S.num n, S n with
    | some v, some b => some (2 * v + if b then 1 else 0)
    | _, _ => none

/-- The bytes that are in front of the decoder. -/
def In.rest (s : In) : List Nat := (List.range s.dctr).map (fun i => s.buf (s.dptr + i)) ++ s.src

/-- The bits that are in front of the decoder: those in the register, then those of the bytes. -/
def In.stream (s : In) : Stream := fun i =>
  if i < s.wbit then some (s.w.testBit (s.wbit - 1 - i))
  else if s.marker ≠ 0 then some true
  else byteStream (unstuff s.rest) (i - s.wbit)

/-- The input is in order: what is in the buffer is inside of it, bytes are bytes, and the register has at most 23 bits. -/
structure In.Ok (s : In) : Prop where
  fits : s.dptr + s.dctr ≤ szbuf
  bytes : ∀ b ∈ s.rest, b < 256
  buf : ∀ i, s.buf i < 256
  wbit : s.wbit ≤ 23
  w : s.w < 2 ^ 32

/-! ## Huffman codes -/

/-- A code word: its length, its bits as a number, and what it stands for. -/
structure Entry where
  len : Nat
  code : Nat
  value : Nat
  deriving DecidableEq, Repr

/-- The code words of a table (ISO 10918-1, annex C): the words of a length are consecutive numbers, and the first of the next length is the next number with a zero behind. `bits` are the numbers of words of length `len`,
`len + 1`, .... -/
def entries (len code : Nat) : List Nat → List Nat → List Entry
  | [], _ => []
  | b :: bs, vs => ((vs.take b).zipIdx.map fun (v, i) => ⟨len, code + i, v⟩) ++ entries (len + 1) (2 * (code + b)) bs (vs.drop b)

/-- The code words of a table of the decoder. -/
def Table.entries (t : Table) : List Entry := Jpg.entries 1 0 t.bits t.data

/-- A table as `create_huffman_tbl` makes it. -/
structure Table.Ok (t : Table) : Prop where
  bits : t.bits.length = 16
  code : t.code = codes t.bits 0
  data : t.data.length = t.bits.sum

/-- The lengths of a table are those of a code: no word is too large for its length. -/
def Table.Valid (t : Table) : Prop := ∀ e ∈ t.entries, e.code < 2 ^ e.len

/-- A number in `n` bits, the most significant first. -/
def numBits (n v : Nat) : List Bool := (List.range n).map fun i => v.testBit (n - 1 - i)

/-- The bits of a word. -/
def Entry.bits (e : Entry) : List Bool := numBits e.len e.code

/-- Bits in bytes, the most significant first; the last byte is filled up with ones. -/
def pack : List Bool → List Nat
  | [] => []
  | a :: l =>
    let bit (i : Nat) : Nat := if (a :: l).getD i true then 1 else 0
    (128 * bit 0 + 64 * bit 1 + 32 * bit 2 + 16 * bit 3 + 8 * bit 4 + 4 * bit 5 + 2 * bit 6 + bit 7) :: pack (l.drop 7)
  termination_by l => l.length
  decreasing_by simp; omega

/-- Bytes as entropy coded data. -/
def stuff : List Nat → List Nat
  | [] => []
  | b :: r => if b = 255 then 255 :: 0 :: stuff r else b :: stuff r

/-- The values that the decoder gets with a table, one after the other. -/
def values (t : Table) : Nat → In → R (List Nat)
  | 0, _ => .ok []
  | n + 1, s => do
    let (v, s1) ← huffext s t
    let vs ← values t n s1
    .ok (v :: vs)

/-! ## Blocks -/

/-- Bits in front of a stream. -/
def Stream.after (l : List Bool) (S : Stream) : Stream := fun i => if i < l.length then l[i]? else S (i - l.length)

/-- The number of bits of a coefficient (ISO 10918-1, F.1.2). -/
def size (c : Int) : Nat := if c = 0 then 0 else c.natAbs.log2 + 1

/-- The bits of a coefficient as a number: itself, or, if it is negative, less one and without the leading ones. -/
def magnitude (c : Int) : Nat := if 0 < c then c.toNat else (c - 1 + 2 ^ size c).toNat

/-- The code word for a value. -/
def Table.word (t : Table) (v : Nat) : Option (List Bool) := (t.entries.find? (fun e => e.value == v)).map Entry.bits

/-- `n` times the same bits. -/
def times (n : Nat) (l : List Bool) : List Bool := (List.replicate n l).flatten

/-- The code word for 16 zeros, if there is need of it. -/
def Table.sixteen (t : Table) (run : Nat) : Option (List Bool) := if 16 ≤ run then t.word 0xF0 else some []

/-- The coefficients behind the first one, in the order of the zigzag, as an encoder writes them (ISO 10918-1, F.1.2.2): for each that is not 0 the number of zeros before it and its size, then its bits; 16 zeros have a code word of their own
(`F0`), and the zeros at the end are one code word (`00`). `run` zeros are before. -/
def encodeAc (t : Table) : Nat → List Int → Option (List Bool)
  | 0, [] => some []
  | _ + 1, [] => t.word 0
  | run, c :: cs =>
    if c = 0 then encodeAc t (run + 1) cs
    else do
      let w ← t.sixteen run
      let v ← t.word (run % 16 * 16 + size c)
      let r ← encodeAc t 0 cs
      some (times (run / 16) w ++ (v ++ (numBits (size c) (magnitude c) ++ r)))

/-- A block: the difference of the first coefficient to the one of the block before, and the other 63. -/
def encodeBlock (tdc tac : Table) (diff : Int) (acs : List Int) : Option (List Bool) := do
  let v ← tdc.word (size diff)
  let r ← encodeAc tac 0 acs
  some (v ++ (numBits (size diff) (magnitude diff) ++ r))

/-- A coefficient times its factor, in 32 bits and without 8 bits. -/
def scaled (q : Nat) (c : Int) : Int := wrap32 (c * q) / 256

/-- The 64 coefficients in their places: `cs` are in the order of the zigzag. -/
def coefficients (q : List Nat) (cs : List Int) : List Int := (List.range 64).map fun i => scaled (q.getD i 0) (cs.getD (zig.idxOf i) 0)

/-- The 64 elements of a block: if there is only the first coefficient they are all alike. -/
def elements (F : Arith) (q : List Nat) (cs : List Int) : List Int :=
  if ∀ c ∈ cs.tail, c = 0 then List.replicate 64 (wrap16 ((scaled (q.getD 0 0) (cs.getD 0 0)).tdiv 256 + 128)) else F.idct (coefficients q cs)

/-! ## Pixels -/

/-- Where the brightness of the pixel in column `ix` and line `iy` of a unit is: its blocks of 8 by 8 follow each other line by line. -/
def lumaAt (msx ix iy : Nat) : Nat := (iy / 8 * msx + ix / 8) * 64 + (iy % 8 * 8 + ix % 8)

/-- Where its colour is: the two blocks behind are for the whole unit. -/
def chromaAt (msx msy ix iy : Nat) : Nat := msx * msy * 64 + (iy / msy * 8 + ix / msx)

/-- A pixel of a unit. -/
def pixel (msx msy : Nat) (buf : List Int) (ix iy : Nat) : Nat × Nat × Nat :=
  rgb (buf.getD (lumaAt msx ix iy) 0) (buf.getD (chromaAt msx msy ix iy) 0 - 128) (buf.getD (chromaAt msx msy ix iy + 64) 0 - 128)

/-- A point is in a rectangle. -/
def Rect.covers (r : Rect) (x y : Nat) : Bool := r.left ≤ x && x < r.left + r.width && (r.top ≤ y && y < r.top + r.height)

/-- No product of a coefficient and its factor is too large for 32 bits (where that would be undefined behaviour); the coefficients `cs` are those from place `z` of the zigzag on. -/
def Exact (F : Arith) (q : List Nat) (z : Nat) (cs : List Int) : Prop := F.strict = true → ∀ k, k < cs.length → (cs.getD k 0 * q.getD (zig.getD (z + k) 0) 0).natAbs < 2 ^ 31

/-! ## Images -/

/-- The component of a block of a unit: the blocks for the brightness come first. -/
def component (n blk : Nat) : Nat := if blk < n then 0 else blk - n + 1

/-- The number of the tables of a component. -/
def tableId (cmp : Nat) : Nat := if cmp = 0 then 0 else 1

/-- The blocks of a unit from number `blk` on, as an encoder writes them: a block is 64 coefficients in the order of the zigzag; of the first one the difference to the block of the same component before (`pred`) is
written. Also the new `pred`. `n` blocks are for the brightness, and `T` are the tables. -/
def encodeUnit (T : Nat → Nat → Table) (n : Nat) : Nat → (Nat → Int) → List (List Int) → Option (List Bool × (Nat → Int))
  | _, pred, [] => some ([], pred)
  | blk, pred, b :: bs => do
    let cmp := component n blk
    let l ← encodeBlock (T (tableId cmp) 0) (T (tableId cmp) 1) (b.getD 0 0 - pred cmp) b.tail
    let (r, pred') ← encodeUnit T n (blk + 1) (upd pred cmp (b.getD 0 0)) bs
    some (l ++ r, pred')

/-- Units one after the other. -/
def encodeUnits (T : Nat → Nat → Table) (n : Nat) : (Nat → Int) → List (List (List Int)) → Option (List Bool)
  | _, [] => some []
  | pred, u :: us => do
    let (l, pred') ← encodeUnit T n 0 pred u
    let r ← encodeUnits T n pred' us
    some (l ++ r)

/-- The elements of the blocks of a unit from number `blk` on; `q` are the factors of the components. -/
def unitElements (F : Arith) (q : Nat → List Nat) (n : Nat) : Nat → List (List Int) → List Int
  | _, [] => []
  | blk, b :: bs => elements F (q (component n blk)) b ++ unitElements F q n (blk + 1) bs

/-- The elements of a unit of an image with `ncomp` components: without colour the two blocks for it are 128. -/
def fullUnit (F : Arith) (q : Nat → List Nat) (n ncomp : Nat) (u : List (List Int)) : List Int := unitElements F q n 0 u ++ if ncomp = 3 then [] else List.replicate 128 128

/-- A picture: its size, the size of a unit in blocks, its components, and the coefficients of its units (by column and line). -/
structure Picture where
  width : Nat
  height : Nat
  msx : Nat
  msy : Nat
  ncomp : Nat
  units : Nat → Nat → List (List Int)

/-- The units in a line and in a column. -/
def Picture.columns (P : Picture) : Nat := (P.width + (P.msx * 8 - 1)) / (P.msx * 8)
/-- See `Picture.columns`. -/
def Picture.lines (P : Picture) : Nat := (P.height + (P.msy * 8 - 1)) / (P.msy * 8)

/-- The coefficients are those of an image with 8 bits: there are 64 in each block, from -2047 to 2047, and as many blocks in each unit as there should be. -/
def Picture.Ok (P : Picture) : Prop :=
  ∀ i j, (P.units i j).length = P.msx * P.msy + (if P.ncomp = 3 then 2 else 0) ∧ ∀ b ∈ P.units i j, b.length = 64 ∧ ∀ c ∈ b, c.natAbs ≤ 2047

/-- No product is too large. -/
def Picture.Exact (P : Picture) (F : Arith) (q : Nat → List Nat) : Prop := ∀ i j n b, (P.units i j)[n]? = some b → Jpg.Exact F (q (component (P.msx * P.msy) n)) 0 b

/-- A picture as an encoder writes it: line by line. -/
def Picture.encode (P : Picture) (T : Nat → Nat → Table) : Option (List Bool) :=
  encodeUnits T (P.msx * P.msy) (fun _ => 0) ((List.range P.lines).flatMap fun j => (List.range P.columns).map fun i => P.units i j)

/-- The pixels of a picture in the unit in column `i` and line `j`. -/
def Picture.rect (P : Picture) (F : Arith) (q : Nat → List Nat) (i j : Nat) : Rect :=
  let x := P.msx * 8 * i
  let y := P.msy * 8 * j
  let w := min (P.msx * 8) (P.width - x)
  let h := min (P.msy * 8) (P.height - y)
  ⟨x, y, w, h, (List.range h).map fun py => (List.range w).map fun px => pixel P.msx P.msy (fullUnit F q (P.msx * P.msy) P.ncomp (P.units i j)) px py⟩

/-- All of them. -/
def Picture.rects (P : Picture) (F : Arith) (q : Nat → List Nat) : List Rect := (List.range P.lines).flatMap fun j => (List.range P.columns).map fun i => P.rect F q i j

/-! ## Files -/

/-- A segment of a file with tables (ISO 10918-1, B.2.4): a quantization table (its 64 values in the order of the zigzag), a Huffman table (number, class, the numbers of code words of each length and their values), or one that does not matter
for the decoder (the data of an application, a comment). -/
inductive Seg where
  | quant (id : Nat) (vals : List Nat)
  | huff (num cls : Nat) (bits vals : List Nat)
  | other (m : Nat) (data : List Nat)
  deriving DecidableEq, Repr

/-- A segment in the file: the marker, the length (with its own two bytes), the content. -/
def segBytes (m : Nat) (data : List Nat) : List Nat := 255 :: m :: (data.length + 2) / 256 :: (data.length + 2) % 256 :: data

/-- See `segBytes`. -/
def Seg.bytes : Seg → List Nat
  | quant id vals => segBytes 0xDB (id :: vals)
  | huff num cls bits vals => segBytes 0xC4 ((16 * cls + num) :: (bits ++ vals))
  | other m data => segBytes m data

/-- What a segment must be like. -/
def Seg.Ok : Seg → Prop
  | quant id vals => id < 4 ∧ vals.length = 64 ∧ ∀ v ∈ vals, v < 256
  | huff num cls bits vals => num < 2 ∧ cls < 2 ∧ bits.length = 16 ∧ vals.length = bits.sum ∧ vals.length ≤ 256 ∧ (∀ v ∈ bits ++ vals, v < 256) ∧ (cls = 0 → ∀ v ∈ vals, v ≤ 11)
  | other m data => ((0xE0 ≤ m ∧ m < 0xF0) ∨ m = 0xFE) ∧ data ≠ [] ∧ data.length + 2 < 65536 ∧ ∀ v ∈ data, v < 256

/-- The memory for a segment. -/
def Seg.cost : Seg → Nat
  | quant _ _ => 256
  | huff _ _ _ vals => 16 + (2 * vals.length + 3) / 4 * 4 + (vals.length + 3) / 4 * 4
  | other _ _ => 0

/-- The factors of a quantization table: its values with the factors of the transform. -/
def factors (vals : List Nat) : List Nat := (List.range 64).map fun i => vals.getD (zig.idxOf i) 0 * ipsf.getD i 0

/-- The quantization table with a number: the last one. -/
def lastQuant (segs : List Seg) (id : Nat) : Option (List Nat) :=
  segs.reverse.findSome? fun
    | .quant i vals => if i = id then some vals else none
    | _ => none

/-- The Huffman table with a number and a class: the last one. -/
def lastHuff (segs : List Seg) (num cls : Nat) : Option (List Nat × List Nat) :=
  segs.reverse.findSome? fun
    | .huff n c bits vals => if n = num ∧ c = cls then some (bits, vals) else none
    | _ => none

/-- The start of a frame (ISO 10918-1, B.2.2): the size of the picture and its components; `qid` are the numbers of their quantization tables. -/
def Picture.frame (P : Picture) (qid : Nat → Nat) : List Nat :=
  segBytes 0xC0 ([8, P.height / 256, P.height % 256, P.width / 256, P.width % 256, P.ncomp] ++ [1, 16 * P.msx + P.msy, qid 0] ++ if P.ncomp = 3 then [2, 0x11, qid 1, 3, 0x11, qid 2] else [])

/-- The start of a scan (ISO 10918-1, B.2.3). -/
def Picture.start (P : Picture) : List Nat := segBytes 0xDA ([P.ncomp] ++ [1, 0] ++ (if P.ncomp = 3 then [2, 0x11, 3, 0x11] else []) ++ [0, 63, 0])

/-- A file with a picture whose code is `l`: tables may be before and behind the start of the frame. -/
def Picture.file (P : Picture) (qid : Nat → Nat) (segs1 segs2 : List Seg) (l : List Bool) (trailer : List Nat) : List Nat :=
  [0xFF, 0xD8] ++ segs1.flatMap Seg.bytes ++ P.frame qid ++ segs2.flatMap Seg.bytes ++ P.start ++ stuff (pack l) ++ [0xFF, 0xD9] ++ trailer

/-- The memory that the decoder needs for a picture: 512 bytes for the input, the tables, and two buffers for a unit. -/
def Picture.cost (P : Picture) (segs : List Seg) : Nat :=
  512 + (segs.map Seg.cost).sum + max (128 * (P.msx * P.msy) + 64) 256 + 128 * (P.msx * P.msy + 2)

end Verif.Jpg
