/-!
# The JPEG decoder

`src/extensions/tjpgd.c`, in the configuration of `src/extensions/tjpgdcnf.h` (`JD_SZBUF` 512, `JD_FORMAT` 0, `JD_FASTDECODE` 1, `JD_USE_SCALE` 1, `JD_TBLCLIP` 1), as `disp-render-jpg` of
`src/extensions/display_extensions.c` uses it (scale 0).

Outcomes: a value, an error code of the decoder, or `ub`: an access outside of the object that it is meant for, the use of a null pointer, or a loop without end.

Simplifications:
* The objects that are taken from the pool (the input buffer and the tables) are separate here; that the blocks in the pool are disjoint and inside of it is proved. The two buffers for a unit of
  the image (`workbuf`, `mcubuf`) are one region, as in the code.
* The inverse transform (`block_idct`) is a parameter. So is what a product is that does not fit into 32 bits: in C it is undefined behaviour (`strict`); the machines at hand cut it.
-/

namespace Verif.Jpg

/-- `JRESULT`, `src/extensions/tjpgd.h`. -/
inductive Err where
  | intr | inp | mem1 | mem2 | par | fmt1 | fmt3
  deriving DecidableEq, Repr

/-- What a function of the decoder comes to. -/
inductive R (α : Type) where
  | ok (a : α)
  | err (e : Err)
  | ub
  deriving DecidableEq, Repr

namespace R
/-- Go on with the value. -/
def bind {α β : Type} : R α → (α → R β) → R β
  | ok a, f => f a
  | err e, _ => err e
  | ub, _ => ub
instance : Monad R where
  pure := ok
  bind := bind
end R

/-- `JD_SZBUF`, `src/extensions/tjpgdcnf.h`. -/
def szbuf : Nat := 512

/-- The input: the input buffer (`inbuf`), the position of the next byte and the number of bytes in it (`dptr`, `dctr`), what is left of the data (`jpg_bufdef`), the marker that was met, and the
working register with the number of its bits (`wreg`, `dbit`). -/
structure In where
  buf : Nat → Nat
  dptr : Nat
  dctr : Nat
  src : List Nat
  marker : Nat
  w : Nat
  wbit : Nat

/-- `jpg_input_func`, `src/extensions/display_extensions.c:2787-2799`, into the buffer at `off`. The number of bytes, the buffer and the data that are left. -/
def infunc (buf : Nat → Nat) (src : List Nat) (off n : Nat) : R (Nat × (Nat → Nat) × List Nat) :=
  let got := min n src.length
  if off + got ≤ szbuf then .ok (got, (fun i => if off ≤ i ∧ i < off + got then src.getD (i - off) 0 else buf i), src.drop got) else .ub

/-- A byte of the stream: refill the buffer if it is empty, then `*dp++`. -/
def nextByte (s : In) : R (Nat × In) := do
  let s1 ← if s.dctr = 0 then do
      let (n, buf, src) ← infunc s.buf s.src 0 szbuf
      if n = 0 then .err .inp else .ok { s with buf := buf, src := src, dptr := 0, dctr := n }
    else .ok s
  if s1.dptr < szbuf then .ok (s1.buf s1.dptr, { s1 with dptr := s1.dptr + 1, dctr := s1.dctr - 1 }) else .ub

/-- The loops that prepare bits in the working register, `src/extensions/tjpgd.c:343-366` (`need` is 16) and 471-493. `flg`: in a flag sequence. The argument `fuel` bounds the number of rounds. -/
def fill (need : Nat) : Nat → Bool → In → R In
  | 0, _, _ => .ub
  | fuel + 1, flg, s =>
    if s.wbit < need then
      if s.marker ≠ 0 then fill need fuel flg { s with w := (s.w * 256 + 255) % 2 ^ 32, wbit := s.wbit + 8 }
      else do
        let (d, s1) ← nextByte s
        if flg then
          fill need fuel false { s1 with marker := if d ≠ 0 then d else s1.marker, w := (s1.w * 256 + 255) % 2 ^ 32, wbit := s1.wbit + 8 }
        else if d = 255 then fill need fuel true s1
        else fill need fuel false { s1 with w := (s1.w * 256 + d) % 2 ^ 32, wbit := s1.wbit + 8 }
    else .ok s

/-- The rounds that suffice for 16 bits. -/
def rounds : Nat := 5

/-- The bits of the register that are in use, `src/extensions/tjpgd.c:339-340` and 467-468. -/
def masked (s : In) : In := { s with wbit := s.wbit % 32, w := s.w % 2 ^ (s.wbit % 32) }

/-- A Huffman table: the number of codes of each length (`huffbits`), the codes (`huffcode`) and their values (`huffdata`). -/
structure Table where
  bits : List Nat
  code : List Nat
  data : List Nat
  deriving DecidableEq, Repr

/-- The search among the codes of one length, `src/extensions/tjpgd.c:402-408`: the value, or the codes and values behind. -/
def scan (d : Nat) : Nat → List Nat → List Nat → R (Option Nat × List Nat × List Nat)
  | 0, hc, hd => .ok (none, hc, hd)
  | nc + 1, c :: hc, v :: hd => if d = c then .ok (some v, hc, hd) else scan d nc hc hd
  | _ + 1, _ :: _, [] => .ub
  | _ + 1, [], _ => .ub

/-- The search, `src/extensions/tjpgd.c:398-413`: the value and the length of the code. `n` is the number of lengths that are left. -/
def search (w wbit : Nat) : Nat → Nat → List Nat → List Nat → List Nat → R (Nat × Nat)
  | 0, _, _, _, _ => .err .fmt1
  | n + 1, bl, nc :: hb, hc, hd => do
    let (r, hc1, hd1) ← scan (w / 2 ^ (wbit - bl)) nc hc hd
    match r with
    | some v => .ok (v, bl)
    | none => search w wbit n (bl + 1) hb hc1 hd1
  | _ + 1, _, [], _, _ => .ub

/-- `huffext`, `src/extensions/tjpgd.c:282-414`. -/
def huffext (s : In) (t : Table) : R (Nat × In) := do
  let s1 ← fill 16 rounds false (masked s)
  let (v, bl) ← search s1.w s1.wbit 16 1 t.bits t.code t.data
  .ok (v, { s1 with wbit := s1.wbit - bl })

/-- `bitext`, `src/extensions/tjpgd.c:423-499`. -/
def bitext (s : In) (nbit : Nat) : R (Nat × In) := do
  let s1 ← fill nbit rounds false (masked s)
  .ok (s1.w / 2 ^ ((s1.wbit - nbit) % 32), { s1 with wbit := s1.wbit - nbit })

/-- Two bytes, `src/extensions/tjpgd.c:547-557`. -/
def twoBytes (s : In) : R (Nat × In) := do
  let (a, s1) ← nextByte s
  let (b, s2) ← nextByte s1
  .ok ((a * 256 + b) % 2 ^ 16, s2)

/-- `restart`, `src/extensions/tjpgd.c:508-570`, without the DC values. The mask `0xFFD8` leaves bit 5 open. -/
def restart (s : In) (rstn : Nat) : R In := do
  let (m, s1) ← if s.marker ≠ 0 then .ok (0xFF00 + s.marker, { s with marker := 0 }) else twoBytes s
  if m / 256 ≠ 255 ∨ m % 256 / 64 ≠ 3 ∨ m % 32 / 16 ≠ 1 ∨ m % 16 / 8 ≠ 0 ∨ m % 8 ≠ rstn % 8 then .err .fmt1 else .ok { s1 with wbit := 0 }

/-! ## Tables -/

/-- The pool: the address of the free part and its size (`pool`, `sz_pool`), and the blocks that were given out (address and size; not in the code). -/
structure Pool where
  next : Nat
  left : Nat
  blocks : List (Nat × Nat)

/-- `alloc_pool`, `src/extensions/tjpgd.c:132-149`. -/
def allocPool (p : Pool) (n : Nat) : Option (Nat × Pool) :=
  let n := (n + 3) / 4 * 4
  if n ≤ p.left then some (p.next, ⟨p.next + n, p.left - n, (p.next, n) :: p.blocks⟩) else none

/-- `Zig`, `src/extensions/tjpgd.c:41-46`. -/
def zig : List Nat :=
  [0, 1, 8, 16, 9, 2, 3, 10, 17, 24, 32, 25, 18, 11, 4, 5,
   12, 19, 26, 33, 40, 48, 41, 34, 27, 20, 13, 6, 7, 14, 21, 28,
   35, 42, 49, 56, 57, 50, 43, 36, 29, 22, 15, 23, 30, 37, 44, 51,
   58, 59, 52, 45, 38, 31, 39, 46, 53, 60, 61, 54, 47, 55, 62, 63]

/-- `Ipsf`, `src/extensions/tjpgd.c:55-64`. -/
def ipsf : List Nat :=
  [8192, 11362, 10703, 9632, 8192, 6436, 4433, 2260,
   11362, 15760, 14846, 13361, 11362, 8927, 6149, 3134,
   10703, 14846, 13984, 12585, 10703, 8409, 5792, 2953,
   9632, 13361, 12585, 11326, 9632, 7568, 5213, 2657,
   8192, 11362, 10703, 9632, 8192, 6436, 4433, 2260,
   6436, 8927, 8409, 7568, 6436, 5057, 3483, 1775,
   4433, 6149, 5792, 5213, 4433, 3483, 2399, 1223,
   2260, 3134, 2953, 2657, 2260, 1775, 1223, 623]

/-- The element of a list at an index, as a read through a pointer. -/
def at? (l : List Nat) (i : Nat) : R Nat :=
  match l[i]? with
  | some x => .ok x
  | none => .ub

/-- The loop that loads a quantization table, `src/extensions/tjpgd.c:178-181`; `n` entries are left. -/
def loadQt : Nat → Nat → List Nat → List Nat → R (List Nat × List Nat)
  | 0, _, data, t => .ok (data, t)
  | n + 1, i, data, t => do
    let zi ← at? zig i
    let f ← at? ipsf zi
    match data with
    | [] => .ub
    | d :: data => if zi < t.length then loadQt n (i + 1) data (t.set zi (d * f)) else .ub

/-- The decoder: `JDEC`, `src/extensions/tjpgd.h`. `work` and `mcu` are the sizes of `workbuf` (in bytes) and `mcubuf` (in elements); 0 while they are null pointers. -/
structure JD where
  pool : Pool
  inp : In
  ncomp : Nat
  msx : Nat
  msy : Nat
  qtid : Nat → Nat
  nrst : Nat
  width : Nat
  height : Nat
  huffbits : Nat → Nat → Option (List Nat)
  huffcode : Nat → Nat → Option (List Nat)
  huffdata : Nat → Nat → Option (List Nat)
  qttbl : Nat → Option (List Nat)
  work : Nat
  mcu : Nat

/-- An entry of a table of pointers. -/
def upd {α : Type} (f : Nat → α) (i : Nat) (a : α) : Nat → α := fun k => if k = i then a else f k

/-- An entry of a table of pointers with two indices. -/
def upd2 {α : Type} (f : Nat → Nat → α) (i j : Nat) (a : α) : Nat → Nat → α := fun k l => if k = i ∧ l = j then a else f k l

/-- `create_qt_tbl`, `src/extensions/tjpgd.c:158-185`. `fuel` bounds the number of tables. The functions that can fail after they have changed the decoder also return the decoder. -/
def createQt : Nat → JD → List Nat → Nat → JD × R Unit
  | 0, jd, _, _ => (jd, .ub)
  | fuel + 1, jd, data, ndata =>
    if ndata = 0 then (jd, .ok ())
    else if ndata < 65 then (jd, .err .fmt1)
    else
      match data with
      | [] => (jd, .ub)
      | d :: data =>
        if 16 ≤ d then (jd, .err .fmt1)
        else
          match allocPool jd.pool (64 * 4) with
          | none => (jd, .err .mem1)
          | some (_, p) =>
            match loadQt 64 0 data (List.replicate 64 0) with
            | .ok (data, t) => createQt fuel { jd with pool := p, qttbl := upd jd.qttbl (d % 4) (some t) } data (ndata - 65)
            | .err e => (jd, .err e)
            | .ub => (jd, .ub)

/-- `n` bytes, as with `*data++`. -/
def bytes : Nat → List Nat → R (List Nat × List Nat)
  | 0, data => .ok ([], data)
  | _ + 1, [] => .ub
  | n + 1, d :: data => do
    let (l, r) ← bytes n data
    .ok (d :: l, r)

/-- The codes of one length, `src/extensions/tjpgd.c:224`: the codes and the next one. -/
def codesOf : Nat → Nat → List Nat × Nat
  | 0, hc => ([], hc)
  | b + 1, hc =>
    let (l, h) := codesOf b ((hc + 1) % 2 ^ 16)
    (hc :: l, h)

/-- The code words, `src/extensions/tjpgd.c:221-226`. -/
def codes : List Nat → Nat → List Nat
  | [], _ => []
  | b :: bs, hc =>
    let (l, h) := codesOf b hc
    l ++ codes bs (h * 2 % 2 ^ 16)

/-- `create_huffman_tbl`, `src/extensions/tjpgd.c:194-273`. -/
def createHuff : Nat → JD → List Nat → Nat → JD × R Unit
  | 0, jd, _, _ => (jd, .ub)
  | fuel + 1, jd, data, ndata =>
    if ndata = 0 then (jd, .ok ())
    else if ndata < 17 then (jd, .err .fmt1)
    else
      match data with
      | [] => (jd, .ub)
      | d :: data =>
        -- `d & 0xEE`
        if ¬(d = 0 ∨ d = 1 ∨ d = 16 ∨ d = 17) then (jd, .err .fmt1)
        else
          let cls := d / 16
          let num := d % 16
          match allocPool jd.pool 16 with
          | none => (jd, .err .mem1)
          | some (_, p1) =>
            match bytes 16 data with
            | .ok (hb, data) =>
              let jd1 := { jd with pool := p1, huffbits := upd2 jd.huffbits num cls (some hb) }
              let np := hb.sum
              match allocPool jd1.pool (np * 2) with
              | none => (jd1, .err .mem1)
              | some (_, p2) =>
                let hc := codes hb 0
                let jd2 := { jd1 with pool := p2, huffcode := upd2 jd1.huffcode num cls (some hc) }
                -- the block holds `np` code words
                if np < hc.length then (jd2, .ub)
                else if ndata - 17 < np then (jd2, .err .fmt1)
                else
                  match allocPool jd2.pool np with
                  | none => (jd2, .err .mem1)
                  | some (_, p3) =>
                    match bytes np data with
                    | .ok (hd, data) =>
                      let jd3 := { jd2 with pool := p3, huffdata := upd2 jd2.huffdata num cls (some hd) }
                      if cls = 0 ∧ ∃ x ∈ hd, 11 < x then (jd3, .err .fmt1) else createHuff fuel jd3 data (ndata - 17 - np)
                    | .err e => (jd2, .err e)
                    | .ub => (jd2, .ub)
            | .err e => (jd, .err e)
            | .ub => (jd, .ub)

/-! ## Preparation -/

/-- The input buffer as a list. -/
def segment (buf : Nat → Nat) : List Nat := (List.range szbuf).map buf

/-- `LDB_WORD`, `src/extensions/tjpgd.c:959`. -/
def word (buf : Nat → Nat) (i : Nat) : Nat := buf i * 256 + buf (i + 1)

/-- The content of a segment: `jd->infunc(jd, seg, len) != len`. -/
def load (jd : JD) (len : Nat) : R JD := do
  let (n, buf, src) ← infunc jd.inp.buf jd.inp.src 0 len
  if n ≠ len then .err .inp else .ok { jd with inp := { jd.inp with buf := buf, src := src } }

/-- The loop that looks for the first marker, `src/extensions/tjpgd.c:986-991`: the number of bytes. -/
def findSOI : List Nat → JD → Nat → Nat → JD × R Nat
  | [], jd, _, _ => (jd, .err .inp)
  | b :: src, jd, marker, ofs =>
    let jd := { jd with inp := { jd.inp with src := src, buf := upd jd.inp.buf 0 b } }
    let marker := marker % 256 * 256 + b
    if marker = 0xFFD8 then (jd, .ok (ofs + 1)) else findSOI src jd marker (ofs + 1)

/-- The components of an image, `src/extensions/tjpgd.c:1013-1025`; `n` are left. -/
def components : Nat → Nat → JD → JD × R Unit
  | 0, _, jd => (jd, .ok ())
  | n + 1, i, jd =>
    let b := jd.inp.buf (7 + 3 * i)
    let q := jd.inp.buf (8 + 3 * i)
    if i = 0 then
      if b ≠ 0x11 ∧ b ≠ 0x22 ∧ b ≠ 0x21 then (jd, .err .fmt3)
      else
        let jd1 := { jd with msx := b / 16, msy := b % 16, qtid := upd jd.qtid i q }
        if 3 < q then (jd1, .err .fmt3) else components n (i + 1) jd1
    else if b ≠ 0x11 then (jd, .err .fmt3)
    else
      let jd1 := { jd with qtid := upd jd.qtid i q }
      if 3 < q then (jd1, .err .fmt3) else components n (i + 1) jd1

/-- Are the tables of the components there? `src/extensions/tjpgd.c:1059-1069`; `n` components are left. -/
def tablesLoaded (jd : JD) : Nat → Nat → R Unit
  | 0, _ => .ok ()
  | n + 1, i =>
    let b := jd.inp.buf (2 + 2 * i)
    let k := if i = 0 then 0 else 1
    if b ≠ 0 ∧ b ≠ 0x11 then .err .fmt3
    else if (jd.huffbits k 0).isNone ∨ (jd.huffbits k 1).isNone then .err .fmt1
    else if 3 < jd.qtid i then .ub
    else if (jd.qttbl (jd.qtid i)).isNone then .err .fmt1
    else tablesLoaded jd n (i + 1)

/-- Start of scan, `src/extensions/tjpgd.c:1055-1087`, after the segment was loaded. -/
def startOfScan (jd : JD) (ofs : Nat) : JD × R Unit :=
  if jd.width = 0 ∨ jd.height = 0 then (jd, .err .fmt1)
  else if jd.inp.buf 0 ≠ jd.ncomp then (jd, .err .fmt3)
  else
    match tablesLoaded jd jd.ncomp 0 with
    | .err e => (jd, .err e)
    | .ub => (jd, .ub)
    | .ok () =>
      let n := jd.msy * jd.msx
      if n = 0 then (jd, .err .fmt1)
      else
        let len := max (n * 64 * 2 + 64) 256
        match allocPool jd.pool len with
        | none => (jd, .err .mem1)
        | some (_, p1) =>
          let jd1 := { jd with pool := p1, work := len }
          match allocPool p1 ((n + 2) * 64 * 2) with
          | none => (jd1, .err .mem1)
          | some (_, p2) =>
            let jd2 := { jd1 with pool := p2, mcu := (n + 2) * 64 }
            let o := ofs % szbuf
            if o = 0 then ({ jd2 with inp := { jd2.inp with dptr := 0 } }, .ok ())
            else
              match infunc jd2.inp.buf jd2.inp.src o (szbuf - o) with
              | .ok (k, buf, src) => ({ jd2 with inp := { jd2.inp with buf := buf, src := src, dctr := k, dptr := o } }, .ok ())
              | .err e => (jd2, .err e)
              | .ub => (jd2, .ub)

/-- The segments, `src/extensions/tjpgd.c:993-1108`. Each takes at least four bytes of the data. -/
def segments : Nat → JD → Nat → JD × R Unit
  | 0, jd, _ => (jd, .ub)
  | fuel + 1, jd, ofs =>
    match load jd 4 with
    | .err e => (jd, .err e)
    | .ub => (jd, .ub)
    | .ok jd =>
      let marker := word jd.inp.buf 0
      let len := word jd.inp.buf 2
      if len ≤ 2 ∨ marker / 256 ≠ 255 then (jd, .err .fmt1)
      else
        let len := len - 2
        let ofs := ofs + 4 + len
        let m := marker % 256
        if m = 0xC0 ∨ m = 0xDD ∨ m = 0xC4 ∨ m = 0xDB ∨ m = 0xDA then
          if szbuf < len then (jd, .err .mem2)
          else
            match load jd len with
            | .err e => (jd, .err e)
            | .ub => (jd, .ub)
            | .ok jd =>
              if m = 0xC0 then
                let jd := { jd with width := word jd.inp.buf 3, height := word jd.inp.buf 1, ncomp := jd.inp.buf 5 }
                if jd.ncomp ≠ 3 ∧ jd.ncomp ≠ 1 then (jd, .err .fmt3)
                else
                  match components jd.ncomp 0 jd with
                  | (jd, .ok ()) => segments fuel jd ofs
                  | (jd, r) => (jd, r)
              else if m = 0xDD then segments fuel { jd with nrst := word jd.inp.buf 0 } ofs
              else if m = 0xC4 then
                match createHuff (len + 1) jd (segment jd.inp.buf) len with
                | (jd, .ok ()) => segments fuel jd ofs
                | (jd, r) => (jd, r)
              else if m = 0xDB then
                match createQt (len + 1) jd (segment jd.inp.buf) len with
                | (jd, .ok ()) => segments fuel jd ofs
                | (jd, r) => (jd, r)
              else startOfScan jd ofs
        else if m = 0xC1 ∨ m = 0xC2 ∨ m = 0xC3 ∨ m = 0xC5 ∨ m = 0xC6 ∨ m = 0xC7 ∨ m = 0xC9 ∨ m = 0xCA ∨ m = 0xCB ∨ m = 0xCD ∨ m = 0xCE ∨ m = 0xCF ∨ m = 0xD9 then (jd, .err .fmt3)
        else if jd.inp.src.length < len then ({ jd with inp := { jd.inp with src := [] } }, .err .inp)
        else segments fuel { jd with inp := { jd.inp with src := jd.inp.src.drop len } } ofs

/-- The decoder before anything is read: `memset`, `src/extensions/tjpgd.c:977-981`. -/
def blank (size : Nat) (src : List Nat) : JD :=
  { pool := ⟨0, size, []⟩, inp := ⟨fun _ => 0, 0, 0, src, 0, 0, 0⟩, ncomp := 0, msx := 0, msy := 0, qtid := fun _ => 0, nrst := 0, width := 0, height := 0, huffbits := fun _ _ => none,
    huffcode := fun _ _ => none, huffdata := fun _ _ => none, qttbl := fun _ => none, work := 0, mcu := 0 }

/-- `jd_prepare`, `src/extensions/tjpgd.c:962-1109`, with a pool of `size` bytes and the data `src`. The content of the input buffer before the first byte does not matter. -/
def prepare (size : Nat) (src : List Nat) : JD × R Unit :=
  match allocPool (blank size src).pool szbuf with
  | none => (blank size src, .err .mem1)
  | some (_, p) =>
    match findSOI src { blank size src with pool := p } 0 0 with
    | (jd, .ok ofs) => segments (src.length + 1) jd ofs
    | (jd, .err e) => (jd, .err e)
    | (jd, .ub) => (jd, .ub)

/-! ## Decoding -/

/-- A value in 32 bits. -/
def wrap32 (x : Int) : Int := (x + 2 ^ 31) % 2 ^ 32 - 2 ^ 31

/-- A value in 16 bits. -/
def wrap16 (x : Int) : Int := (x + 2 ^ 15) % 2 ^ 16 - 2 ^ 15

/-- The number that `bc` bits stand for, `src/extensions/tjpgd.c:734-735` and 754-755. -/
def extend (e bc : Nat) : Int := if e / 2 ^ (bc - 1) % 2 = 0 then (e : Int) - (2 ^ bc - 1) else e

/-- The arithmetic: `block_idct` (64 values to 64 values), and whether a product that does not fit into 32 bits is undefined behaviour. -/
structure Arith where
  idct : List Int → List Int
  len : ∀ l, (idct l).length = 64
  strict : Bool

/-- `d * dqf[i] >> 8` with the table of the component. -/
def dequant (F : Arith) (dqf : List Nat) (i : Nat) (d : Int) : R Int :=
  match dqf[i]? with
  | some q => if F.strict = true ∧ wrap32 (d * q) ≠ d * q then .ub else .ok (wrap32 (d * q) / 256)
  | none => .ub

/-- `tmp[i] = x`. -/
def put (tmp : List Int) (i : Nat) (x : Int) : R (List Int) := if i < tmp.length then .ok (tmp.set i x) else .ub

/-- The loop over the AC elements, `src/extensions/tjpgd.c:744-759`. `n` bounds the number of rounds. -/
def acLoop (F : Arith) (t : Table) (dqf : List Nat) : Nat → Nat → In → List Int → R (Nat × In × List Int)
  | 0, _, _, _ => .ub
  | n + 1, z, s, tmp => do
    let (d, s1) ← huffext s t
    if d = 0 then .ok (z, s1, tmp)
    else
      let z := z + d / 16
      if 64 ≤ z then .err .fmt1
      else
        let bc := d % 16
        if bc = 0 then (if z + 1 < 64 then acLoop F t dqf n (z + 1) s1 tmp else .ok (z + 1, s1, tmp))
        else do
          let (e, s2) ← bitext s1 bc
          let i ← at? zig z
          let x ← dequant F dqf i (extend e bc)
          let tmp ← put tmp i x
          if z + 1 < 64 then acLoop F t dqf n (z + 1) s2 tmp else .ok (z + 1, s2, tmp)

/-- A table through the pointers; null pointers are undefined behaviour. -/
def JD.table (jd : JD) (id cls : Nat) : R Table :=
  match jd.huffbits id cls, jd.huffcode id cls, jd.huffdata id cls with
  | some hb, some hc, some hd => .ok ⟨hb, hc, hd⟩
  | _, _, _ => .ub

/-- A quantization table through the pointers. -/
def JD.quant (jd : JD) (cmp : Nat) : R (List Nat) :=
  if 3 < jd.qtid cmp then .ub
  else
    match jd.qttbl (jd.qtid cmp) with
    | some q => .ok q
    | none => .ub

/-- The DC element behind its code, `src/extensions/tjpgd.c:729-737`: the value, the one that is kept for the next block, and the input. -/
def dcValue (s : In) (dcv : Int) (bc : Nat) : R (Int × Int × In) :=
  if bc = 0 then .ok (dcv, dcv, s)
  else do
    let (e, s1) ← bitext s bc
    .ok (dcv + extend e bc, wrap16 (dcv + extend e bc), s1)

/-- A block of a component that is in the stream, `src/extensions/tjpgd.c:722-773`: the input, the DC value and the 64 elements. -/
def block (F : Arith) (jd : JD) (cmp : Nat) (s : In) (dcv : Int) : R (In × Int × List Int) := do
  let id := if cmp = 0 then 0 else 1
  let tdc ← jd.table id 0
  let (bc, s1) ← huffext s tdc
  let (d, dcv1, s2) ← dcValue s1 dcv bc
  let dqf ← jd.quant cmp
  let x ← dequant F dqf 0 d
  let tmp ← put (List.replicate 64 0) 0 x
  let tac ← jd.table id 1
  let (z, s3, tmp) ← acLoop F tac dqf 64 1 s2 tmp
  if z = 1 then .ok (s3, dcv1, List.replicate 64 (wrap16 ((tmp.getD 0 0).tdiv 256 + 128))) else .ok (s3, dcv1, F.idct tmp)

/-- `mcu_load`, `src/extensions/tjpgd.c:702-779`: the blocks from `blk` on; `n` are left. `tmp` is in `workbuf`, which has at least 256 bytes. -/
def mcuLoad (F : Arith) (jd : JD) : Nat → Nat → In → (Nat → Int) → List Int → R (In × (Nat → Int) × List Int)
  | 0, _, s, dcv, buf => .ok (s, dcv, buf)
  | n + 1, blk, s, dcv, buf =>
    let nby := jd.msx * jd.msy
    let cmp := if blk < nby then 0 else blk - nby + 1
    if jd.mcu < buf.length + 64 ∨ jd.work < 256 then .ub
    else if cmp ≠ 0 ∧ jd.ncomp ≠ 3 then mcuLoad F jd n (blk + 1) s dcv (buf ++ List.replicate 64 128)
    else if 2 < cmp then .ub
    else do
      let (s1, v, b) ← block F jd cmp s (dcv cmp)
      mcuLoad F jd n (blk + 1) s1 (upd dcv cmp v) (buf ++ b)

/-- `BYTECLIP`, `src/extensions/tjpgd.c:74-113`: the table `Clip8` of 1024 entries at the value modulo 1024. -/
def byteclip (v : Int) : Nat :=
  let i := (v % 1024).toNat
  if i < 256 then i else if i < 512 then 255 else 0

/-- A pixel, `src/extensions/tjpgd.c:838-840`; `1.402 * 1024` etc. are cut to integers. -/
def rgb (yy cb cr : Int) : Nat × Nat × Nat :=
  (byteclip (yy + (1435 * cr).tdiv 1024), byteclip (yy - (352 * cb + 731 * cr).tdiv 1024), byteclip (yy + (1814 * cb).tdiv 1024))

/-- A read of an element of `mcubuf` when `k` pixels have been written to `workbuf`. They have 3 bytes each, an element has 2, and `mcubuf` follows `workbuf`: an element of which a byte has been written over is
lost. -/
def elem (jd : JD) (buf : List Int) (k e : Nat) : R Int :=
  if jd.work + 2 * e < 3 * k then .ub
  else if jd.mcu ≤ e then .ub
  else
    match buf[e]? with
    | some x => .ok x
    | none => .ub

/-- The pixels of a line of a unit, `src/extensions/tjpgd.c:828-841`: `py`, `pc` are positions in `mcubuf`. `n` pixels are left. -/
def line (jd : JD) (buf : List Int) (mx : Nat) : Nat → Nat → Nat → Nat → Nat → R (List (Nat × Nat × Nat))
  | 0, _, _, _, _ => .ok []
  | n + 1, ix, py, pc, k => do
    let cb ← elem jd buf k pc
    let cr ← elem jd buf k (pc + 64)
    let py := if mx = 16 ∧ ix = 8 then py + 56 else py
    let pc1 := if mx = 16 then pc + ix % 2 else pc + 1
    let yy ← elem jd buf k py
    -- the pixel is inside of the two buffers
    if jd.work + 2 * jd.mcu < 3 * (k + 1) then .ub
    else do
      let rest ← line jd buf mx n (ix + 1) (py + 1) pc1 (k + 1)
      .ok (rgb yy (cb - 128) (cr - 128) :: rest)

/-- The lines of a unit, `src/extensions/tjpgd.c:819-842`; `n` are left. -/
def lines (jd : JD) (buf : List Int) (mx my : Nat) : Nat → Nat → R (List (List (Nat × Nat × Nat)))
  | 0, _ => .ok []
  | n + 1, iy => do
    let pc := if my = 16 then 64 * 4 + iy / 2 * 8 else mx * 8 + iy * 8
    let py := (if my = 16 ∧ 8 ≤ iy then 64 else 0) + iy * 8
    let l ← line jd buf mx mx 0 py pc (iy * mx)
    let ls ← lines jd buf mx my n (iy + 1)
    .ok (l :: ls)

/-- A rectangle that is given to the output function: left, top, and the lines of pixels. -/
structure Rect where
  left : Nat
  top : Nat
  width : Nat
  height : Nat
  pixels : List (List (Nat × Nat × Nat))
  deriving DecidableEq, Repr

/-- `mcu_output`, `src/extensions/tjpgd.c:788-950`, with scale 0 (the loop that squeezes up the pixels of a unit at the right edge keeps the first `rx` pixels of each of the first `ry` lines; where no line is
too long, the first `ry` lines are what the output function gets to see). -/
def mcuOutput (jd : JD) (buf : List Int) (x y : Nat) : R Rect := do
  let mx := jd.msx * 8
  let my := jd.msy * 8
  let rx := if x + mx ≤ jd.width then mx else jd.width - x
  let ry := if y + my ≤ jd.height then my else jd.height - y
  let ls ← lines jd buf mx my my 0
  .ok ⟨x % 2 ^ 16, y % 2 ^ 16, rx, ry, (ls.take ry).map (·.take rx)⟩

/-- The state of the loops of `jd_decomp`: the input, the DC values and the restart counters. -/
structure Scan where
  inp : In
  dcv : Nat → Int
  rst : Nat
  rsc : Nat

/-- The restart interval, `src/extensions/tjpgd.c:1140-1144`. -/
def interval (jd : JD) (s : Scan) : R Scan :=
  if jd.nrst = 0 then .ok s
  else if s.rst = jd.nrst then do
    let i ← restart s.inp s.rsc
    .ok { inp := i, dcv := fun _ => 0, rst := 1, rsc := (s.rsc + 1) % 2 ^ 16 }
  else .ok { s with rst := (s.rst + 1) % 2 ^ 16 }

/-- One unit, `src/extensions/tjpgd.c:1140-1148`. -/
def unit (F : Arith) (jd : JD) (s : Scan) (x y : Nat) : R (Rect × Scan) := do
  let s1 ← interval jd s
  let (i, dcv, buf) ← mcuLoad F jd (jd.msx * jd.msy + 2) 0 s1.inp s1.dcv []
  let r ← mcuOutput jd buf x y
  .ok (r, { s1 with inp := i, dcv := dcv })

/-- The inner loop, `src/extensions/tjpgd.c:1139-1149`: the rectangles, and how it ends. -/
def row (F : Arith) (jd : JD) (y : Nat) : Nat → Nat → Scan → List Rect × R Scan
  | 0, x, s => ([], if x < jd.width then .ub else .ok s)
  | n + 1, x, s =>
    if x < jd.width then
      match unit F jd s x y with
      | .ok (r, s1) =>
        let (rs, o) := row F jd y n (x + jd.msx * 8) s1
        (r :: rs, o)
      | .err e => ([], .err e)
      | .ub => ([], .ub)
    else ([], .ok s)

/-- The outer loop, `src/extensions/tjpgd.c:1138-1150`. -/
def rows (F : Arith) (jd : JD) : Nat → Nat → Scan → List Rect × R Unit
  | 0, y, _ => ([], if y < jd.height then .ub else .ok ())
  | n + 1, y, s =>
    if y < jd.height then
      match row F jd y jd.width 0 s with
      | (rs, .ok s1) =>
        let (rs', o) := rows F jd n (y + jd.msy * 8) s1
        (rs ++ rs', o)
      | (rs, .err e) => (rs, .err e)
      | (rs, .ub) => (rs, .ub)
    else ([], .ok ())

/-- `jd_decomp`, `src/extensions/tjpgd.c:1118-1153`, with scale 0: the rectangles that are given to the output function, and how it ends. A loop without end is `ub`. -/
def decomp (F : Arith) (jd : JD) : List Rect × R Unit := rows F jd jd.height 0 ⟨jd.inp, fun _ => 0, 0, 0⟩

/-- `disp-render-jpg`, `src/extensions/display_extensions.c:2820-2850`: the result of `jd_prepare` is not looked at. The size of the pool is 4106. -/
def renderJpg (F : Arith) (src : List Nat) : List Rect × R Unit :=
  match prepare 4106 src with
  | (_, .ub) => ([], .ub)
  | (jd, _) => decomp F jd

end Verif.Jpg
