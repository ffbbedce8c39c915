import Verif.Tok.IntLit
import Verif.Sym.Model
import Verif.Eq.Model

/-!
# The printer and the reader of expressions

Models of `src/print.c` and of the reader continuations of `src/eval_cps.c`
(`apply_read_base` and lines 3683-4372).

* Values and heaps are those of `Verif.Eq`, symbols those of `Verif.Sym`, tokens
  those of `Verif.Tok`.
* The printer only reads the heap, the reader allocates fresh cells: cells from `next` on
  are free.  Memory, cells and evaluation stack do not run out, and garbage
  collection is not modelled.
* The evaluation stack of the reader is a list of frames.  The print stack is
  a list of frames as well, but the number of its words is what the overflow tests see.
-/

namespace Verif.Print

open Verif.Tok (Byte Stream Token)
open Verif.Eq (Val NTy Tag Obj Heap)

/-- What the model leaves open. -/
structure Dev where
  b : Verif.Val.Build
  /-- The byte read at index -1 of the data of an array; `none`: that read is undefined
  behaviour, as C has it. -/
  stray : Option Byte
  /-- `snprintf` of a float or double with its type suffix. -/
  fmt : NTy → Int → List Byte
  /-- `strtod` of the text of a float literal, as bits of the given token type. -/
  strtod : Nat → List Byte → Int
  /-- `(uint8_t)(uint32_t)` of a float or double. -/
  toByte : NTy → Int → Byte
  /-- What is printed for a channel, a custom type, …; `none` for types that
  cannot be printed. -/
  other : Nat → Option (List Byte)
  /-- The bytes allocated for an array that is being read (eval_cps.c:4099-4109). -/
  room : Nat

/-! ## Printer -/

/-- The string channel of `lbm_print_value`: what was written, the size of the buffer, and
whether something was written outside of it. -/
structure Ch where
  out : List Byte
  len : Nat
  ub : Bool
  deriving DecidableEq

/-- `string_write` (lbm_channel.c:348-359); `st->length - 1` is an `unsigned int`. -/
def Ch.write (c : Ch) (x : Byte) : Ch × Bool :=
  if c.out.length < (c.len + 2 ^ 32 - 1) % 2 ^ 32 then
    ({ c with out := c.out ++ [x], ub := c.ub || decide (c.len ≤ c.out.length) }, true)
  else (c, false)

/-- Go on only if the last result was `EMIT_OK` (or `CHANNEL_SUCCESS`). -/
def andThen (p : Ch × Bool) (g : Ch → Ch × Bool) : Ch × Bool := if p.2 then g p.1 else (p.1, false)

/-- `print_emit_string` (print.c:107-115) of the characters before the terminating zero. -/
def emitStr (c : Ch) : List Byte → Ch × Bool
  | [] => (c, true)
  | x :: xs => andThen (c.write x) fun c1 => emitStr c1 xs

/-- `emit_escape` (print.c:125-135). -/
def emitEscape (c : Ch) (x : Byte) : Ch × Bool :=
  if x = 34 then emitStr c [92, 34]
  else if x = 10 then emitStr c [92, 110]
  else if x = 13 then emitStr c [92, 114]
  else if x = 9 then emitStr c [92, 116]
  else if x = 92 then emitStr c [92, 92]
  else c.write x

/-- `print_emit_string_value` (print.c:137-144): up to the first zero. -/
def emitStrVal (c : Ch) : List Byte → Ch × Bool
  | [] => (c, true)
  | x :: xs =>
    if x = 0 then (c, true) else andThen (emitEscape c x) fun c1 => emitStrVal c1 xs

/-- `%u` of a number. -/
def decText (n : Nat) : List Byte :=
  if n < 10 then [BitVec.ofNat 8 (48 + n)]
  else decText (n / 10) ++ [BitVec.ofNat 8 (48 + n % 10)]

/-- `%d` of a number. -/
def intText (z : Int) : List Byte :=
  if z < 0 then 45 :: decText z.natAbs else decText z.natAbs

/-- `snprintf(buf, EMIT_BUFFER_SIZE, …)` (print.c:102). -/
def snprintf (s : List Byte) : List Byte := s.take 29

/-- The type suffix of a number (print.c:151-199, called with `ps` true). -/
def suffix : NTy → List Byte
  | .char => Tok.ascii "b"
  | .i => []
  | .u => Tok.ascii "u"
  | .i32 => Tok.ascii "i32"
  | .u32 => Tok.ascii "u32"
  | .i64 => Tok.ascii "i64"
  | .u64 => Tok.ascii "u64"
  | .float | .double => []

/-- What is printed for a number (print.c:151-199). -/
def numText (D : Dev) (t : NTy) (z : Int) : List Byte :=
  match t with
  | .float | .double => snprintf (D.fmt t z)
  | t => snprintf (intText z ++ suffix t)

/-- `isprint` in the C locale. -/
def isPrint (c : Byte) : Bool := 32 ≤ c.toNat && c.toNat ≤ 126

/-- The loop of `lbm_value_is_printable_string` (print.c:69-75): `is_a_string` and `i`. -/
def scan : List Byte → Nat → Bool × Nat
  | [], i => (true, i)
  | c :: cs, i =>
    if c = 0 then (true, i)
    else if !isPrint c && (c.toNat < 8 || c.toNat > 13) then (false, i)
    else scan cs (i + 1)

/-- `lbm_value_is_printable_string` (print.c:58-82); `none` when index -1 is read and that
is undefined.  `array->size - 1` wraps around for an empty array. -/
def isString (D : Dev) (l : List Byte) : Option Bool :=
  let r : Bool × Nat := if 1 ≤ l.length ∧ l[0]? ≠ some 0 then scan l 0 else (false, 0)
  if l.length = r.2 + 1 then some r.1
  else
    match r.2 with
    | 0 => D.stray.map fun x => if x ≠ 0 then false else r.1
    | i + 1 => some (if l[i]? ≠ some 0 then false else r.1)

/-- The loop of `print_emit_array_data` (print.c:237-245), which goes on after a failure;
`r` is the result so far. -/
def emitBytes (c : Ch) (r : Bool) : List Byte → Ch × Bool
  | [] => (c, r)
  | [x] => emitStr c (snprintf (decText x.toNat))
  | x :: xs =>
    let p := andThen (emitStr c (snprintf (decText x.toNat))) fun c1 => c1.write 32
    emitBytes p.1 p.2 xs

/-- `print_emit_array_data` (print.c:231-251). -/
def emitArray (c : Ch) (l : List Byte) : Ch × Bool :=
  andThen (c.write 91) fun c1 => andThen (emitBytes c1 true l) fun c2 => c2.write 93

/-- `print_emit_bytearray` (print.c:253-275) of an intact array. -/
def emitByteArray (D : Dev) (c : Ch) (l : List Byte) : Ch × Bool :=
  match isString D l with
  | none => ({ c with ub := true }, false)
  | some true => andThen (c.write 34) fun c1 => andThen (emitStrVal c1 l) fun c2 => c2.write 34
  | some false => emitArray c l

/-- The name of a symbol as characters. -/
def nameBytes (n : Sym.Name) : List Byte := n.map (BitVec.ofNat 8)

/-- `print_emit_symbol` (print.c:146-149): a symbol without a name is a failure. -/
def emitSymbol (tab : Sym.Tab) (c : Ch) (id : Nat) : Ch × Bool :=
  match Sym.getName tab id with
  | some n => emitStr c (nameBytes n)
  | none => (c, false)

/-- Entries of the print stack, an instruction (print.c:32-40) with its operands. -/
inductive PF where
  | print (v : Val)
  | startList (v : Val)
  | contList (v : Val)
  | endList
  | dot
  | startArray (v : Val)
  | contArray (l : List Val) (ix : Nat)
  | endArray

/-- Words of an entry. -/
def PF.words : PF → Nat
  | .print _ | .startList _ | .contList _ | .startArray _ => 2
  | .endList | .dot | .endArray => 1
  | .contArray _ _ => 3

/-- The stack pointer. -/
def sp (s : List PF) : Nat := (s.map PF.words).sum

/-- `push_n` (print.c:47-56). -/
def pushN (size : Nat) (n : Nat) (fs s : List PF) : Option (List PF) :=
  if sp s + n < size then some (fs ++ s) else none

/-- `lbm_push` (stack.c:83-90). -/
def push1 (size : Nat) (f : PF) (s : List PF) : Option (List PF) :=
  if sp s = size then none else some (f :: s)

/-- The state of the loop of `lbm_print_internal`: stack, channel, `r == EMIT_OK`. -/
structure P where
  stack : List PF
  c : Ch
  r : Bool

/-- Outcome of a step: go on, return, or undefined behaviour. -/
inductive PRes where
  | run (p : P)
  | ret (c : Ch) (r : Bool)
  | ub

/-- What is pushed for the rest of a list (print.c:336-350 and 371-385). -/
def pushRest (size : Nat) (a d : Val) (s : List PF) : Option (List PF) :=
  (match d.tag with
    | .cons => pushN size 2 [.contList d] s
    | _ => if d = Val.sym 0 then push1 size .endList s
           else pushN size 4 [.dot, .print d, .endList] s).bind
  (pushN size 2 [.print a])

/-- One round of the loop of `lbm_print_internal` (print.c:289-474). -/
def pstep (D : Dev) (tab : Sym.Tab) (H : Heap) (size : Nat) (p : P) : PRes :=
  match p.stack with
  | [] => .ret p.c p.r
  | .startArray v :: s =>
    let e := p.c.write 91
    match Eq.elemsOf H v with
    | none => .ub
    | some l =>
      match (match l with
        | x :: _ => pushN size 5 [.print x, .contArray l 1] s
        | [] => push1 size .endList s) with
      | some s1 => .run ⟨s1, e.1, e.2⟩
      | none => .ret e.1 false
  | .contArray l ix :: s =>
    match l[ix]? with
    | some x =>
      let e := p.c.write 32
      match pushN size 5 [.print x, .contArray l (ix + 1)] s with
      | some s1 => .run ⟨s1, e.1, e.2⟩
      | none => .ret e.1 false
    | none =>
      match push1 size .endArray s with
      | some s1 => .run ⟨s1, p.c, p.r⟩
      | none => .ret p.c false
  | .endArray :: s => let e := p.c.write 93; .run ⟨s, e.1, e.2⟩
  | .startList v :: s =>
    let e := p.c.write 40
    if !e.2 then .ret e.1 false
    else
      match Eq.pairOf H v with
      | none => .ub
      | some q =>
        match pushRest size q.1 q.2 s with
        | some s1 => .run ⟨s1, e.1, true⟩
        | none => .ret e.1 false
  | .contList v :: s =>
    if v = Val.sym 0 then .run ⟨s, p.c, p.r⟩
    else
      match Eq.pairOf H v with
      | none => .ub
      | some q =>
        let e := p.c.write 32
        if !e.2 then .ret e.1 false
        else
          match pushRest size q.1 q.2 s with
          | some s1 => .run ⟨s1, e.1, true⟩
          | none => .ret e.1 false
  | .endList :: s =>
    let e := p.c.write 41
    if !e.2 then .ret e.1 false else .run ⟨s, e.1, true⟩
  | .dot :: s =>
    let e := emitStr p.c [32, 46, 32]
    if !e.2 then .ret e.1 false else .run ⟨s, e.1, true⟩
  | .print v :: s =>
    match v.tag with
    | .cons =>
      match pushN size 2 [.startList v] s with
      | some s1 => .run ⟨s1, p.c, p.r⟩
      | none => .ret (emitStr p.c [32, 46, 46, 46]).1 true
    | .sym =>
      match v with
      | .sym id => let e := emitSymbol tab p.c id; .run ⟨s, e.1, e.2⟩
      | _ => .ub
    | .num t =>
      match Eq.numOf H v with
      | some z => let e := emitStr p.c (numText D t z); .run ⟨s, e.1, e.2⟩
      | none => .ub
    | .array =>
      match Eq.bytesOf H v with
      | some l =>
        let e := emitByteArray D p.c l
        if e.1.ub then .ub else .run ⟨s, e.1, e.2⟩
      | none => .ub
    | .lispArray =>
      match pushN size 2 [.startArray v] s with
      | some s1 => .run ⟨s1, p.c, p.r⟩
      | none => .ret (emitStr p.c [32, 46, 46, 46]).1 true
    | .other n =>
      match D.other n with
      | some t => let e := emitStr p.c t; .run ⟨s, e.1, e.2⟩
      | none => .ret p.c false

/-- The loop of `lbm_print_internal`. -/
def prun (D : Dev) (tab : Sym.Tab) (H : Heap) (size : Nat) : Nat → P → PRes
  | 0, p => .run p
  | n + 1, p =>
    match pstep D tab H size p with
    | .run q => prun D tab H size n q
    | r => r

/-- `lbm_print_value` (print.c:478-488): the buffer and the result; `none` is undefined behaviour
or too little fuel.  When even the first `push_n` fails the stack stays empty. -/
def printValue (D : Dev) (tab : Sym.Tab) (H : Heap) (size len fuel : Nat) (v : Val) :
    Option (List Byte × Bool) :=
  match prun D tab H size fuel ⟨(pushN size 2 [.print v] []).getD [], ⟨[], len, false⟩, false⟩ with
  | .ret c r => if c.ub then none else some (c.out ++ List.replicate (len - c.out.length) 0, r)
  | _ => none

/-! ## Reader -/

/-- Continuations of the reader. -/
inductive RF where
  /-- `READ_NEXT_TOKEN` -/
  | next
  /-- `READ_APPEND_CONTINUE` with first and last cell -/
  | append (first last : Val)
  /-- `READ_START_ARRAY` -/
  | startArray
  /-- `READ_APPEND_ARRAY` with array, size and index -/
  | appendArray (arr : Val) (size ix : Nat)
  /-- `READ_DOT_TERMINATE` above the operands of `READ_APPEND_CONTINUE` -/
  | dotTerm (first last : Val)
  /-- `READ_EXPECT_CLOSEPAR` -/
  | expectClose (res : Val)
  /-- `WRAP_RESULT` -/
  | wrap (w : Val)
  /-- `READ_DONE`, with `READING_PROGRAM` or `READING_EXPRESSION` -/
  | done (program : Bool)

/-- The state of a reading context: heap, first free cell, symbol table, channel, characters
in the channel at the start, continuations, `ctx->r`. -/
structure RS where
  h : Heap
  nxt : Nat
  tab : Sym.Tab
  s : Stream
  total : Nat
  K : List RF
  r : Val

/-- Outcome of a step.  `unmodelled`: the expansion of a quasiquotation, see `Verif.QQ`. -/
inductive RRes where
  | run (s : RS)
  | done (s : RS)
  | error
  | ub
  | unmodelled

/-- The heap with a new object in a RAM cell. -/
def upd (h : Heap) (ix : Nat) (o : Obj) : Heap :=
  fun k i => if k = false ∧ i = ix then o else h k i

/-- A new cell. -/
def RS.alloc (m : RS) (t : Tag) (o : Obj) : RS × Val :=
  ({ m with h := upd m.h m.nxt o, nxt := m.nxt + 1 }, .ptr t false m.nxt)

/-- `lbm_set_cdr` of a cons cell in RAM. -/
def setCdr (h : Heap) (c d : Val) : Heap :=
  match c with
  | .ptr .cons false ix =>
    match h false ix with
    | .pair a _ => upd h ix (.pair a d)
    | _ => h
  | _ => h

/-- The symbols of the tokenizer (lbm_defines.h:205-221). -/
def symOpenPar : Val := .sym 0x70
def symClosePar : Val := .sym 0x71
def symDot : Val := .sym 0x76
def symOpenBrack : Val := .sym 0x80
def symCloseBrack : Val := .sym 0x81

/-- `TOKENIZER_SYMBOLS_START <= sym <= TOKENIZER_SYMBOLS_END`. -/
def isTokSym : Val → Bool
  | .sym id => 0x70 ≤ id && id ≤ 0x85
  | _ => false

/-- The number type of an integer token (eval_cps.c:3933-3957). -/
def tokNTy : Nat → Option NTy
  | 100 => some .char
  | 101 => some .i
  | 102 => some .u
  | 103 => some .i32
  | 104 => some .u32
  | 105 => some .i64
  | 106 => some .u64
  | _ => none

/-- Is a number of this type held directly in the word? -/
def immediate (b : Verif.Val.Build) : NTy → Bool
  | .char | .i | .u => true
  | .i32 | .u32 | .float => b == .b64
  | .i64 | .u64 | .double => false

/-- The value of an integer token after the conversion to its type and the encoding
(eval_cps.c:3933-3957). -/
def intVal (b : Verif.Val.Build) (neg : Bool) (v : BitVec 64) : NTy → Int
  | .char => (Val.decChar b (Val.encChar b (Tok.readerInt neg v 8))).toNat
  | .i => (Val.decI b (Val.encI b (Tok.readerInt neg v b.w))).toInt
  | .u => (Val.decU b (Val.encU b (Tok.readerInt neg v b.w))).toNat
  | .i32 => (Tok.readerInt neg v 32).toInt
  | .u32 => (Tok.readerInt neg v 32).toNat
  | .i64 => (Tok.readerInt neg v 64).toInt
  | .u64 => (Tok.readerInt neg v 64).toNat
  | .float | .double => 0

/-- A number value, in a cell of its own if it does not fit into a word. -/
def RS.number (m : RS) (D : Dev) (t : NTy) (z : Int) : RS × Val :=
  if immediate D.b t then (m, .imm t z) else m.alloc (.num t) (.num z)

/-- `read_finish` (eval_cps.c:3685-3742) without incremental reading.  Row and column are 1
as long as nothing has been read. -/
def readFinish (m : RS) : RRes :=
  if isTokSym m.r then .error
  else
    match m.K with
    | .append _ _ :: .done true :: _ => .run { m with r := symClosePar }
    | _ => if m.s.avail.length = m.total then .run { m with r := .sym 0 } else .error

/-- A syntax token (eval_cps.c:3800-3889); `K` is the stack without `READ_NEXT_TOKEN`. -/
def syntaxToken (m : RS) (K : List RF) (t : Nat) : RRes :=
  match t with
  | 1 => .run { m with K := .next :: .append (.sym 0) (.sym 0) :: K, r := symOpenPar }
  | 2 => .run { m with K := K, r := symClosePar }
  | 3 => .run { m with K := .next :: .startArray :: K, r := symOpenBrack }
  | 4 => .run { m with K := K, r := symCloseBrack }
  | 5 => .run { m with K := K, r := symDot }
  | 6 => .run { m with K := K, r := .sym 9 }
  | 7 => .run { m with K := .next :: .wrap (.sym 0x100) :: K }
  | 8 => .unmodelled
  | 9 => .run { m with K := .next :: .wrap (.sym 0x74) :: K }
  | 10 => .run { m with K := .next :: .wrap (.sym 0x73) :: K }
  | 11 => .run { m with K := K, r := .sym 0x41 }
  | 12 => .run { m with K := .append (.sym 0) (.sym 0) :: K, r := .sym 0x102 }
  | 13 => .run { m with K := K, r := symClosePar }
  | 14 | 15 => .run { m with K := .next :: K }
  | _ => .error

/-- `cont_read_next_token` (eval_cps.c:3748-4070). -/
def nextStep (D : Dev) (m : RS) (K : List RF) : RRes :=
  match Tok.nextToken m.s with
  | (.finished, s) => readFinish { m with s := s, K := K }
  | (.again, s) => .run { m with s := s }
  | (.error, _) => .error
  | (.ub, _) => .ub
  | (.fuel, _) => .ub
  | (.token t, s) =>
    let m := { m with s := s }
    match t with
    | .syntax t => syntaxToken m K t
    | .string x =>
      let e := m.alloc .array (.bytes (x ++ [0]))
      .run { e.1 with K := K, r := e.2 }
    | .float ty x =>
      let e := m.number D (if ty = 107 then .float else .double) (D.strtod ty x)
      .run { e.1 with K := K, r := e.2 }
    | .int ty neg x =>
      match tokNTy ty with
      | some t => let e := m.number D t (intVal D.b neg x t); .run { e.1 with K := K, r := e.2 }
      | none => .error
    | .symbol x =>
      let e := Sym.readSymbol m.tab (x.map BitVec.toNat) false true true
      match e.2 with
      | some id => .run { m with tab := e.1, K := K, r := .sym id }
      | none => .error
    | .char x => .run { m with K := K, r := .imm .char x.toNat }

/-- `(uint8_t)lbm_dec_as_u32(v)` of a number (heap.c:283-305), `none` if it is no number. -/
def byteOf (D : Dev) (h : Heap) (v : Val) : Option Byte :=
  match v.tag with
  | .num t =>
    match Eq.numOf h v with
    | some z => some (match t with
      | .float | .double => D.toByte t z
      | _ => BitVec.ofInt 8 z)
    | none => none
  | _ => none

/-- One continuation of the reader. -/
def rstep (D : Dev) (m : RS) : RRes :=
  match m.K with
  | [] => .done m                            -- the value goes to the code below the reader, see `Incr.lean`
  | .next :: K => nextStep D m K
  | .append f l :: K =>                      -- cont_read_append_continue, eval_cps.c:4165-4220
    if m.r = symClosePar then
      match l.tag with
      | .cons => .run { m with h := setCdr m.h l (.sym 0), K := K, r := f }
      | _ => .run { m with K := K, r := .sym 0 }
    else if m.r = symDot then .run { m with K := .next :: .dotTerm f l :: K }
    else
      let e := m.alloc .cons (.pair m.r (.sym 0))
      match l.tag with
      | .cons => .run { e.1 with h := setCdr e.1.h l e.2, K := .next :: .append f e.2 :: K }
      | _ => .run { e.1 with K := .next :: .append e.2 e.2 :: K }
  | .startArray :: K =>                      -- cont_read_start_array, eval_cps.c:4072-4127
    if m.r = symCloseBrack then
      let e := m.alloc .array (.bytes [])
      .run { e.1 with K := K, r := e.2 }
    else
      match byteOf D m.h m.r with
      | some _ =>
        let e := m.alloc .array (.bytes [])
        .run { e.1 with K := .appendArray e.2 D.room 0 :: K }
      | none => .error
  | .appendArray a size ix :: K =>           -- cont_read_append_array, eval_cps.c:4129-4163
    if size ≤ ix + 1 then .error
    else
      match a, Eq.bytesOf m.h a with
      | .ptr .array false i, some l =>
        match byteOf D m.h m.r with
        | some x =>
          .run { m with h := upd m.h i (.bytes (l ++ [x])), K := .next :: .appendArray a size (ix + 1) :: K }
        | none => if m.r = symCloseBrack then .run { m with K := K, r := a } else .error
      | _, _ => .ub
  | .dotTerm f l :: K =>                     -- cont_read_dot_terminate, eval_cps.c:4285-4323
    if m.r = symClosePar ∨ m.r = symDot then .error
    else
      match l.tag with
      | .cons => .run { m with h := setCdr m.h l m.r, K := .next :: .expectClose f :: K, r := f }
      | _ => .error
  | .expectClose v :: K =>                   -- cont_read_expect_closepar, eval_cps.c:4261-4283
    if m.r = symClosePar then .run { m with K := K, r := v } else .error
  | .wrap w :: K =>                          -- cont_wrap_result, eval_cps.c:4362-4372
    let e1 := m.alloc .cons (.pair m.r (.sym 0))
    let e2 := e1.1.alloc .cons (.pair w e1.2)
    .run { e2.1 with K := K, r := e2.2 }
  | .done _ :: _ =>                          -- cont_read_done, eval_cps.c:4336-4360
    if isTokSym m.r then .error else .done m

/-- Running the reader. -/
def rrun (D : Dev) : Nat → RS → RRes
  | 0, m => .run m
  | n + 1, m =>
    match rstep D m with
    | .run m' => rrun D n m'
    | r => r

/-- The characters of a C string. -/
def cstr (l : List Byte) : List Byte := l.takeWhile (· ≠ 0)

/-- The start of `(read str)` or `(read-program str)` (eval_cps.c:2355-2428). -/
def readStart (h : Heap) (nxt : Nat) (tab : Sym.Tab) (program : Bool) (text : List Byte) : RS :=
  { h := h, nxt := nxt, tab := tab, s := ⟨cstr text, true, false⟩, total := (cstr text).length,
    K := if program then [.next, .append (.sym 0) (.sym 0), .done true] else [.next, .done false],
    r := .sym 0 }

end Verif.Print
