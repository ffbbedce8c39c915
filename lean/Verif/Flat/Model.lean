import Verif.Val.Model

/-!
# Flat values

Model of `src/lbm_flat_value.c` (and the array allocator it calls, `heap.c:1204-1256`).

A lisp value is seen here as the finite tree that `lbm_type_of`, `lbm_car`,
`lbm_cdr` and the array header accessors unfold it to.  (Cyclic values unfold
to an infinite tree; the code rejects them through the depth limit, which is
modelled, but the cyclic heap itself is not.)
-/

namespace Verif.Flat

open Verif.Val (Build Word)

abbrev Byte := BitVec 8

/-- The tree a value unfolds to.  Constant (flash) pointers are not
distinguished: the code clears the constant bit first (lbm_flat_value.c:263-266,
333-336).  Integers are the numbers `lbm_dec_i`/`lbm_dec_u` return; floats are
bit patterns; a symbol is its id. -/
inductive FV where
  | cons (a d : FV)
  | lispArray (es : List FV)
  | sym (id : Nat)
  | byte (c : Byte)
  | int (z : Int)
  | uint (n : Nat)
  | i32 (x : BitVec 32)
  | u32 (x : BitVec 32)
  | float (x : BitVec 32)
  | i64 (x : BitVec 64)
  | u64 (x : BitVec 64)
  | double (x : BitVec 64)
  | array (bs : List Byte)
  /-- an array whose memory was freed explicitly (`car` is nil) -/
  | freedArray
  /-- channels, custom values, defragmentable memory -/
  | other
  deriving Repr

/-- The symbol table as the flattener sees it: `lbm_get_name_by_symbol` and the
id that `lbm_add_symbol` delivers for a name (`none` when it fails). -/
structure Syms where
  nameOf : Nat → Option (List Byte)
  intern : List Byte → Option Nat

/-! ## Writing -/

/-- `lbm_flat_value_t` while writing (lbm_flat_value.h:25-29): `out` are the
bytes `buf[0..buf_pos)`. -/
structure Buf where
  size : Nat
  out : List Byte

/-- `write_byte` (lbm_flat_value.c:57-64). -/
def writeByte (v : Buf) (x : Byte) : Buf × Bool :=
  if v.size ≥ v.out.length + 1 then ({ v with out := v.out ++ [x] }, true) else (v, false)

/-- `write_bytes` (lbm_flat_value.c:66-74). -/
def writeBytes (v : Buf) (xs : List Byte) : Buf × Bool :=
  if v.size ≥ v.out.length + xs.length then ({ v with out := v.out ++ xs }, true) else (v, false)

/-- The four bytes `write_word` stores (lbm_flat_value.c:79-82). -/
def wordBytes (w : BitVec 32) : List Byte :=
  [(w >>> 24).setWidth 8, (w >>> 16).setWidth 8, (w >>> 8).setWidth 8, w.setWidth 8]

/-- The eight bytes `write_dword` stores (lbm_flat_value.c:91-98). -/
def dwordBytes (w : BitVec 64) : List Byte :=
  [(w >>> 56).setWidth 8, (w >>> 48).setWidth 8, (w >>> 40).setWidth 8, (w >>> 32).setWidth 8,
   (w >>> 24).setWidth 8, (w >>> 16).setWidth 8, (w >>> 8).setWidth 8, w.setWidth 8]

/-- `write_word` (lbm_flat_value.c:76-86). -/
def writeWord (v : Buf) (w : BitVec 32) : Buf × Bool :=
  if v.size ≥ v.out.length + 4 then ({ v with out := v.out ++ wordBytes w }, true) else (v, false)

/-- `write_dword` (lbm_flat_value.c:88-102). -/
def writeDword (v : Buf) (w : BitVec 64) : Buf × Bool :=
  if v.size ≥ v.out.length + 8 then ({ v with out := v.out ++ dwordBytes w }, true) else (v, false)

/-- `res = res && write(...)` (e.g. lbm_flat_value.c:116-118). -/
def andThen (r : Buf × Bool) (f : Buf → Buf × Bool) : Buf × Bool :=
  if r.2 then f r.1 else r

/-- `f_cons` (lbm_flat_value.c:104-111); `S_CONS`. -/
def fCons (v : Buf) : Buf × Bool := writeByte v 0x01
/-- `f_lisp_array` (lbm_flat_value.c:113-119). -/
def fLispArray (v : Buf) (n : BitVec 32) : Buf × Bool :=
  andThen (writeByte v 0x1F) fun v => writeWord v n
/-- `f_sym_string` (lbm_flat_value.c:132-142): the name and its terminating 0. -/
def fSymString (v : Buf) (s : Option (List Byte)) : Buf × Bool :=
  match s with
  | none => (v, false)
  | some s => andThen (writeByte v 0x03) fun v => writeBytes v (s ++ [0])
/-- `f_i` (lbm_flat_value.c:159-169). -/
def fI (b : Build) (v : Buf) (z : Int) : Buf × Bool :=
  match b with
  | .b32 => andThen (writeByte v 0x05) fun v => writeWord v (BitVec.ofInt 32 z)
  | .b64 => andThen (writeByte v 0x0E) fun v => writeDword v (BitVec.ofInt 64 z)
/-- `f_u` (lbm_flat_value.c:171-181). -/
def fU (b : Build) (v : Buf) (n : Nat) : Buf × Bool :=
  match b with
  | .b32 => andThen (writeByte v 0x06) fun v => writeWord v (BitVec.ofNat 32 n)
  | .b64 => andThen (writeByte v 0x0F) fun v => writeDword v (BitVec.ofNat 64 n)
/-- `f_b` (lbm_flat_value.c:183-188). -/
def fB (v : Buf) (x : Byte) : Buf × Bool := andThen (writeByte v 0x04) fun v => writeByte v x
/-- `f_i32` (lbm_flat_value.c:190-195). -/
def fI32 (v : Buf) (w : BitVec 32) : Buf × Bool := andThen (writeByte v 0x07) fun v => writeWord v w
/-- `f_u32` (lbm_flat_value.c:197-202). -/
def fU32 (v : Buf) (w : BitVec 32) : Buf × Bool := andThen (writeByte v 0x08) fun v => writeWord v w
/-- `f_float` (lbm_flat_value.c:204-211). -/
def fFloat (v : Buf) (w : BitVec 32) : Buf × Bool := andThen (writeByte v 0x09) fun v => writeWord v w
/-- `f_double` (lbm_flat_value.c:213-220). -/
def fDouble (v : Buf) (w : BitVec 64) : Buf × Bool := andThen (writeByte v 0x0C) fun v => writeDword v w
/-- `f_i64` (lbm_flat_value.c:222-227). -/
def fI64 (v : Buf) (w : BitVec 64) : Buf × Bool := andThen (writeByte v 0x0A) fun v => writeDword v w
/-- `f_u64` (lbm_flat_value.c:229-234). -/
def fU64 (v : Buf) (w : BitVec 64) : Buf × Bool := andThen (writeByte v 0x0B) fun v => writeDword v w
/-- `f_lbm_array` (lbm_flat_value.c:237-242). -/
def fLbmArray (v : Buf) (bs : List Byte) : Buf × Bool :=
  andThen (andThen (writeByte v 0x0D) fun v => writeWord v (BitVec.ofNat 32 bs.length))
    fun v => writeBytes v bs

/-- `flatten_value_size_internal` (lbm_flat_value.c:254-321).  `.error e` is
`longjmp` with value `e`.  `int` arithmetic is modelled without overflow (a flat
value of 2^31 bytes does not fit in lispBM memory on a 32-bit build). -/
def sizeInternal (b : Build) (syms : Syms) (maxDepth : Nat) (depth : Nat) :
    FV → Except Int Int
  | .cons a d =>
    if depth > maxDepth then .error (-5) else do
      let s1 ← sizeInternal b syms maxDepth (depth + 1) a
      if s1 > 0 then
        let s2 ← sizeInternal b syms maxDepth (depth + 1) d
        if s2 > 0 then pure (1 + s1 + s2) else pure 0
      else pure 0
  | .lispArray es =>
    if depth > maxDepth then .error (-5) else sizeElems es (4 + 1)
  | .byte _ => if depth > maxDepth then .error (-5) else pure (1 + 1)
  | .int _ | .uint _ =>
    if depth > maxDepth then .error (-5) else
    match b with
    | .b32 => pure (1 + 4)
    | .b64 => pure (1 + 8)
  | .i32 _ | .u32 _ | .float _ => if depth > maxDepth then .error (-5) else pure (1 + 4)
  | .i64 _ | .u64 _ | .double _ => if depth > maxDepth then .error (-5) else pure (1 + 8)
  | .sym id =>
    if depth > maxDepth then .error (-5) else
    -- f_sym_string_bytes, lbm_flat_value.c:146-157
    match syms.nameOf id with
    | some s => pure (1 + ((s.length + 1 : Nat) : Int))
    | none => .error (-7)
  | .array bs =>
    if depth > maxDepth then .error (-5) else
    if bs.length > 0 then pure (1 + 4 + (bs.length : Int)) else .error 0
  | .freedArray => if depth > maxDepth then .error (-5) else .error (-1)
  | .other => if depth > maxDepth then .error (-5) else pure (-1)
where
  /-- the loop over the elements, lbm_flat_value.c:286-288 -/
  sizeElems : List FV → Int → Except Int Int
  | [], sum => pure sum
  | e :: es, sum => do
    let s ← sizeInternal b syms maxDepth (depth + 1) e
    sizeElems es (sum + s)

/-- `flatten_value_size` (lbm_flat_value.c:323-330): `setjmp` turns the value 0
into 1. -/
def flattenValueSize (b : Build) (syms : Syms) (maxDepth : Nat) (v : FV) : Int :=
  match sizeInternal b syms maxDepth 0 v with
  | .ok n => n
  | .error e => if e = 0 then 1 else e

/-- `FLATTEN_VALUE_OK` or `..._BUFFER_TOO_SMALL` (lbm_flat_value.c:364 and 427). -/
def code (r : Buf × Bool) : Buf × Int := (r.1, if r.2 then 0 else -2)

/-- `flatten_value_c` (lbm_flat_value.c:332-428). -/
def flattenC (b : Build) (syms : Syms) (fv : Buf) : FV → Buf × Int
  | .cons a d =>
    let r := fCons fv
    if r.2 then
      let r1 := flattenC b syms r.1 a
      if r1.2 = 0 then flattenC b syms r1.1 d else r1
    else (r.1, -2)
  | .lispArray es =>
    let r := fLispArray fv (BitVec.ofNat 32 es.length)
    if r.2 then flattenElems r.1 es else (r.1, -6)
  | .byte c => code (fB fv c)
  | .uint n => code (fU b fv n)
  | .int z => code (fI b fv z)
  | .u32 x => code (fU32 fv x)
  | .i32 x => code (fI32 fv x)
  | .u64 x => code (fU64 fv x)
  | .i64 x => code (fI64 fv x)
  | .float x => code (fFloat fv x)
  | .double x => code (fDouble fv x)
  | .sym id => code (fSymString fv (syms.nameOf id))
  | .array bs => if bs.length > 0 then code (fLbmArray fv bs) else (fv, -3)
  | .freedArray => (fv, -3)
  | .other => (fv, -1)
where
  /-- the loop over the elements, lbm_flat_value.c:358-363 -/
  flattenElems (fv : Buf) : List FV → Buf × Int
  | [] => (fv, 0)
  | e :: es =>
    let r := flattenC b syms fv e
    if r.2 = 0 then flattenElems r.1 es else r

/-- `handle_flatten_error` (lbm_flat_value.c:430-445): the symbol id returned. -/
def handleFlattenError (e : Int) : Nat :=
  if e = -1 then 0x22        -- eval_error
  else if e = -2 then 0x26   -- fatal_error
  else if e = -7 then 0x26
  else if e = -4 then 0x22
  else if e = -5 then 0x22
  else if e = -3 then 0x23   -- out_of_memory
  else if e = -6 then 0x23
  else 0                     -- nil

/-- `flatten_value` (lbm_flat_value.c:447-492) when its allocations succeed:
the bytes of the resulting array, or the symbol returned. -/
def flattenValue (b : Build) (syms : Syms) (maxDepth : Nat) (v : FV) : Except Nat (List Byte) :=
  let n := flattenValueSize b syms maxDepth v
  if n > 0 then
    let r := flattenC b syms { size := n.toNat, out := [] } v
    if r.2 = 0 then .ok r.1.out else .error (handleFlattenError n)
  else .error (handleFlattenError n)

/-! ## Reading -/

/-- Why the C code has no defined behaviour. -/
inductive UB where
  /-- a read past the end of the flat buffer -/
  | readPastEnd
  /-- a write past the end of the allocated lisp array -/
  | writePastEnd
  /-- the header of an array that could not be allocated is dereferenced -/
  | derefError
  deriving DecidableEq, Repr

/-- Outcome of `lbm_unflatten_value_internal`.  `rest` are the bytes
`buf[buf_pos..buf_size)`; `budget` is how many more allocations will succeed. -/
inductive Res where
  | ok (v : FV) (rest : List Byte) (budget : Nat)
  | malformed
  | gcRetry
  | ub (u : UB)
  /-- the recursion bound of the model was reached (never, see `unflat_fuel`) -/
  | fuel
  deriving Repr

/-- `extract_byte` (lbm_flat_value.c:496-502). -/
def extractByte : List Byte → Option (Byte × List Byte)
  | x :: r => some (x, r)
  | _ => none

/-- One round of `tmp = tmp << 8 | byte`. -/
def shiftIn {w : Nat} (tmp : BitVec w) (x : Byte) : BitVec w := tmp <<< 8 ||| x.setWidth w

/-- `extract_word` (lbm_flat_value.c:504-517). -/
def extractWord : List Byte → Option (BitVec 32 × List Byte)
  | a :: b :: c :: d :: r =>
    some (shiftIn (shiftIn (shiftIn ((0 : BitVec 32) ||| a.setWidth 32) b) c) d, r)
  | _ => none

/-- `extract_dword` (lbm_flat_value.c:519-536). -/
def extractDword : List Byte → Option (BitVec 64 × List Byte)
  | a :: b :: c :: d :: e :: f :: g :: h :: r =>
    some (shiftIn (shiftIn (shiftIn (shiftIn (shiftIn (shiftIn (shiftIn
      ((0 : BitVec 64) ||| a.setWidth 64) b) c) d) e) f) g) h, r)
  | _ => none

/-- Take one allocation from the budget. -/
def alloc (budget : Nat) (k : Nat → Res) : Res :=
  match budget with
  | 0 => .gcRetry
  | n + 1 => k n

/-- An allocation that only the 32-bit build needs (`lbm_enc_i32`, `lbm_enc_u32`,
`lbm_enc_float`, heap.c:94-128). -/
def alloc32 (b : Build) (budget : Nat) (k : Nat → Res) : Res :=
  match b with
  | .b32 => alloc budget k
  | .b64 => k budget

/-- The number of elements that `lbm_heap_allocate_lisp_array(size)` makes room
for: the byte size `sizeof(lbm_value) * size` is computed in `lbm_uint`
(heap.c:1211). -/
def allocatedElems (b : Build) (n : BitVec 32) : Nat :=
  match b with
  | .b32 => (4 * n.toNat) % 2 ^ 32 / 4
  | .b64 => (8 * n.toNat) % 2 ^ 64 / 8

/-- The loop that unflattens the elements of a lisp array
(lbm_flat_value.c:573-580): `todo` elements to go, `i` done, `cap` allocated. -/
def unflatElems (rec : Nat → List Byte → Res) (cap : Nat) :
    (todo i : Nat) → List FV → Nat → List Byte → Res
  | 0, _, acc, budget, rest => .ok (.lispArray acc.reverse) rest budget
  | todo + 1, i, acc, budget, rest =>
    match rec budget rest with
    | .ok v rest' budget' =>
      if i < cap then unflatElems rec cap todo (i + 1) (v :: acc) budget' rest'
      else .ub .writePastEnd
    | r => r

/-- Split off a C string at the read position: its characters and the bytes
after the terminating 0; `none` when there is no 0 before the end of the buffer
(`strlen`, `lbm_add_symbol` run past it). -/
def cString : List Byte → Option (List Byte × List Byte)
  | [] => none
  | x :: r => if x = 0 then some ([], r) else
    match cString r with
    | some (s, r') => some (x :: s, r')
    | none => none

/-- `lbm_unflatten_value_internal` (lbm_flat_value.c:539-759).  The first
argument bounds the recursion depth. -/
def unflat (b : Build) (syms : Syms) : Nat → Nat → List Byte → Res
  | 0, _, _ => .fuel
  | _ + 1, _, [] => .malformed
  | fuel + 1, budget, curr :: r =>
    if curr = 0x01 then
      match unflat b syms fuel budget r with
      | .ok x r1 budget =>
        match unflat b syms fuel budget r1 with
        | .ok y r2 budget => alloc budget fun budget => .ok (.cons x y) r2 budget
        | o => o
      | o => o
    else if curr = 0x1F then
      match extractWord r with
      | none => .malformed
      | some (n, r) =>
        match budget with
        | 0 => .ub .derefError
        | budget + 1 =>
          if n.toNat = 0 then .malformed
          else unflatElems (unflat b syms fuel) (allocatedElems b n) n.toNat 0 [] budget r
    else if curr = 0x02 then
      match b with
      | .b32 => match extractWord r with
        | some (w, r) => .ok (.sym (Val.decSym .b32 (Val.encSym .b32 w)).toNat) r budget
        | none => .malformed
      | .b64 => match extractDword r with
        | some (w, r) => .ok (.sym (Val.decSym .b64 (Val.encSym .b64 w)).toNat) r budget
        | none => .malformed
    else if curr = 0x04 then
      match extractByte r with
      | some (x, r) => .ok (.byte x) r budget
      | none => .malformed
    else if curr = 0x05 then
      match extractWord r with
      | some (w, r) =>
        .ok (.int (Val.decI b (Val.encI b (w.signExtend b.w))).toInt) r budget
      | none => .malformed
    else if curr = 0x06 then
      match extractWord r with
      | some (w, r) =>
        .ok (.uint (Val.decU b (Val.encU b (w.setWidth b.w))).toNat) r budget
      | none => .malformed
    else if curr = 0x0E then
      match extractDword r with
      | some (w, r) =>
        match b with
        -- lbm_enc_i64 failing is not noticed: the value is the error symbol
        | .b32 => match budget with
          | 0 => .ok (.sym 0x23) r 0
          | n + 1 => .ok (.i64 w) r n
        | .b64 => .ok (.int (Val.decI .b64 (Val.encI .b64 w)).toInt) r budget
      | none => .malformed
    else if curr = 0x0F then
      match extractDword r with
      | some (w, r) =>
        match b with
        | .b32 => match budget with
          | 0 => .ok (.sym 0x23) r 0
          | n + 1 => .ok (.u64 w) r n
        | .b64 => .ok (.uint (Val.decU .b64 (Val.encU .b64 w)).toNat) r budget
      | none => .malformed
    else if curr = 0x09 then
      match extractWord r with
      | some (w, r) => alloc32 b budget fun budget => .ok (.float w) r budget
      | none => .malformed
    else if curr = 0x0C then
      match extractDword r with
      | some (w, r) => alloc budget fun budget => .ok (.double w) r budget
      | none => .malformed
    else if curr = 0x07 then
      match extractWord r with
      | some (w, r) => alloc32 b budget fun budget => .ok (.i32 w) r budget
      | none => .malformed
    else if curr = 0x08 then
      match extractWord r with
      | some (w, r) => alloc32 b budget fun budget => .ok (.u32 w) r budget
      | none => .malformed
    else if curr = 0x0A then
      match extractDword r with
      | some (w, r) => alloc budget fun budget => .ok (.i64 w) r budget
      | none => .malformed
    else if curr = 0x0B then
      match extractDword r with
      | some (w, r) => alloc budget fun budget => .ok (.u64 w) r budget
      | none => .malformed
    else if curr = 0x0D then
      match extractWord r with
      | some (n, r) =>
        alloc budget fun budget =>
          if n.toNat ≤ r.length then .ok (.array (r.take n.toNat)) (r.drop n.toNat) budget
          else .ub .readPastEnd
      | none => .malformed
    else if curr = 0x03 then
      match cString r with
      | none => .ub .readPastEnd
      | some (s, r) =>
        match syms.intern s with
        | some id => .ok (.sym id) r budget
        | none => .gcRetry
    else .malformed

/-- `lbm_unflatten_value` (lbm_flat_value.c:761-786): on an allocation failure
collect garbage and start over, once.  `b1`, `b2` are the allocations that
succeed before and after the collection. -/
def unflattenValue (b : Build) (syms : Syms) (b1 b2 : Nat) (buf : List Byte) : Res :=
  match unflat b syms (buf.length + 1) b1 buf with
  | .gcRetry => unflat b syms (buf.length + 1) b2 buf
  | r => r

end Verif.Flat
