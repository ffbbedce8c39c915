import Verif.Val.Spec

/-!
# Numbers: promotion, arithmetic, comparison, conversion, bit operations

Model of the numeric part of src/fundamental.c and of the `lbm_dec_as_*`
conversions of src/heap.c, for both builds.

* A number is given by its type and its payload; how a payload is packed in a
  word or a cell is the subject of `Verif.Val`.
* IEEE arithmetic is not modelled: the floating point operations are a
  parameter `FOps`, about which nothing is assumed.
* C's undefined behaviour on signed overflow is the result `none`.  The
  parameter `wrapv` says whether the compiler was told to wrap (`-fwrapv`); the
  Makefiles of the repository do not.
-/

namespace Verif.Arith

open Verif.Val (Build payload)

/-- The number types (lbm_defines.h:46-51,77-81,103-105,131-138). -/
inductive Ty where
  | char | i | u | i32 | u32 | i64 | u64 | float | double
  deriving DecidableEq, Repr

/-- The type constants `LBM_TYPE_*`, which the promotion macros compare. -/
def Ty.tag (b : Build) : Ty → Nat
  | .char => (Val.tChar b).toNat
  | .i => (Val.tI b).toNat
  | .u => (Val.tU b).toNat
  | .i32 => (Val.tI32 b).toNat
  | .u32 => (Val.tU32 b).toNat
  | .i64 => (Val.tI64 b).toNat
  | .u64 => (Val.tU64 b).toNat
  | .float => (Val.tFloat b).toNat
  | .double => (Val.tDouble b).toNat

/-- A number: type and payload (`lbm_dec_i`, `lbm_dec_u`, `lbm_dec_char`, `lbm_dec_u32`,
`lbm_dec_i32`, heap.h:746-798; `lbm_dec_float`, `lbm_dec_double`, `lbm_dec_u64`,
`lbm_dec_i64`, heap.c:181-230).  The `i` and `u` payloads have 28 or 56 bits. -/
inductive Num (b : Build) where
  | char (x : BitVec 8)
  | i (x : BitVec (payload b))
  | u (x : BitVec (payload b))
  | i32 (x : BitVec 32)
  | u32 (x : BitVec 32)
  | i64 (x : BitVec 64)
  | u64 (x : BitVec 64)
  | float (x : BitVec 32)
  | double (x : BitVec 64)
  deriving DecidableEq, Repr

def Num.ty {b : Build} : Num b → Ty
  | .char _ => .char
  | .i _ => .i
  | .u _ => .u
  | .i32 _ => .i32
  | .u32 _ => .u32
  | .i64 _ => .i64
  | .u64 _ => .u64
  | .float _ => .float
  | .double _ => .double

/-- A value as the numeric operations see it: a number, a symbol, or anything
else (`other`; its type constant is irrelevant, no operation reads it). -/
inductive V (b : Build) where
  | num (n : Num b)
  | sym (id : Nat)
  | other
  deriving DecidableEq, Repr

/-- `lbm_is_number` (heap.h:842-847). -/
def V.isNumber {b : Build} : V b → Bool
  | .num _ => true
  | _ => false

/-- Symbol numbers (lbm_defines.h:147-163). -/
def symNIL : Nat := 0x0
def symTRUE : Nat := 0x2
def symTERROR : Nat := 0x21
def symEERROR : Nat := 0x22
def symMERROR : Nat := 0x23
def symDIVZERO : Nat := 0x25

/-- The floating point unit and the C library: arithmetic, comparison and
conversion on bit patterns.  Nothing is assumed of them.  Simplification:
conversion of a float to an integer type goes through one integer (`tr32`,
`tr64`), and an out-of-range conversion, undefined in C, reduces it modulo the width. -/
structure FOps where
  add32 : BitVec 32 → BitVec 32 → BitVec 32
  sub32 : BitVec 32 → BitVec 32 → BitVec 32
  mul32 : BitVec 32 → BitVec 32 → BitVec 32
  div32 : BitVec 32 → BitVec 32 → BitVec 32
  mod32 : BitVec 32 → BitVec 32 → BitVec 32
  lt32 : BitVec 32 → BitVec 32 → Bool
  zero32 : BitVec 32 → Bool
  tr32 : BitVec 32 → Int
  of32 : Int → BitVec 32
  narrow : BitVec 64 → BitVec 32
  add64 : BitVec 64 → BitVec 64 → BitVec 64
  sub64 : BitVec 64 → BitVec 64 → BitVec 64
  mul64 : BitVec 64 → BitVec 64 → BitVec 64
  div64 : BitVec 64 → BitVec 64 → BitVec 64
  mod64 : BitVec 64 → BitVec 64 → BitVec 64
  lt64 : BitVec 64 → BitVec 64 → Bool
  zero64 : BitVec 64 → Bool
  tr64 : BitVec 64 → Int
  of64 : Int → BitVec 64
  widen : BitVec 32 → BitVec 64

section
variable {b : Build} (F : FOps)

/-- `lbm_dec_i`: the payload as an `lbm_int` (heap.h:750-752). -/
def decI (x : BitVec (payload b)) : BitVec b.w := x.signExtend b.w
/-- `lbm_dec_u`: the payload as an `lbm_uint` (heap.h:754-756). -/
def decU (x : BitVec (payload b)) : BitVec b.w := x.setWidth b.w

/-- `lbm_dec_as_char` (heap.c:259-282). -/
def decAsChar : V b → BitVec 8
  | .num (.char x) => x
  | .num (.i x) => (decI x).setWidth 8
  | .num (.u x) => (decU x).setWidth 8
  | .num (.i32 x) => x.setWidth 8
  | .num (.u32 x) => x.setWidth 8
  | .num (.float x) => BitVec.ofInt 8 (F.tr32 x)
  | .num (.i64 x) => x.setWidth 8
  | .num (.u64 x) => x.setWidth 8
  | .num (.double x) => BitVec.ofInt 8 (F.tr64 x)
  | _ => 0

/-- `lbm_dec_as_u32` (heap.c:284-306). -/
def decAsU32 : V b → BitVec 32
  | .num (.char x) => x.setWidth 32
  | .num (.i x) => (decI x).setWidth 32
  | .num (.u x) => (decU x).setWidth 32
  | .num (.i32 x) => x
  | .num (.u32 x) => x
  | .num (.float x) => BitVec.ofInt 32 (F.tr32 x)
  | .num (.i64 x) => x.setWidth 32
  | .num (.u64 x) => x.setWidth 32
  | .num (.double x) => BitVec.ofInt 32 (F.tr64 x)
  | _ => 0

/-- `lbm_dec_as_i32` (heap.c:308-331). -/
def decAsI32 : V b → BitVec 32
  | .num (.char x) => x.setWidth 32
  | .num (.i x) => (decI x).setWidth 32
  | .num (.u x) => (decU x).setWidth 32
  | .num (.i32 x) => x
  | .num (.u32 x) => x
  | .num (.float x) => BitVec.ofInt 32 (F.tr32 x)
  | .num (.i64 x) => x.setWidth 32
  | .num (.u64 x) => x.setWidth 32
  | .num (.double x) => BitVec.ofInt 32 (F.tr64 x)
  | _ => 0

/-- `lbm_dec_as_i64` (heap.c:333-356). -/
def decAsI64 : V b → BitVec 64
  | .num (.char x) => x.setWidth 64
  | .num (.i x) => (decI x).signExtend 64
  | .num (.u x) => (decU x).setWidth 64
  | .num (.i32 x) => x.signExtend 64
  | .num (.u32 x) => x.setWidth 64
  | .num (.float x) => BitVec.ofInt 64 (F.tr32 x)
  | .num (.i64 x) => x
  | .num (.u64 x) => x
  | .num (.double x) => BitVec.ofInt 64 (F.tr64 x)
  | _ => 0

/-- `lbm_dec_as_u64` (heap.c:358-381). -/
def decAsU64 : V b → BitVec 64
  | .num (.char x) => x.setWidth 64
  | .num (.i x) => (decI x).signExtend 64
  | .num (.u x) => (decU x).setWidth 64
  | .num (.i32 x) => x.signExtend 64
  | .num (.u32 x) => x.setWidth 64
  | .num (.float x) => BitVec.ofInt 64 (F.tr32 x)
  | .num (.i64 x) => x
  | .num (.u64 x) => x
  | .num (.double x) => BitVec.ofInt 64 (F.tr64 x)
  | _ => 0

/-- `lbm_dec_as_float` (heap.c:433-456). -/
def decAsFloat : V b → BitVec 32
  | .num (.char x) => F.of32 x.toNat
  | .num (.i x) => F.of32 (decI x).toInt
  | .num (.u x) => F.of32 (decU x).toNat
  | .num (.i32 x) => F.of32 x.toInt
  | .num (.u32 x) => F.of32 x.toNat
  | .num (.float x) => x
  | .num (.i64 x) => F.of32 x.toInt
  | .num (.u64 x) => F.of32 x.toNat
  | .num (.double x) => F.narrow x
  | _ => F.of32 0

/-- `lbm_dec_as_double` (heap.c:458-481). -/
def decAsDouble : V b → BitVec 64
  | .num (.char x) => F.of64 x.toNat
  | .num (.i x) => F.of64 (decI x).toInt
  | .num (.u x) => F.of64 (decU x).toNat
  | .num (.i32 x) => F.of64 x.toInt
  | .num (.u32 x) => F.of64 x.toNat
  | .num (.float x) => F.widen x
  | .num (.i64 x) => F.of64 x.toInt
  | .num (.u64 x) => F.of64 x.toNat
  | .num (.double x) => x
  | _ => F.of64 0

/-- `lbm_dec_char` applied to any unboxed value: the low eight payload bits
(heap.h:758-760).  On 32-bit integers of the 64-bit build likewise. Boxed values do not get here. -/
def decCharRaw : V b → BitVec 8
  | .num (.char x) => x
  | .num (.i x) => x.setWidth 8
  | .num (.u x) => x.setWidth 8
  | .num (.i32 x) => x.setWidth 8
  | .num (.u32 x) => x.setWidth 8
  | .num (.float x) => x.setWidth 8
  | .num (.i64 _) => 0
  | .num (.u64 _) => 0
  | .num (.double _) => 0
  | .sym id => BitVec.ofNat 8 id
  | .other => 0

/-- `lbm_dec_i` applied to a value of a type not above `i`; used as the test for a
zero divisor (fundamental.c:134,139,161,165). -/
def decIRaw : V b → BitVec b.w
  | .num (.char x) => x.setWidth b.w
  | .num (.i x) => decI x
  | .num (.u x) => x.signExtend b.w
  | .num (.i32 x) => x.signExtend b.w
  | .num (.u32 x) => x.setWidth b.w
  | .num (.float x) => x.setWidth b.w
  | .num (.i64 _) => 0
  | .num (.u64 _) => 0
  | .num (.double _) => 0
  | .sym id => BitVec.ofNat b.w id
  | .other => 0

/-- `lbm_dec_as_i32` or `lbm_dec_as_i64`, the one of the width of a word
(fundamental.c:108-114 and the similar `#ifdef`s). -/
def decAsIW : V b → BitVec b.w :=
  match b with
  | .b32 => decAsI32 F
  | .b64 => decAsI64 F

/-- `lbm_dec_as_u32` or `lbm_dec_as_u64` of the width of a word. -/
def decAsUW : V b → BitVec b.w :=
  match b with
  | .b32 => decAsU32 F
  | .b64 => decAsU64 F

/-- `lbm_enc_i` (heap.h:702-704): keeps the low payload bits. -/
def encI (x : BitVec b.w) : Num b := .i (x.setWidth (payload b))
/-- `lbm_enc_u` (heap.h:706-708). -/
def encU (x : BitVec b.w) : Num b := .u (x.setWidth (payload b))

/-- Signed addition of C: overflow is undefined unless the compiler wraps. -/
def sadd (wrapv : Bool) {w : Nat} (x y : BitVec w) : Option (BitVec w) :=
  if wrapv = false ∧ x.saddOverflow y = true then none else some (x + y)
/-- Signed subtraction of C. -/
def ssub (wrapv : Bool) {w : Nat} (x y : BitVec w) : Option (BitVec w) :=
  if wrapv = false ∧ x.ssubOverflow y = true then none else some (x - y)
/-- Signed multiplication of C. -/
def smul (wrapv : Bool) {w : Nat} (x y : BitVec w) : Option (BitVec w) :=
  if wrapv = false ∧ x.smulOverflow y = true then none else some (x * y)
/-- Signed division of C: the quotient overflows for the least number and -1. The
processor traps, whatever the compiler flags. -/
def sdiv' {w : Nat} (x y : BitVec w) : Option (BitVec w) :=
  if x = BitVec.intMin w ∧ y = -1#w then none else some (x.sdiv y)
/-- Signed remainder of C, undefined when the quotient overflows. -/
def srem' {w : Nat} (x y : BitVec w) : Option (BitVec w) :=
  if x = BitVec.intMin w ∧ y = -1#w then none else some (x.srem y)

/-- `lbm_type_of_functional` of a value, as compared by the macros.  Symbols
have type constant 0 (lbm_defines.h:77,131); for other values the constant
does not matter as the operations have excluded them. -/
def V.tag : V b → Nat
  | .num n => n.ty.tag b
  | .sym _ => (Val.tSymbol b).toNat
  | .other => (Val.tCons b).toNat

/-- `PROMOTE_SWAP` (fundamental.c:46-69): the operand of the larger type first. -/
def promoteSwap (a c : V b) : V b × V b :=
  match b with
  | .b32 => if a.tag < c.tag then (c, a) else (a, c)
  | .b64 =>
    let p := if c.tag = Ty.float.tag .b64 ∧ a.tag < Ty.double.tag .b64 then (c, a) else (a, c)
    if p.1.tag = Ty.float.tag .b64 ∧ p.2.tag < Ty.double.tag .b64 then p
    else if p.1.tag < p.2.tag then (p.2, p.1) else p

/-- `PROMOTE` (fundamental.c:71-92): the type at which to compute. -/
def promote (ta tc : Ty) : Ty :=
  match b with
  | .b32 => if ta.tag .b32 < tc.tag .b32 then tc else ta
  | .b64 =>
    if tc.tag .b64 = Ty.float.tag .b64 then
      if ta.tag .b64 < Ty.double.tag .b64 then .float else ta
    else if ta.tag .b64 < tc.tag .b64 then tc else ta

/-- Types whose values live in a heap cell, so that encoding can run out of
heap: the 32-bit types only on the 32-bit build (heap.c:92-180). -/
def boxed : Build → Ty → Bool
  | .b32, .i32 | .b32, .u32 | .b32, .float => true
  | _, .i64 | _, .u64 | _, .double => true
  | _, _ => false

/-- Encode: a boxed number needs a cell, `ok` says whether there is one; otherwise
the encoder returns `ENC_SYM_MERROR` (heap.c:92-180). -/
def enc (ok : Bool) (n : Num b) : V b :=
  if boxed b n.ty = true ∧ ok = false then .sym symMERROR else .num n

variable (wrapv : Bool)

/-- The switch in `fundamental_add` after `PROMOTE_SWAP` (fundamental.c:366-393).
`a` is the operand of the promoted type. -/
def addSwitch (ok : Bool) (a c : V b) : Option (V b) :=
  match a with
  | .num (.char x) => some (enc ok (.char (x + decCharRaw c)))
  | .num (.i x) => (sadd wrapv (decI x) (decAsIW F c)).map fun r => enc ok (encI r)
  | .num (.u x) => some (enc ok (encU (decU x + decAsUW F c)))
  | .num (.u32 x) => some (enc ok (.u32 (x + decAsU32 F c)))
  | .num (.i32 x) => (sadd wrapv x (decAsI32 F c)).map fun r => enc ok (.i32 r)
  | .num (.float x) => some (enc ok (.float (F.add32 x (decAsFloat F c))))
  | .num (.u64 x) => some (enc ok (.u64 (x + decAsU64 F c)))
  | .num (.i64 x) => (sadd wrapv x (decAsI64 F c)).map fun r => enc ok (.i64 r)
  | .num (.double x) => some (enc ok (.double (F.add64 x (decAsDouble F c))))
  | v => some v

/-- Types for which `fundamental_add` tests the sum for `MERROR`
(fundamental.c:380-392). -/
def addChecked : Ty → Bool
  | .u64 | .i64 | .double => true
  | _ => false

/-- The loop of `fundamental_add` (fundamental.c:361-398).  `ok k` says whether
an allocation at the `k`-th remaining round succeeds. -/
def addLoop (ok : Nat → Bool) (sum : V b) : List (V b) → Option (V b)
  | [] => some sum
  | v :: vs =>
    if v.isNumber then
      let p := promoteSwap sum v
      match addSwitch F wrapv (ok vs.length) p.1 p.2 with
      | none => none
      | some s =>
        match p.1 with
        | .num n =>
          if addChecked n.ty = true ∧ s = .sym symMERROR then some s else addLoop ok s vs
        | _ => addLoop ok s vs
    else some (.sym symTERROR)

/-- `fundamental_add` (fundamental.c:358-400). -/
def fAdd (ok : Nat → Bool) (args : List (V b)) : Option (V b) :=
  addLoop F wrapv ok (.num (.char 0)) args

/-- `mul2` (fundamental.c:101-126). -/
def mul2 (ok : Bool) (a c : V b) : Option (V b) :=
  if a.isNumber && c.isNumber then
    let p := promoteSwap a c
    match p.1 with
    | .num (.char x) => some (enc ok (.char (x * decCharRaw p.2)))
    | .num (.i x) => (smul wrapv (decI x) (decAsIW F p.2)).map fun r => enc ok (encI r)
    | .num (.u x) => some (enc ok (encU (decU x * decAsUW F p.2)))
    | .num (.u32 x) => some (enc ok (.u32 (x * decAsU32 F p.2)))
    | .num (.i32 x) => (smul wrapv x (decAsI32 F p.2)).map fun r => enc ok (.i32 r)
    | .num (.float x) => some (enc ok (.float (F.mul32 x (decAsFloat F p.2))))
    | .num (.u64 x) => some (enc ok (.u64 (x * decAsU64 F p.2)))
    | .num (.i64 x) => (smul wrapv x (decAsI64 F p.2)).map fun r => enc ok (.i64 r)
    | .num (.double x) => some (enc ok (.double (F.mul64 x (decAsDouble F p.2))))
    | _ => some (.sym symTERROR)
  else some (.sym symTERROR)

/-- The type at which `PROMOTE` makes `a` and `c` compute. -/
def promoteV (a c : V b) : Option Ty :=
  match a, c with
  | .num x, .num y => some (promote (b := b) x.ty y.ty)
  | _, _ => none

/-- `sub2` (fundamental.c:182-207). -/
def sub2 (ok : Bool) (a c : V b) : Option (V b) :=
  match promoteV a c with
  | none => some (.sym symTERROR)
  | some .char => some (enc ok (.char (decCharRaw a - decCharRaw c)))
  | some .i => (ssub wrapv (decAsIW F a) (decAsIW F c)).map fun r => enc ok (encI r)
  | some .u => some (enc ok (encU (decAsUW F a - decAsUW F c)))
  | some .u32 => some (enc ok (.u32 (decAsU32 F a - decAsU32 F c)))
  | some .i32 => (ssub wrapv (decAsI32 F a) (decAsI32 F c)).map fun r => enc ok (.i32 r)
  | some .float => some (enc ok (.float (F.sub32 (decAsFloat F a) (decAsFloat F c))))
  | some .u64 => some (enc ok (.u64 (decAsU64 F a - decAsU64 F c)))
  | some .i64 => (ssub wrapv (decAsI64 F a) (decAsI64 F c)).map fun r => enc ok (.i64 r)
  | some .double => some (enc ok (.double (F.sub64 (decAsDouble F a) (decAsDouble F c))))

/-- `div2` (fundamental.c:128-153).  Note the dividends of the 64-bit cases
(fundamental.c:145-146): they are decoded as 32-bit numbers. -/
def div2 (ok : Bool) (a c : V b) : Option (V b) :=
  match promoteV a c with
  | none => some (.sym symTERROR)
  | some .char =>
    if decCharRaw c = 0 then some (.sym symDIVZERO)
    else some (enc ok (.char (decCharRaw a / decCharRaw c)))
  | some .i =>
    if decIRaw c = 0 then some (.sym symDIVZERO)
    else (sdiv' (decAsIW F a) (decAsIW F c)).map fun r => enc ok (encI r)
  | some .u =>
    if decAsU32 F c = 0 then some (.sym symDIVZERO)
    else some (enc ok (encU (decAsUW F a / decAsUW F c)))
  | some .u32 =>
    if decAsU32 F c = 0 then some (.sym symDIVZERO)
    else some (enc ok (.u32 (decAsU32 F a / decAsU32 F c)))
  | some .i32 =>
    if decAsI32 F c = 0 then some (.sym symDIVZERO)
    else (sdiv' (decAsI32 F a) (decAsI32 F c)).map fun r => enc ok (.i32 r)
  | some .float =>
    if F.zero32 (decAsFloat F c) then some (.sym symDIVZERO)
    else some (enc ok (.float (F.div32 (decAsFloat F a) (decAsFloat F c))))
  | some .u64 =>
    if decAsU64 F c = 0 then some (.sym symDIVZERO)
    else some (enc ok (.u64 ((decAsU32 F a).setWidth 64 / decAsU64 F c)))
  | some .i64 =>
    if decAsI64 F c = 0 then some (.sym symDIVZERO)
    else (sdiv' ((decAsI32 F a).signExtend 64) (decAsI64 F c)).map fun r => enc ok (.i64 r)
  | some .double =>
    if F.zero64 (decAsDouble F c) then some (.sym symDIVZERO)
    else some (enc ok (.double (F.div64 (decAsDouble F a) (decAsDouble F c))))

/-- `mod2` (fundamental.c:155-180).  In the byte case the operands are promoted
to `int`, where both are non-negative. -/
def mod2 (ok : Bool) (a c : V b) : Option (V b) :=
  match promoteV a c with
  | none => some (.sym symTERROR)
  | some .char =>
    if decCharRaw c = 0 then some (.sym symDIVZERO)
    else (srem' ((decCharRaw a).setWidth 32) (decAsI32 F c)).map fun r =>
      enc ok (.char (r.setWidth 8))
  | some .i =>
    if decIRaw c = 0 then some (.sym symDIVZERO)
    else (srem' (decAsIW F a) (decAsIW F c)).map fun r => enc ok (encI r)
  | some .u =>
    if decAsU32 F c = 0 then some (.sym symDIVZERO)
    else some (enc ok (encU (decAsUW F a % decAsUW F c)))
  | some .u32 =>
    if decAsU32 F c = 0 then some (.sym symDIVZERO)
    else some (enc ok (.u32 (decAsU32 F a % decAsU32 F c)))
  | some .i32 =>
    if decAsI32 F c = 0 then some (.sym symDIVZERO)
    else (srem' (decAsI32 F a) (decAsI32 F c)).map fun r => enc ok (.i32 r)
  | some .float =>
    if F.zero32 (decAsFloat F c) then some (.sym symDIVZERO)
    else some (enc ok (.float (F.mod32 (decAsFloat F a) (decAsFloat F c))))
  | some .u64 =>
    if decAsU64 F c = 0 then some (.sym symDIVZERO)
    else some (enc ok (.u64 (decAsU64 F a % decAsU64 F c)))
  | some .i64 =>
    if decAsI64 F c = 0 then some (.sym symDIVZERO)
    else (srem' (decAsI64 F a) (decAsI64 F c)).map fun r => enc ok (.i64 r)
  | some .double =>
    if F.zero64 (decAsDouble F c) then some (.sym symDIVZERO)
    else some (enc ok (.double (F.mod64 (decAsDouble F a) (decAsDouble F c))))

/-- Fold a two-argument operation from the left, stopping at a symbol: the loops
of `fundamental_sub`, `fundamental_mul`, `fundamental_div`
(fundamental.c:421-426,436-441,451-456). -/
def opLoop (op : Bool → V b → V b → Option (V b)) (ok : Nat → Bool) (res : V b) :
    List (V b) → Option (V b)
  | [] => some res
  | v :: vs =>
    match op (ok vs.length) res v with
    | none => none
    | some (.sym id) => some (.sym id)
    | some r => opLoop op ok r vs

/-- `fundamental_sub` (fundamental.c:402-430). -/
def fSub (ok : Nat → Bool) : List (V b) → Option (V b)
  | [] => some (.num (.char 0))
  | [x] => sub2 F wrapv (ok 0) (.num (.char 0)) x
  | x :: y :: [] => sub2 F wrapv (ok 0) x y
  | x :: xs => opLoop (sub2 F wrapv) ok x xs

/-- `fundamental_mul` (fundamental.c:432-443). -/
def fMul (ok : Nat → Bool) (args : List (V b)) : Option (V b) :=
  opLoop (mul2 F wrapv) ok (.num (.char 1)) args

/-- `fundamental_div` (fundamental.c:445-461). -/
def fDiv (ok : Nat → Bool) : List (V b) → Option (V b)
  | x :: y :: ys => opLoop (div2 F) ok x (y :: ys)
  | _ => some (.sym symEERROR)

/-- `fundamental_mod` (fundamental.c:463-473). -/
def fMod (ok : Nat → Bool) : List (V b) → Option (V b)
  | [x, y] => mod2 F (ok 0) x y
  | _ => some (.sym symEERROR)

/-- The macro `CMP` on signed numbers (lbm_utils.h:47). -/
def cmpS {w : Nat} (x y : BitVec w) : Int :=
  (if y.slt x then 1 else 0) - (if x.slt y then 1 else 0)
/-- The macro `CMP` on unsigned numbers. -/
def cmpU {w : Nat} (x y : BitVec w) : Int :=
  (if y.ult x then 1 else 0) - (if x.ult y then 1 else 0)

/-- `compare_num` (fundamental.c:281-305), for numbers. -/
def compareNum (a c : V b) : Int :=
  match promoteV a c with
  | none => 0
  | some .char => cmpU (decCharRaw a) (decCharRaw c)
  | some .i => cmpS (decAsIW F a) (decAsIW F c)
  | some .u => cmpU (decAsUW F a) (decAsUW F c)
  | some .u32 => cmpU (decAsU32 F a) (decAsU32 F c)
  | some .i32 => cmpS (decAsI32 F a) (decAsI32 F c)
  | some .float =>
    (if F.lt32 (decAsFloat F c) (decAsFloat F a) then 1 else 0) -
      (if F.lt32 (decAsFloat F a) (decAsFloat F c) then 1 else 0)
  | some .u64 => cmpU (decAsU64 F a) (decAsU64 F c)
  | some .i64 => cmpS (decAsI64 F a) (decAsI64 F c)
  | some .double =>
    (if F.lt64 (decAsDouble F c) (decAsDouble F a) then 1 else 0) -
      (if F.lt64 (decAsDouble F a) (decAsDouble F c) then 1 else 0)

/-- The loop of `fundamental_numeq` (fundamental.c:503-513). -/
def numeqLoop (a : V b) : List (V b) → Nat
  | [] => symTRUE
  | c :: cs =>
    if !c.isNumber then symTERROR
    else if ¬ compareNum F a c = 0 then symNIL else numeqLoop a cs

/-- `fundamental_numeq` (fundamental.c:495-516).  Without arguments it reads
`args[0]` all the same: `none`. -/
def fNumEq : List (V b) → Option Nat
  | [] => none
  | a :: cs => some (if a.isNumber then numeqLoop F a cs else symTERROR)

/-- Swap true and false, keep errors (fundamental.c:518-526,590-602). -/
def negate (r : Nat) : Nat :=
  if r = symNIL then symTRUE else if r = symTRUE then symNIL else r

/-- `fundamental_num_not_eq` (fundamental.c:518-526). -/
def fNumNotEq (args : List (V b)) : Option Nat := (fNumEq F args).map negate

/-- The loop of `fundamental_leq` and `fundamental_geq`
(fundamental.c:540-547,571-578): all arguments are visited, `r` accumulates;
`none` is `ok = false`. -/
def cmpLoop (good : Int → Bool) (a : V b) (r : Bool) : List (V b) → Option Bool
  | [] => some r
  | c :: cs => if !c.isNumber then none else cmpLoop good a (r && good (compareNum F a c)) cs

/-- The common shape of `fundamental_leq` and `fundamental_geq`
(fundamental.c:528-588). -/
def cmpAll (good : Int → Bool) : List (V b) → Option Nat
  | [] => none
  | a :: cs =>
    some (if !a.isNumber then symTERROR
      else match cmpLoop F good a true cs with
        | some true => symTRUE
        | some false => symNIL
        | none => symTERROR)

/-- `fundamental_leq` (fundamental.c:528-557). -/
def fLeq (args : List (V b)) : Option Nat := cmpAll F (fun z => decide (z ≤ 0)) args
/-- `fundamental_geq` (fundamental.c:559-588). -/
def fGeq (args : List (V b)) : Option Nat := cmpAll F (fun z => decide (0 ≤ z)) args
/-- `fundamental_lt` (fundamental.c:590-595). -/
def fLt (args : List (V b)) : Option Nat := (fGeq F args).map negate
/-- `fundamental_gt` (fundamental.c:597-602). -/
def fGt (args : List (V b)) : Option Nat := (fLeq F args).map negate

/-- The one-argument conversions `to-i`, `to-i32`, … (fundamental.c:978-1057).  They
accept any value; what is not a number decodes as zero. -/
def fTo (t : Ty) (ok : Bool) : List (V b) → V b
  | [v] =>
    match t with
    | .char => enc ok (.char (decAsChar F v))
    | .i => enc ok (encI ((decAsI64 F v).setWidth b.w))
    | .u => enc ok (encU ((decAsU64 F v).setWidth b.w))
    | .i32 => enc ok (.i32 (decAsI32 F v))
    | .u32 => enc ok (.u32 (decAsU32 F v))
    | .i64 => enc ok (.i64 (decAsI64 F v))
    | .u64 => enc ok (.u64 (decAsU64 F v))
    | .float => enc ok (.float (decAsFloat F v))
    | .double => enc ok (.double (decAsDouble F v))
  | _ => .sym symEERROR

/-- The three two-argument bit operations. -/
inductive BitOp where
  | and | or | xor
  deriving DecidableEq, Repr

def BitOp.ap {w : Nat} : BitOp → BitVec w → BitVec w → BitVec w
  | .and => (· &&& ·)
  | .or => (· ||| ·)
  | .xor => (· ^^^ ·)

/-- `fundamental_bitwise_and`, `_or`, `_xor` (fundamental.c:1099-1172); they differ in
the operator only.  Bytes and floats fall through the switch. -/
def fBit (o : BitOp) (ok : Bool) : List (V b) → V b
  | [.num a, .num c] =>
    match a with
    | .i x => enc ok (encI (o.ap (decI x) (decAsIW F (.num c))))
    | .u x => enc ok (encU (o.ap (decU x) (decAsUW F (.num c))))
    | .u32 x => enc ok (.u32 (o.ap x (decAsU32 F (.num c))))
    | .i32 x => enc ok (.i32 (o.ap x (decAsI32 F (.num c))))
    | .i64 x => enc ok (.i64 (o.ap x (decAsI64 F (.num c))))
    | .u64 x => enc ok (.u64 (o.ap x (decAsU64 F (.num c))))
    | _ => .sym symTERROR
  | [_, _] => .sym symTERROR
  | _ => .sym symEERROR

/-- `fundamental_bitwise_not` (fundamental.c:1174-1192). -/
def fNot (ok : Bool) : List (V b) → V b
  | [.num a] =>
    match a with
    | .i x => enc ok (encI (~~~ decI x))
    | .u x => enc ok (encU (~~~ decU x))
    | .u32 x => enc ok (.u32 (~~~ x))
    | .i32 x => enc ok (.i32 (~~~ x))
    | .i64 x => enc ok (.i64 (~~~ x))
    | .u64 x => enc ok (.u64 (~~~ x))
    | _ => .sym symTERROR
  | [_] => .sym symTERROR
  | _ => .sym symEERROR

/-- A shift in C: undefined when the amount is not less than the width. A left
shift of a signed number is taken to be the shift of its bits (strictly, C leaves a
negative or overflowing one undefined too; every compiler shifts). -/
def shlC {w : Nat} (x : BitVec w) (n : BitVec 32) : Option (BitVec w) :=
  if w ≤ n.toNat then none else some (x <<< n.toNat)
/-- Right shift of an unsigned number. -/
def shrC {w : Nat} (x : BitVec w) (n : BitVec 32) : Option (BitVec w) :=
  if w ≤ n.toNat then none else some (x >>> n.toNat)
/-- Right shift of a signed number: arithmetic (implementation-defined, all
compilers). -/
def sarC {w : Nat} (x : BitVec w) (n : BitVec 32) : Option (BitVec w) :=
  if w ≤ n.toNat then none else some (x.sshiftRight n.toNat)

/-- `fundamental_shl` (fundamental.c:1059-1077). -/
def fShl (ok : Bool) : List (V b) → Option (V b)
  | [.num a, .num c] =>
    let n := decAsU32 F (.num c)
    match a with
    | .i x => (shlC (decI x) n).map fun r => enc ok (encI r)
    | .u x => (shlC (decU x) n).map fun r => enc ok (encU r)
    | .u32 x => (shlC x n).map fun r => enc ok (.u32 r)
    | .i32 x => (shlC x n).map fun r => enc ok (.i32 r)
    | .i64 x => (shlC x n).map fun r => enc ok (.i64 r)
    | .u64 x => (shlC x n).map fun r => enc ok (.u64 r)
    | _ => some (.sym symTERROR)
  | [_, _] => some (.sym symTERROR)
  | _ => some (.sym symEERROR)

/-- `fundamental_shr` (fundamental.c:1079-1097). -/
def fShr (ok : Bool) : List (V b) → Option (V b)
  | [.num a, .num c] =>
    let n := decAsU32 F (.num c)
    match a with
    | .i x => (sarC (decI x) n).map fun r => enc ok (encI r)
    | .u x => (shrC (decU x) n).map fun r => enc ok (encU r)
    | .u32 x => (shrC x n).map fun r => enc ok (.u32 r)
    | .i32 x => (sarC x n).map fun r => enc ok (.i32 r)
    | .i64 x => (sarC x n).map fun r => enc ok (.i64 r)
    | .u64 x => (shrC x n).map fun r => enc ok (.u64 r)
    | _ => some (.sym symTERROR)
  | [_, _] => some (.sym symTERROR)
  | _ => some (.sym symEERROR)

end

end Verif.Arith
