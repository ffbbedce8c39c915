/-!
# Tagged values as machine words

Model of the value representation of lispBM for both builds: 32-bit words
(`LBM64` not defined) and 64-bit words (`LBM64` defined).  The functions are
written once, over `Build`; the constants of the two builds are those of
`include/lbm_defines.h`.
-/

namespace Verif.Val

/-- The two builds, selected by the preprocessor symbol `LBM64`
(include/lbm_defines.h:26,84). -/
inductive Build where
  | b32
  | b64
  deriving DecidableEq, Repr

/-- Number of bits of `lbm_value`/`lbm_uint` (include/lbm_types.h:45,79). -/
abbrev Build.w : Build → Nat
  | .b32 => 32
  | .b64 => 64

/-- `lbm_value`, `lbm_uint`, `lbm_type`: an unsigned word
(include/lbm_types.h:45-49,79-83). -/
abbrev Word (b : Build) := BitVec b.w

/-- `LBM_VAL_SHIFT` (lbm_defines.h:29,87). -/
def valShift : Build → Nat
  | .b32 => 4
  | .b64 => 8

/-- `LBM_ADDRESS_SHIFT` (lbm_defines.h:28,86). -/
def addressShift : Build → Nat
  | .b32 => 2
  | .b64 => 2

/-- `LBM_PTR_BIT` (lbm_defines.h:32,90). -/
def ptrBit : (b : Build) → Word b
  | .b32 => 0x00000001#32
  | .b64 => 0x1#64

/-- `LBM_PTR_VAL_MASK` (lbm_defines.h:33,91). -/
def ptrValMask : (b : Build) → Word b
  | .b32 => 0x03FFFFFC#32
  | .b64 => 0x03FFFFFFFFFFFFFC#64

/-- `LBM_PTR_TYPE_MASK` (lbm_defines.h:34,92). -/
def ptrTypeMask : (b : Build) → Word b
  | .b32 => 0xFC000000#32
  | .b64 => 0xFC00000000000000#64

/-- `LBM_PTR_TO_CONSTANT_BIT` (lbm_defines.h:38,95). -/
def constBit : (b : Build) → Word b
  | .b32 => 0x04000000#32
  | .b64 => 0x0400000000000000#64

/-- `LBM_PTR_TO_CONSTANT_SHIFT` (lbm_defines.h:40,97). -/
def constShift : Build → Nat
  | .b32 => 26
  | .b64 => 58

/-- `LBM_CONS_TYPE_MASK` (lbm_defines.h:62,116). -/
def consTypeMask : (b : Build) → Word b
  | .b32 => 0xF0000000#32
  | .b64 => 0xF000000000000000#64

/-- `LBM_GC_MASK` = `LBM_GC_MARKED` (lbm_defines.h:68,122). -/
def gcMask : (b : Build) → Word b
  | .b32 => 0x00000002#32
  | .b64 => 0x2#64

/-- `LBM_VAL_TYPE_MASK` (lbm_defines.h:72,127). -/
def valTypeMask : (b : Build) → Word b
  | .b32 => 0x0000000C#32
  | .b64 => 0xFC#64

/-- `LBM_NUMBER_MASK` (lbm_defines.h:74,129). -/
def numberMask : (b : Build) → Word b
  | .b32 => 0x08000000#32
  | .b64 => 0x0800000000000000#64

/-- `LBM_LOW_RESERVED_BITS` (lbm_defines.h:82,139). -/
def lowReservedBits : (b : Build) → Word b
  | .b32 => 0x0000000F#32
  | .b64 => 0xFF#64

/-- `ERROR_SYMBOL_MASK` (heap.h:956-960). -/
def errorSymbolMask : (b : Build) → Word b
  | .b32 => 0xFFFFFFF0#32
  | .b64 => 0xFFFFFFFFFFFFFFF0#64

/-- `LBM_TYPE_SYMBOL` (lbm_defines.h:77,131). -/
def tSymbol : (b : Build) → Word b
  | .b32 => 0x0#32
  | .b64 => 0x0#64
/-- `LBM_TYPE_CHAR` (lbm_defines.h:78,132). -/
def tChar : (b : Build) → Word b
  | .b32 => 0x4#32
  | .b64 => 0x4#64
/-- `LBM_TYPE_I` (lbm_defines.h:80,136). -/
def tI : (b : Build) → Word b
  | .b32 => 0x8#32
  | .b64 => 0x14#64
/-- `LBM_TYPE_U` (lbm_defines.h:81,137). -/
def tU : (b : Build) → Word b
  | .b32 => 0xC#32
  | .b64 => 0x18#64
/-- `LBM_TYPE_CONS` (lbm_defines.h:43,100). -/
def tCons : (b : Build) → Word b
  | .b32 => 0x10000000#32
  | .b64 => 0x1000000000000000#64
/-- `LBM_TYPE_I32` (lbm_defines.h:46,134; unboxed on 64 bits). -/
def tI32 : (b : Build) → Word b
  | .b32 => 0x28000000#32
  | .b64 => 0x8#64
/-- `LBM_TYPE_U32` (lbm_defines.h:47,135; unboxed on 64 bits). -/
def tU32 : (b : Build) → Word b
  | .b32 => 0x38000000#32
  | .b64 => 0xC#64
/-- `LBM_TYPE_FLOAT` (lbm_defines.h:50,138; unboxed on 64 bits). -/
def tFloat : (b : Build) → Word b
  | .b32 => 0x68000000#32
  | .b64 => 0x1C#64
/-- `LBM_TYPE_I64` (lbm_defines.h:48,103). -/
def tI64 : (b : Build) → Word b
  | .b32 => 0x48000000#32
  | .b64 => 0x2800000000000000#64
/-- `LBM_TYPE_U64` (lbm_defines.h:49,104). -/
def tU64 : (b : Build) → Word b
  | .b32 => 0x58000000#32
  | .b64 => 0x3800000000000000#64
/-- `LBM_TYPE_DOUBLE` (lbm_defines.h:51,105). -/
def tDouble : (b : Build) → Word b
  | .b32 => 0x78000000#32
  | .b64 => 0x4800000000000000#64
/-- `LBM_TYPE_ARRAY` (lbm_defines.h:52,106). -/
def tArray : (b : Build) → Word b
  | .b32 => 0x80000000#32
  | .b64 => 0x5000000000000000#64
/-- `LBM_TYPE_CHANNEL` (lbm_defines.h:54,108). -/
def tChannel : (b : Build) → Word b
  | .b32 => 0x90000000#32
  | .b64 => 0x7000000000000000#64
/-- `LBM_TYPE_CUSTOM` (lbm_defines.h:55,109). -/
def tCustom : (b : Build) → Word b
  | .b32 => 0xA0000000#32
  | .b64 => 0x8000000000000000#64
/-- `LBM_TYPE_LISPARRAY` (lbm_defines.h:56,110). -/
def tLispArray : (b : Build) → Word b
  | .b32 => 0xB0000000#32
  | .b64 => 0x9000000000000000#64
/-- `LBM_TYPE_DEFRAG_MEM` (lbm_defines.h:58,112). -/
def tDefragMem : (b : Build) → Word b
  | .b32 => 0xC0000000#32
  | .b64 => 0xA000000000000000#64
/-- `LBM_CONTINUATION_INTERNAL_TYPE` (lbm_defines.h:66,120). -/
def tContInternal : (b : Build) → Word b
  | .b32 => 0xF8000000#32
  | .b64 => 0xF800000000000000#64
/-- `LBM_CONTINUATION_INTERNAL` (lbm_defines.h:65,119). -/
def contInternal : (b : Build) → Word b
  | .b32 => 0xF8000001#32
  | .b64 => 0xF800000000000001#64

/-- `lbm_is_ptr` (heap.h:812-814). -/
def isPtr (b : Build) (x : Word b) : Bool := x &&& ptrBit b != 0

/-- `lbm_type_of` (heap.h:663-665). -/
def typeOf (b : Build) (x : Word b) : Word b :=
  if x &&& ptrBit b != 0 then x &&& ptrTypeMask b else x &&& valTypeMask b

/-- `lbm_type_of_functional` (heap.h:668-672). -/
def typeOfFunctional (b : Build) (x : Word b) : Word b :=
  if x &&& ptrBit b != 0 then x &&& (~~~(constBit b) &&& ptrTypeMask b)
  else x &&& valTypeMask b

/-- `lbm_enc_cons_ptr` (heap.h:674-676). -/
def encConsPtr (b : Build) (x : Word b) : Word b :=
  (x <<< addressShift b) ||| tCons b ||| ptrBit b

/-- `lbm_dec_ptr` (heap.h:678-680). -/
def decPtr (b : Build) (p : Word b) : Word b := (ptrValMask b &&& p) >>> addressShift b

/-- `lbm_dec_cons_cell_ptr` (heap.h:684-687). -/
def decConsCellPtr (b : Build) (p : Word b) : Word b :=
  let h := (p &&& constBit b) >>> constShift b
  decPtr b p >>> h.toNat

/-- The index into `lbm_heaps` chosen by `lbm_dec_heap` (heap.h:689-692):
0 is the RAM heap, 1 the constant heap. -/
def decHeap (b : Build) (p : Word b) : Nat := ((p &&& constBit b) >>> constShift b).toNat

/-- `lbm_set_ptr_type` (heap.h:694-696). -/
def setPtrType (b : Build) (p t : Word b) : Word b := (ptrValMask b &&& p) ||| t ||| ptrBit b

/-- `lbm_enc_sym` (heap.h:698-700). -/
def encSym (b : Build) (s : Word b) : Word b := (s <<< valShift b) ||| tSymbol b
/-- `lbm_enc_i` (heap.h:702-704); the argument is the two's complement word. -/
def encI (b : Build) (x : Word b) : Word b := (x <<< valShift b) ||| tI b
/-- `lbm_enc_u` (heap.h:706-708). -/
def encU (b : Build) (x : Word b) : Word b := (x <<< valShift b) ||| tU b
/-- `lbm_enc_char` (heap.h:746-748). -/
def encChar (b : Build) (x : BitVec 8) : Word b := (x.setWidth b.w <<< valShift b) ||| tChar b

/-- `lbm_dec_i` (heap.h:750-752): arithmetic shift of the signed word. -/
def decI (b : Build) (x : Word b) : Word b := x.sshiftRight (valShift b)
/-- `lbm_dec_u` (heap.h:754-756). -/
def decU (b : Build) (x : Word b) : Word b := x >>> valShift b
/-- `lbm_dec_char` (heap.h:758-760). -/
def decChar (b : Build) (x : Word b) : BitVec 8 := (x >>> valShift b).setWidth 8
/-- `lbm_dec_sym` (heap.h:762-764). -/
def decSym (b : Build) (x : Word b) : Word b := x >>> valShift b

/-- `lbm_enc_i32` on the 64-bit build (heap.c:100): the `int32_t` is sign
extended by the conversion to `lbm_uint`. -/
def encI32On64 (x : BitVec 32) : Word .b64 :=
  (x.signExtend 64 <<< valShift .b64) ||| tI32 .b64
/-- `lbm_enc_u32` on the 64-bit build (heap.c:110). -/
def encU32On64 (x : BitVec 32) : Word .b64 :=
  (x.setWidth 64 <<< valShift .b64) ||| tU32 .b64
/-- `lbm_enc_float` on the 64-bit build (heap.c:122-124); `x` is the bit
pattern of the float, copied with `memcpy` into a zeroed word. -/
def encFloatOn64 (x : BitVec 32) : Word .b64 :=
  (x.setWidth 64 <<< valShift .b64) ||| tFloat .b64
/-- `lbm_dec_i32`, `lbm_dec_u32`, `lbm_dec_float` on the 64-bit build
(heap.h:783,797; heap.c:193-196): the low 32 bits of the payload. -/
def dec32On64 (x : Word .b64) : BitVec 32 := (x >>> valShift .b64).setWidth 32

/-- A heap as the encoders of boxed numbers see it: `car` and `cdr` of each
cell, as words.  (`lbm_cons` itself is modelled in `Verif.Heap`.) -/
structure Cells (b : Build) where
  car : Nat → Word b
  cdr : Nat → Word b

/-- The effect of a successful `lbm_cons` that was given cell `ix`
(heap.c:557-577,952-954): the cell is written, a cons pointer to it is returned. -/
def consAt (b : Build) (m : Cells b) (ix : Nat) (a d : Word b) : Cells b × Word b :=
  ({ car := fun i => if i = ix then a else m.car i
     cdr := fun i => if i = ix then d else m.cdr i },
   encConsPtr b (BitVec.ofNat b.w ix))

/-- Boxing one word in a cell: `lbm_enc_i32/u32/float` on 32 bits
(heap.c:96-98,106-108,117-121) and `lbm_enc_i64/u64/double` on 64 bits
(heap.c:151-153,161-163,172-175).  `ix = none` is `lbm_cons` failing. -/
def encBoxed (b : Build) (merror : Word b) (m : Cells b) (ix : Option Nat)
    (x qual type : Word b) : Cells b × Word b :=
  match ix with
  | none => (m, merror)
  | some ix =>
    let r := consAt b m ix x qual
    if typeOf b r.2 = tSymbol b then r else (r.1, setPtrType b r.2 type)

/-- Unboxing: `lbm_car` of the pointer (heap.h:781,795; heap.c:187,203,219). -/
def decBoxed (b : Build) (m : Cells b) (x : Word b) : Word b :=
  m.car (decConsCellPtr b x).toNat

/-- `lbm_set_gc_mark`, `lbm_set_gc_flag` (heap.c:39-41,57-59). -/
def setGcMark (b : Build) (x : Word b) : Word b := x ||| gcMask b
/-- `lbm_clr_gc_mark`, `lbm_clr_gc_flag` (heap.c:43-45,61-63). -/
def clrGcMark (b : Build) (x : Word b) : Word b := x &&& ~~~(gcMask b)
/-- `lbm_get_gc_mark`, `lbm_get_gc_flag` (heap.c:47-54). -/
def getGcMark (b : Build) (x : Word b) : Bool := x &&& gcMask b != 0

/-- `lbm_is_cons_rw` (heap.h:821-823). -/
def isConsRw (b : Build) (x : Word b) : Bool := typeOf b x == tCons b
/-- `lbm_is_cons` (heap.h:830-832). -/
def isCons (b : Build) (x : Word b) : Bool := isPtr b x && (x &&& consTypeMask b == tCons b)
/-- `lbm_is_symbol_nil` (heap.h:834-836). -/
def isSymbolNil (b : Build) (x : Word b) : Bool := x == 0
/-- `lbm_is_number` (heap.h:842-847). -/
def isNumber (b : Build) (x : Word b) : Bool :=
  if x &&& ptrBit b != 0 then x &&& numberMask b == numberMask b else x &&& valTypeMask b != 0
/-- `lbm_is_symbol` (heap.h:924-926). -/
def isSymbol (b : Build) (x : Word b) : Bool := x &&& lowReservedBits b == 0
/-- `lbm_is_char` (heap.h:884-886). -/
def isChar (b : Build) (x : Word b) : Bool := typeOf b x == tChar b
/-- `lbm_is_error` (heap.h:963-966). -/
def isError (b : Build) (x : Word b) : Bool :=
  isSymbol b x && (decSym b x &&& errorSymbolMask b == BitVec.ofNat b.w 0x20)
/-- `lbm_is_list` (heap.h:940-942). -/
def isList (b : Build) (x : Word b) : Bool := isCons b x || isSymbolNil b x

end Verif.Val
