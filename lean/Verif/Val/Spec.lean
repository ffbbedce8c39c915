import Verif.Val.Model

/-!
# Specification vocabulary for values

What a value is, independently of how it is packed into a word, and which
values a build can represent.
-/

namespace Verif.Val

/-- The heap-allocated types of the language. -/
inductive PtrKind where
  | cons | i32 | u32 | float | i64 | u64 | double
  | array | channel | custom | lispArray | defragMem
  deriving DecidableEq, Repr

/-- The types of the language. -/
inductive Kind where
  | sym | char | int | uint
  /-- 32-bit numbers held in the word itself (64-bit build only). -/
  | i32u | u32u | floatu
  | ptr (k : PtrKind) (const : Bool)
  deriving DecidableEq, Repr

/-- A value: what the programmer handed to an encoder. -/
inductive V where
  | sym (id : Nat)
  | char (c : Nat)
  | int (z : Int)
  | uint (n : Nat)
  | i32u (z : Int)
  | u32u (n : Nat)
  | floatu (bits : Nat)
  | ptr (k : PtrKind) (const : Bool) (ix : Nat)
  deriving DecidableEq, Repr

def V.kind : V → Kind
  | .sym _ => .sym
  | .char _ => .char
  | .int _ => .int
  | .uint _ => .uint
  | .i32u _ => .i32u
  | .u32u _ => .u32u
  | .floatu _ => .floatu
  | .ptr k c _ => .ptr k c

/-- Payload width of the unboxed types: 28 or 56 bits. -/
def payload : Build → Nat
  | .b32 => 28
  | .b64 => 56

/-- Width of a cell index: 24 or 56 bits. -/
def indexBits : Build → Nat
  | .b32 => 24
  | .b64 => 56

/-- Which kinds exist in a build: 32-bit numbers are boxed on the 32-bit build
and unboxed on the 64-bit build. -/
def Kind.exists : Build → Kind → Bool
  | .b32, .i32u => false
  | .b32, .u32u => false
  | .b32, .floatu => false
  | .b64, .ptr .i32 _ => false
  | .b64, .ptr .u32 _ => false
  | .b64, .ptr .float _ => false
  | _, _ => true

/-- The values a build can represent. -/
def V.Fits (b : Build) (v : V) : Prop :=
  v.kind.exists b = true ∧
  match v with
  | .sym id => id < 2 ^ payload b
  | .char c => c < 256
  | .int z => -(2 ^ (payload b - 1)) ≤ z ∧ z < 2 ^ (payload b - 1)
  | .uint n => n < 2 ^ payload b
  | .i32u z => -(2 ^ 31) ≤ z ∧ z < 2 ^ 31
  | .u32u n => n < 2 ^ 32
  | .floatu n => n < 2 ^ 32
  | .ptr _ _ ix => ix < 2 ^ indexBits b

/-- Is this kind one of the number types? -/
def Kind.numeric : Kind → Bool
  | .sym => false
  | .char | .int | .uint | .i32u | .u32u | .floatu => true
  | .ptr .i32 _ | .ptr .u32 _ | .ptr .float _ | .ptr .i64 _ | .ptr .u64 _ | .ptr .double _ => true
  | .ptr _ _ => false

/-- The type constant of a heap-allocated type. -/
def PtrKind.tag (b : Build) : PtrKind → Word b
  | .cons => tCons b
  | .i32 => tI32 b
  | .u32 => tU32 b
  | .float => tFloat b
  | .i64 => tI64 b
  | .u64 => tU64 b
  | .double => tDouble b
  | .array => tArray b
  | .channel => tChannel b
  | .custom => tCustom b
  | .lispArray => tLispArray b
  | .defragMem => tDefragMem b

/-- The type constant of a kind (`LBM_TYPE_*`; pointers into the constant heap
carry the constant bit in their type, `LBM_TYPE_CONS_CONST` and friends). -/
def Kind.tag (b : Build) : Kind → Word b
  | .sym => tSymbol b
  | .char => tChar b
  | .int => tI b
  | .uint => tU b
  | .i32u => tI32 b
  | .u32u => tU32 b
  | .floatu => tFloat b
  | .ptr k false => k.tag b
  | .ptr k true => k.tag b ||| constBit b

/-- How the runtime builds the word for a value: the unboxed encoders, or
`lbm_enc_cons_ptr` followed by `lbm_set_ptr_type`. -/
def V.enc (b : Build) : V → Word b
  | .sym id => encSym b (BitVec.ofNat _ id)
  | .char c => encChar b (BitVec.ofNat _ c)
  | .int z => encI b (BitVec.ofInt _ z)
  | .uint n => encU b (BitVec.ofNat _ n)
  | .i32u z => (encI32On64 (BitVec.ofInt _ z)).setWidth _
  | .u32u n => (encU32On64 (BitVec.ofNat _ n)).setWidth _
  | .floatu n => (encFloatOn64 (BitVec.ofNat _ n)).setWidth _
  | .ptr k c ix => setPtrType b (encConsPtr b (BitVec.ofNat _ ix)) ((Kind.ptr k c).tag b)

end Verif.Val
