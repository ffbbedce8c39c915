import Verif.Val.Props

/-!
# `type-of`, `is-nan`, `is-inf` (C129)

Over the words of `Verif.Val`. `lbm_dec_float`, `lbm_dec_double` are functions from words to the bits of a number (they are treated in C11).
-/

namespace Verif.Val

/-- `fundamental_type_of` (fundamental.c:1210-1241) with one argument: the identifier of the symbol. `none`: an `eval_error`. -/
def typeOfSym (b : Build) (x : Word b) : Option Nat :=
  let t := if isPtr b x then typeOf b x &&& ~~~(constBit b) else typeOf b x
  if t = tCons b then some 0x50
  else if t = tArray b then some 0x59
  else if t = tI32 b then some 0x54
  else if t = tU32 b then some 0x55
  else if t = tFloat b then some 0x53
  else if t = tI64 b then some 0x57
  else if t = tU64 b then some 0x58
  else if t = tDouble b then some 0x56
  else if t = tI b then some 0x51
  else if t = tU b then some 0x52
  else if t = tChar b then some 0x5B
  else if t = tSymbol b then some 0x5A
  else if t = tLispArray b then some 0x5F
  else if t = tDefragMem b then some 0x60
  else if t = tCustom b then some 0x61
  else none

/-- Result of a predicate: a truth value or a `type_error`. -/
inductive Pred where
  | yes | no | terror
  deriving DecidableEq, Repr

/-- `isnan` of C, on the bits of a double. -/
def nan64 (x : BitVec 64) : Bool := (x &&& 0x7FFFFFFFFFFFFFFF#64).toNat > 0x7FF0000000000000
/-- `isnanf`, on the bits of a float. -/
def nan32 (x : BitVec 32) : Bool := (x &&& 0x7FFFFFFF#32).toNat > 0x7F800000
/-- `isinf`, on the bits of a double. -/
def inf64 (x : BitVec 64) : Bool := x &&& 0x7FFFFFFFFFFFFFFF#64 == 0x7FF0000000000000#64
/-- `isinff`, on the bits of a float. -/
def inf32 (x : BitVec 32) : Bool := x &&& 0x7FFFFFFF#32 == 0x7F800000#32

/-- `ext_is_nan` (math_extensions.c:135-163), `ext_is_inf` (math_extensions.c:165-193), with one argument; `c64`, `c32` are the two tests. -/
def classify (b : Build) (dec64 : Word b → BitVec 64) (dec32 : Word b → BitVec 32) (c64 : BitVec 64 → Bool) (c32 : BitVec 32 → Bool) (x : Word b) : Pred :=
  if isNumber b x then
    if typeOf b x = tDouble b then (if c64 (dec64 x) then .yes else .no)
    else if typeOf b x = tFloat b then (if c32 (dec32 x) then .yes else .no)
    else .no
  else .terror

def isNanExt (b : Build) (dec64 : Word b → BitVec 64) (dec32 : Word b → BitVec 32) (x : Word b) : Pred := classify b dec64 dec32 nan64 nan32 x
def isInfExt (b : Build) (dec64 : Word b → BitVec 64) (dec32 : Word b → BitVec 32) (x : Word b) : Pred := classify b dec64 dec32 inf64 inf32 x

/-! ## Specification -/

/-- The types as a program sees them: whether a number is held in the word or in a cell, and whether a cell is constant, makes no difference. -/
inductive Ty where
  | list | array | i32 | u32 | float | i64 | u64 | double | int | uint | char | symbol | lispArray | defragMem | custom | channel
  deriving DecidableEq, Repr

def Kind.ty : Kind → Ty
  | .sym => .symbol
  | .char => .char
  | .int => .int
  | .uint => .uint
  | .i32u => .i32
  | .u32u => .u32
  | .floatu => .float
  | .ptr .cons _ => .list
  | .ptr .i32 _ => .i32
  | .ptr .u32 _ => .u32
  | .ptr .float _ => .float
  | .ptr .i64 _ => .i64
  | .ptr .u64 _ => .u64
  | .ptr .double _ => .double
  | .ptr .array _ => .array
  | .ptr .channel _ => .channel
  | .ptr .custom _ => .custom
  | .ptr .lispArray _ => .lispArray
  | .ptr .defragMem _ => .defragMem

/-- The symbols that name the types (symrepr.c:134-151, lbm_defines.h:186-202). -/
def Ty.name : Ty → Nat
  | .list => 0x50
  | .int => 0x51
  | .uint => 0x52
  | .float => 0x53
  | .i32 => 0x54
  | .u32 => 0x55
  | .double => 0x56
  | .i64 => 0x57
  | .u64 => 0x58
  | .array => 0x59
  | .symbol => 0x5A
  | .char => 0x5B
  | .lispArray => 0x5F
  | .defragMem => 0x60
  | .custom => 0x61
  | .channel => 0x5E

/-- A floating point number of IEEE 754 with `e` exponent and `m` fraction bits is not a number: all exponent bits are set and the fraction is not zero. -/
def IsNaN (e m : Nat) (bits : Nat) : Prop := bits / 2 ^ m % 2 ^ e = 2 ^ e - 1 ∧ bits % 2 ^ m ≠ 0
/-- It is an infinity: all exponent bits are set and the fraction is zero. -/
def IsInf (e m : Nat) (bits : Nat) : Prop := bits / 2 ^ m % 2 ^ e = 2 ^ e - 1 ∧ bits % 2 ^ m = 0

/-! ## C129 -/

theorem typeOfSym_eq (b : Build) (v : V) (hv : v.Fits b) : typeOfSym b (v.enc b) = if v.kind.ty = .channel then none else some v.kind.ty.name := by
  obtain ⟨h1, h2⟩ := C12_type_of b v hv
  have hex := hv.1
  have key : ∀ k : Kind, k.exists b = true → ∀ p : Bool, p = (match k with | .ptr .. => true | _ => false) →
      (let t := if p then k.tag b &&& ~~~(constBit b) else k.tag b
       if t = tCons b then some 0x50
       else if t = tArray b then some 0x59
       else if t = tI32 b then some 0x54
       else if t = tU32 b then some 0x55
       else if t = tFloat b then some 0x53
       else if t = tI64 b then some 0x57
       else if t = tU64 b then some 0x58
       else if t = tDouble b then some 0x56
       else if t = tI b then some 0x51
       else if t = tU b then some 0x52
       else if t = tChar b then some 0x5B
       else if t = tSymbol b then some 0x5A
       else if t = tLispArray b then some 0x5F
       else if t = tDefragMem b then some 0x60
       else if t = tCustom b then some 0x61
       else none) = (if k.ty = .channel then none else some k.ty.name) := by
    intro k hk p hp
    subst hp
    revert hk
    cases b <;> rcases k with _ | _ | _ | _ | _ | _ | _ | ⟨k, _ | _⟩ <;> (try cases k) <;> decide
  have := key v.kind hex (isPtr b (v.enc b)) (by rw [h2]; cases v <;> rfl)
  unfold typeOfSym
  rw [h1]
  exact this

/-- C129 for `type-of`: for each value of the language, except for channels, the answer is the symbol that names its type. -/
theorem C129_type_of_partial (b : Build) (v : V) (hv : v.Fits b) (h : v.kind.ty ≠ .channel) : typeOfSym b (v.enc b) = some v.kind.ty.name := by
  rw [typeOfSym_eq b v hv, if_neg h]

/-- C129 fails for channels: the symbol `type-channel` exists, but `type-of` ends with an error for every channel. -/
theorem C129_channel_violated (b : Build) (c : Bool) (ix : Nat) (h : ix < 2 ^ indexBits b) : typeOfSym b ((V.ptr .channel c ix).enc b) = none := by
  have hv : (V.ptr .channel c ix).Fits b := ⟨by cases b <;> rfl, h⟩
  rw [typeOfSym_eq b _ hv]; rfl

/-- C129: two values have the same answer from `type-of` exactly if they have the same type; a copy in the constant heap has the type of the original. -/
theorem C129_same (b : Build) (v v' : V) (hv : v.Fits b) (hv' : v'.Fits b) : typeOfSym b (v.enc b) = typeOfSym b (v'.enc b) ↔ v.kind.ty = v'.kind.ty := by
  rw [typeOfSym_eq b v hv, typeOfSym_eq b v' hv']
  constructor
  · generalize v.kind.ty = s
    generalize v'.kind.ty = t
    cases s <;> cases t <;> decide
  · intro h; rw [h]

/-- C129 for `type-of` and `number?`: a value is a number exactly if `type-of` names one of the number types. -/
theorem C129_number (b : Build) (v : V) (hv : v.Fits b) :
    isNumber b (v.enc b) = true ↔ ∃ s ∈ [0x51, 0x52, 0x53, 0x54, 0x55, 0x56, 0x57, 0x58, 0x5B], typeOfSym b (v.enc b) = some s := by
  rw [typeOfSym_eq b v hv, (C12_predicates b v hv).1]
  generalize v.kind = k
  rcases k with _ | _ | _ | _ | _ | _ | _ | ⟨k, c⟩ <;> (try cases k) <;> simp [Kind.numeric, Kind.ty, Ty.name]

theorem nan64_iff (x : BitVec 64) : nan64 x = true ↔ IsNaN 11 52 x.toNat := by
  have e : (x &&& 0x7FFFFFFFFFFFFFFF#64).toNat = x.toNat % 2 ^ 63 := by
    rw [BitVec.toNat_and]; exact Nat.and_two_pow_sub_one_eq_mod _ 63
  simp only [nan64, IsNaN, decide_eq_true_eq, e]
  have := x.isLt
  omega

theorem nan32_iff (x : BitVec 32) : nan32 x = true ↔ IsNaN 8 23 x.toNat := by
  have e : (x &&& 0x7FFFFFFF#32).toNat = x.toNat % 2 ^ 31 := by
    rw [BitVec.toNat_and]; exact Nat.and_two_pow_sub_one_eq_mod _ 31
  simp only [nan32, IsNaN, decide_eq_true_eq, e]
  have := x.isLt
  omega

theorem inf64_iff (x : BitVec 64) : inf64 x = true ↔ IsInf 11 52 x.toNat := by
  have e : (x &&& 0x7FFFFFFFFFFFFFFF#64).toNat = x.toNat % 2 ^ 63 := by
    rw [BitVec.toNat_and]; exact Nat.and_two_pow_sub_one_eq_mod _ 63
  simp only [inf64, IsInf, beq_iff_eq, ← BitVec.toNat_inj, e]
  have := x.isLt
  simp only [BitVec.toNat_ofNat]
  omega

theorem inf32_iff (x : BitVec 32) : inf32 x = true ↔ IsInf 8 23 x.toNat := by
  have e : (x &&& 0x7FFFFFFF#32).toNat = x.toNat % 2 ^ 31 := by
    rw [BitVec.toNat_and]; exact Nat.and_two_pow_sub_one_eq_mod _ 31
  simp only [inf32, IsInf, beq_iff_eq, ← BitVec.toNat_inj, e]
  have := x.isLt
  simp only [BitVec.toNat_ofNat]
  omega

/-- What the two predicates should answer for a value: by the bits of a floating point number; no for the other numbers; a type error for everything else. -/
def Answer (P64 P32 : Prop) (t : Ty) (numeric : Bool) (r : Pred) : Prop :=
  match t with
  | .double => (r = .yes ↔ P64) ∧ (r = .no ↔ ¬ P64)
  | .float => (r = .yes ↔ P32) ∧ (r = .no ↔ ¬ P32)
  | _ => r = if numeric then .no else .terror

theorem classify_spec (b : Build) (dec64 : Word b → BitVec 64) (dec32 : Word b → BitVec 32) (c64 : BitVec 64 → Bool) (c32 : BitVec 32 → Bool) (v : V) (hv : v.Fits b)
    (hc : ∀ k ix, v ≠ .ptr k true ix) : Answer (c64 (dec64 (v.enc b)) = true) (c32 (dec32 (v.enc b)) = true) v.kind.ty v.kind.numeric (classify b dec64 dec32 c64 c32 (v.enc b)) := by
  unfold classify
  rw [(C12_predicates b v hv).1, (C12_type_of b v hv).1]
  have hex := hv.1
  have hk : ∀ k, v.kind ≠ .ptr k true := by
    intro k h
    cases v <;> simp only [V.kind] at h <;> cases h
    exact hc _ _ rfl
  generalize v.enc b = x
  revert hex hk
  generalize v.kind = k
  intro hex hk
  have htd : ∀ k : Kind, k.exists b = true → (∀ p, k ≠ .ptr p true) → (k.tag b = tDouble b ↔ k.ty = .double) ∧ (k.tag b = tFloat b ↔ k.ty = .float) := by
    intro k h1 h2
    revert h1
    cases b <;> rcases k with _ | _ | _ | _ | _ | _ | _ | ⟨k, _ | _⟩ <;> (try exact absurd rfl (h2 _)) <;> (try cases k) <;> decide
  obtain ⟨d1, d2⟩ := htd k hex hk
  simp only [d1, d2]
  rcases k with _ | _ | _ | _ | _ | _ | _ | ⟨k, c⟩ <;> (try cases k) <;> simp [Answer, Kind.ty, Kind.numeric] <;>
    (cases c64 (dec64 x) <;> cases c32 (dec32 x) <;> simp)

/-- C129 for `is-nan`, on every value that is not in the constant heap. -/
theorem C129_is_nan_partial (b : Build) (dec64 : Word b → BitVec 64) (dec32 : Word b → BitVec 32) (v : V) (hv : v.Fits b) (hc : ∀ k ix, v ≠ .ptr k true ix) :
    Answer (IsNaN 11 52 (dec64 (v.enc b)).toNat) (IsNaN 8 23 (dec32 (v.enc b)).toNat) v.kind.ty v.kind.numeric (isNanExt b dec64 dec32 (v.enc b)) := by
  have := classify_spec b dec64 dec32 nan64 nan32 v hv hc
  simpa only [isNanExt, nan64_iff, nan32_iff] using this

/-- C129 for `is-inf`, on every value that is not in the constant heap. -/
theorem C129_is_inf_partial (b : Build) (dec64 : Word b → BitVec 64) (dec32 : Word b → BitVec 32) (v : V) (hv : v.Fits b) (hc : ∀ k ix, v ≠ .ptr k true ix) :
    Answer (IsInf 11 52 (dec64 (v.enc b)).toNat) (IsInf 8 23 (dec32 (v.enc b)).toNat) v.kind.ty v.kind.numeric (isInfExt b dec64 dec32 (v.enc b)) := by
  have := classify_spec b dec64 dec32 inf64 inf32 v hv hc
  simpa only [isInfExt, inf64_iff, inf32_iff] using this

/-- C129 fails for numbers in the constant heap: `is-nan` and `is-inf` answer no for every constant double, whatever its bits. -/
theorem C129_constant_violated (b : Build) (dec64 : Word b → BitVec 64) (dec32 : Word b → BitVec 32) (ix : Nat) (h : ix < 2 ^ indexBits b) :
    (Kind.ptr .double true).ty = .double ∧ isNanExt b dec64 dec32 ((V.ptr .double true ix).enc b) = .no ∧ isInfExt b dec64 dec32 ((V.ptr .double true ix).enc b) = .no := by
  have hv : (V.ptr .double true ix).Fits b := ⟨by cases b <;> rfl, h⟩
  have h1 := (C12_predicates b _ hv).1
  have h2 := (C12_type_of b _ hv).1
  refine ⟨rfl, ?_, ?_⟩ <;>
    (simp only [isNanExt, isInfExt, classify, h1, h2]; cases b <;> simp [V.kind, Kind.numeric, Kind.tag, PtrKind.tag, tDouble, tFloat, constBit])

example : typeOfSym .b32 ((V.ptr .double true 8).enc .b32) = some 0x56 ∧ typeOfSym .b64 ((V.floatu 0x7fc00000).enc .b64) = some 0x53 := by decide +kernel
example : isNanExt .b64 (fun x => x) dec32On64 ((V.floatu 0x7fc00000).enc .b64) = .yes ∧ isNanExt .b64 (fun x => x) dec32On64 ((V.floatu 0x7f800000).enc .b64) = .no ∧
    isInfExt .b64 (fun x => x) dec32On64 ((V.floatu 0xff800000).enc .b64) = .yes ∧ isInfExt .b64 (fun x => x) dec32On64 ((V.int 5).enc .b64) = .no ∧
    isInfExt .b64 (fun x => x) dec32On64 ((V.sym 5).enc .b64) = .terror := by decide +kernel

end Verif.Val
