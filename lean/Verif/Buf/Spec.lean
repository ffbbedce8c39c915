import Verif.Buf.Model

/-!
# Specification vocabulary for byte buffers
-/

namespace Verif.Buf

open Verif.Val (Build payload)
open Verif.Arith (Num V FOps Is wrap)

/-- Signed element types. -/
def Elem.signed : Elem → Bool
  | .i8 | .i16 | .i32 => true
  | _ => false

/-- The width in bytes. -/
def Elem.width : Elem → Nat
  | .i8 | .u8 => 1
  | .i16 | .u16 => 2
  | .u24 => 3
  | .i32 | .u32 => 4

/-- An integer reduced to the width of an element. -/
def Elem.wrap (e : Elem) (z : Int) : Int :=
  if e.signed then Int.bmod z (2 ^ (8 * e.width)) else z % 2 ^ (8 * e.width)

/-- The `k`-th byte of an integer, the least significant is number 0. -/
def byteZ (z : Int) (k : Nat) : Byte := BitVec.ofInt 8 (z / 256 ^ k)

/-- At `idx` the buffer holds the low `n` bytes of `z`, the most significant one first if `be`. -/
def Holds (d : List Byte) (idx n : Nat) (be : Bool) (z : Int) : Prop :=
  ∀ k, k < n → d[idx + k]? = some (byteZ z (if be then n - 1 - k else k))

/-- `d'` is `d` except for the `n` bytes at `idx`. -/
def SameElse (d d' : List Byte) (idx n : Nat) : Prop :=
  d'.length = d.length ∧ ∀ j, j < idx ∨ idx + n ≤ j → d'[j]? = d[j]?

/-- The optional last argument that selects the byte order: big endian unless it is the symbol `little-endian`, whose id is `le`. -/
def Order {b : Build} (le : Nat) (l : List (Arg b)) (be : Bool) : Prop :=
  (l = [] ∧ be = true) ∨ (∃ a, l = [a] ∧ (a = .v (.sym le) ↔ be = false))

/-- What `bufget` returns for the integer `z`: an integer of type `i` (of type `u32` for `u32` elements) with the value of `z` reduced to the width of
the element. -/
def Reads {b : Build} (e : Elem) (z : Int) (r : V b) : Prop :=
  ∃ n : Num b, r = .num n ∧ n.val = e.wrap z ∧ n.ty = if e = .u32 then .u32 else .i

/-- Only the array `id` is different. -/
def OnlyArr (m m' : Mem) (id : Nat) : Prop := ∀ i, i ≠ id → m' i = m i

/-- `d'` is `d` with the `n` bytes at `idx` replaced by `c`. -/
def Filled (d d' : List Byte) (idx n : Nat) (c : Byte) : Prop := SameElse d d' idx n ∧ ∀ k, k < n → d'[idx + k]? = some c

/-- `d'` is `d` with the `n` bytes at `i` replaced by the `n` bytes of `s` at `j`. -/
def Copied (d d' : List Byte) (i : Nat) (s : List Byte) (j n : Nat) : Prop := SameElse d d' i n ∧ ∀ k, k < n → d'[i + k]? = s[j + k]?

/-- Bit `p` of a buffer; the least significant bit of the first byte is number 0. -/
def bitOf (d : List Byte) (p : Nat) : Option Bool := (d[p / 8]?).map fun x => x.getLsbD (p % 8)

/-- How C reads an integer argument that is used as an offset or a length. -/
def asOffset (z : Int) : Nat := (z % 2 ^ 32).toNat

/-- The optional arguments of `bufclear`, all of them integers: the byte (0 by default), the first index and the length. -/
inductive ClearArgs {b : Build} : List (Arg b) → Int → Option Int → Option Int → Prop
  | none : ClearArgs [] 0 .none .none
  | byte {c : Num b} (hc : c.ty.int = true) : ClearArgs [.v (.num c)] c.val .none .none
  | start {c s : Num b} (hc : c.ty.int = true) (hs : s.ty.int = true) : ClearArgs [.v (.num c), .v (.num s)] c.val (some s.val) .none
  | len {c s l : Num b} (hc : c.ty.int = true) (hs : s.ty.int = true) (hl : l.ty.int = true) :
      ClearArgs [.v (.num c), .v (.num s), .v (.num l)] c.val (some s.val) (some l.val)

/-- The same arrays, with the same sizes. -/
def SameSizes (m m' : Mem) : Prop := ∀ i, (m' i).map List.length = (m i).map List.length

/-- A floating point unit for examples. -/
def noFp : FOps where
  add32 x _ := x
  sub32 x _ := x
  mul32 x _ := x
  div32 x _ := x
  mod32 x _ := x
  lt32 _ _ := false
  zero32 _ := false
  tr32 _ := 0
  of32 _ := 0
  narrow _ := 0
  add64 x _ := x
  sub64 x _ := x
  mul64 x _ := x
  div64 x _ := x
  mod64 x _ := x
  lt64 _ _ := false
  zero64 _ := false
  tr64 _ := 0
  of64 _ := 0
  widen _ := 0

end Verif.Buf
