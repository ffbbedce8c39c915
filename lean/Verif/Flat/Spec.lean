import Verif.Flat.Model
import Verif.Val.Spec

/-!
# Specification of the flat value format

`ser` is the wire format, written down independently of the writer: a tag byte
followed by the payload in big-endian order.
-/

namespace Verif.Flat

open Verif.Val (Build payload)

/-- `n` in big-endian base 256, `k` digits. -/
def bigEndian : (k n : Nat) → List Byte
  | 0, _ => []
  | k + 1, n => BitVec.ofNat 8 (n / 256 ^ k) :: bigEndian k n

/-- The values that can be serialised by build `b` with symbol table `syms`,
with nesting depth at most the index: every symbol has a name that interns back
to it, numbers fit their types, arrays are not empty, and there are no
channels, custom values or freed arrays. -/
inductive Serialisable (b : Build) (syms : Syms) : Nat → FV → Prop where
  | cons {n a d} : Serialisable b syms n a → Serialisable b syms n d →
      Serialisable b syms (n + 1) (.cons a d)
  | lispArray {n es} : es ≠ [] → es.length < 2 ^ 30 →
      (∀ e ∈ es, Serialisable b syms n e) → Serialisable b syms (n + 1) (.lispArray es)
  | sym {n id s} : syms.nameOf id = some s → (0 : Byte) ∉ s → syms.intern s = some id →
      Serialisable b syms n (.sym id)
  | byte {n c} : Serialisable b syms n (.byte c)
  | int {n z} : -(2 ^ (payload b - 1)) ≤ z → z < 2 ^ (payload b - 1) →
      Serialisable b syms n (.int z)
  | uint {n m} : m < 2 ^ payload b → Serialisable b syms n (.uint m)
  | i32 {n x} : Serialisable b syms n (.i32 x)
  | u32 {n x} : Serialisable b syms n (.u32 x)
  | float {n x} : Serialisable b syms n (.float x)
  | i64 {n x} : Serialisable b syms n (.i64 x)
  | u64 {n x} : Serialisable b syms n (.u64 x)
  | double {n x} : Serialisable b syms n (.double x)
  | array {n bs} : bs ≠ [] → bs.length < 2 ^ 32 → Serialisable b syms n (.array bs)

/-- The wire format of build `b`. -/
def ser (b : Build) (syms : Syms) : FV → List Byte
  | .cons a d => 0x01 :: (ser b syms a ++ ser b syms d)
  | .lispArray es => 0x1F :: (bigEndian 4 es.length ++ serElems es)
  | .sym id => match syms.nameOf id with
    | some s => 0x03 :: (s ++ [0])
    | none => []
  | .byte c => [0x04, c]
  | .int z => match b with
    | .b32 => 0x05 :: bigEndian 4 (z % 2 ^ 32).toNat
    | .b64 => 0x0E :: bigEndian 8 (z % 2 ^ 64).toNat
  | .uint n => match b with
    | .b32 => 0x06 :: bigEndian 4 n
    | .b64 => 0x0F :: bigEndian 8 n
  | .i32 x => 0x07 :: bigEndian 4 x.toNat
  | .u32 x => 0x08 :: bigEndian 4 x.toNat
  | .float x => 0x09 :: bigEndian 4 x.toNat
  | .i64 x => 0x0A :: bigEndian 8 x.toNat
  | .u64 x => 0x0B :: bigEndian 8 x.toNat
  | .double x => 0x0C :: bigEndian 8 x.toNat
  | .array bs => 0x0D :: (bigEndian 4 bs.length ++ bs)
  | .freedArray => []
  | .other => []
where
  serElems : List FV → List Byte
  | [] => []
  | e :: es => ser b syms e ++ serElems es

/-- What a value written by build `b` means on build `b'`: the 56-bit integers
of a 64-bit build become boxed 64-bit integers on a 32-bit build; everything
else is the same value. -/
def portable (b b' : Build) : FV → FV
  | .cons a d => .cons (portable b b' a) (portable b b' d)
  | .lispArray es => .lispArray (elems es)
  | .int z => match b, b' with
    | .b64, .b32 => .i64 (BitVec.ofInt 64 z)
    | _, _ => .int z
  | .uint n => match b, b' with
    | .b64, .b32 => .u64 (BitVec.ofNat 64 n)
    | _, _ => .uint n
  | v => v
where
  elems : List FV → List FV
  | [] => []
  | e :: es => portable b b' e :: elems es

/-- Number of nodes of a value; no node needs more than one allocation to build. -/
def nodes : FV → Nat
  | .cons a d => 1 + nodes a + nodes d
  | .lispArray es => 1 + nodesElems es
  | _ => 1
where
  nodesElems : List FV → Nat
  | [] => 0
  | e :: es => nodes e + nodesElems es

/-- A buffer whose declared lengths stay inside it: wherever the byte of an
array tag occurs, the length that follows fits what remains; wherever the tag of
a symbol name occurs a 0 follows; and lisp array counts fit the build, with
enough memory for the arrays. -/
def Framed (b : Build) (budget : Nat) (buf : List Byte) : Prop :=
  ∀ pre t rest, buf = pre ++ t :: rest →
    (t = 0x0D → ∀ n r, extractWord rest = some (n, r) → n.toNat ≤ r.length) ∧
    (t = 0x03 → (0 : Byte) ∈ rest) ∧
    (t = 0x1F → buf.length ≤ budget ∧
      ∀ n r, extractWord rest = some (n, r) → b = .b32 → n.toNat < 2 ^ 30)

end Verif.Flat
