import Verif.Str.Model

/-!
# Specification vocabulary for the string extensions
-/

namespace Verif.Str

open Verif.Val (Build payload)
open Verif.Arith (Num V FOps symMERROR)

/-- The text in a byte array: the bytes before the first zero, all of them if there is none. -/
def text (d : List Byte) : List Byte := d.takeWhile (· ≠ 0)

/-- A value that is an integer, of any of the integer types. -/
def IsInt {b : Build} (a : Arg b) (z : Int) : Prop := ∃ n : Num b, a = .v (.num n) ∧ n.ty.int = true ∧ n.val = z

/-- A value that is an integer of type `i`. -/
def IsI {b : Build} (a : Arg b) (z : Int) : Prop := ∃ n : Num b, a = .v (.num n) ∧ n.ty = .i ∧ n.val = z

/-- The list of some values. -/
def listOf {b : Build} : List (Arg b) → Arg b
  | [] => nil
  | a :: t => .cons a (listOf t)

/-- A list of some values that ends in `tail`. -/
def listTo {b : Build} : List (Arg b) → Arg b → Arg b
  | [], tail => tail
  | a :: t, tail => .cons a (listTo t tail)

/-- The byte array of a text. -/
def str {b : Build} (t : List Byte) : Arg b := .arr (t ++ [0])

/-- `r` is the text `t` in an array of its own that is just large enough; if there is no memory for
that array, it is the memory error. -/
def Gives {b : Build} {S : Type} (A : Alloc S) (s : S) (t : List Byte) (r : Option (Arg b)) : Prop :=
  r = some (if (A.arr s (t.length + 1)).isSome then str t else .v (.sym symMERROR))

/-- Every byte array in a value contains a zero, that is, all of them are C strings. -/
def Terminated {b : Build} : Arg b → Prop
  | .v _ => True
  | .arr d => 0 ∈ d
  | .cons a d => Terminated a ∧ Terminated d

/-- Every byte array in a value has at most `n` bytes. -/
def Sized {b : Build} (n : Nat) : Arg b → Prop
  | .v _ => True
  | .arr d => d.length ≤ n
  | .cons a d => Sized n a ∧ Sized n d

/-- Allocation does not fail. -/
def Alloc.Enough {S : Type} (A : Alloc S) : Prop := ∀ s n, (A.arr s n).isSome ∧ (A.cell s).isSome

/-- `pieces` are what is left of `t` when the bytes of `seps` are taken out: nonempty runs of other
bytes, as long as possible. -/
inductive Splits (seps : List Byte) : List Byte → List (List Byte) → Prop
  | none {g : List Byte} (hg : ∀ x ∈ g, x ∈ seps) : Splits seps g []
  | piece {g p t : List Byte} {ps : List (List Byte)} (hg : ∀ x ∈ g, x ∈ seps) (hp : ∀ x ∈ p, x ∉ seps) (h1 : p ≠ [])
      (ht : ∀ x, t.head? = some x → x ∈ seps) (h : Splits seps t ps) : Splits seps (g ++ p ++ t) (p :: ps)

/-- `pat` occurs in `t` at index `i`. -/
def At (pat t : List Byte) (i : Nat) : Prop := pat <+: t.drop i

/-- `r` is `t` with the occurrences of `pat` replaced by `by`, from left to right. -/
inductive Replaced (pat rep : List Byte) : List Byte → List Byte → Prop
  | none {t : List Byte} (h : ∀ i, ¬ At pat t i) : Replaced pat rep t t
  | first {a t r : List Byte} (h : ∀ i, i < a.length → ¬ At pat (a ++ pat ++ t) i) (h' : Replaced pat rep t r) :
      Replaced pat rep (a ++ pat ++ t) (a ++ rep ++ r)

/-- The capital of an ASCII letter. -/
def upper (x : Byte) : Byte := if 'a'.toNat ≤ x.toNat ∧ x.toNat ≤ 'z'.toNat then BitVec.ofNat 8 (x.toNat - 'a'.toNat + 'A'.toNat) else x
def lower (x : Byte) : Byte := if 'A'.toNat ≤ x.toNat ∧ x.toNat ≤ 'Z'.toNat then BitVec.ofNat 8 (x.toNat - 'A'.toNat + 'a'.toNat) else x

/-- The byte array `sub` stands for its bytes without the last one, the terminator; they occur in `d` at
index `i`, letter case being ignored if `nocase`.  An array without bytes does not occur. -/
def Hit (nocase : Bool) (d sub : List Byte) (i : Nat) : Prop :=
  sub ≠ [] ∧ i + sub.dropLast.length ≤ d.length ∧
    if nocase then ((d.drop i).take sub.dropLast.length).map lower = sub.dropLast.map lower
    else (d.drop i).take sub.dropLast.length = sub.dropLast

instance (nocase : Bool) (d sub : List Byte) (i : Nat) : Decidable (Hit nocase d sub i) := by unfold Hit; infer_instance

/-- The occurrences of some arrays at some indexes, in the order of the indexes: an index for each array
that occurs there. -/
def hits (nocase : Bool) (d : List Byte) (subs : List (List Byte)) (is : List Nat) : List Nat :=
  is.flatMap fun i => (subs.filter fun sub => Hit nocase d sub i).map fun _ => i

/-- The element number `k`, or -1. -/
def nth (l : List Nat) (k : Nat) : Int := match l[k]? with
  | some i => i
  | none => -1

/-- Where a search in an array of `size` bytes starts if the number `z` is given: a negative number
counts from the terminator. -/
def startAt (size : Nat) (z : Int) : Int := if z < 0 then (size : Int) - 1 + z else z

/-- The integers among the optional arguments, the others being symbols. -/
inductive HasInts {b : Build} : List (Arg b) → List Int → Prop
  | nil : HasInts [] []
  | int {a : Arg b} {t : List (Arg b)} {z : Int} {zs : List Int} (h : IsInt a z) (h1 : -2 ^ 31 ≤ z) (h2 : z < 2 ^ 31) (ht : HasInts t zs) : HasInts (a :: t) (z :: zs)
  | sym {n : Nat} {t : List (Arg b)} {zs : List Int} (ht : HasInts t zs) : HasInts (.v (.sym n) :: t) zs

/-- Is the symbol among the optional arguments? -/
def hasSym {b : Build} (n : Nat) (rest : List (Arg b)) : Bool := rest.any fun
  | .v (.sym m) => decide (m = n)
  | _ => false

/-- An allocator for examples: an array or a cell takes one of `n` units. -/
def units : Alloc Nat where
  arr s _ := if s = 0 then none else some (s - 1)
  cell s := if s = 0 then none else some (s - 1)
  needs := by intro s n h; split at h <;> simp_all

/-- ASCII text. -/
def ascii (s : String) : List Byte := s.toList.map fun c => BitVec.ofNat 8 c.toNat

/-- The texts with the separator between them. -/
def joined (sep : List Byte) (ds : List (List Byte)) : List Byte := List.intercalate sep (ds.map text)

/-- The pieces: all of them nonempty and not longer than `n`, all but the last of length `n`. -/
def Chunks (n : Nat) (t : List Byte) (ps : List (List Byte)) : Prop :=
  ps.flatten = t ∧ (∀ p ∈ ps, 1 ≤ p.length ∧ p.length ≤ n) ∧ ∀ p ∈ ps.dropLast, p.length = n

/-- The step that the number stands for. -/
def stepOf (z : Int) : Nat := (max z 1).toNat

/-- The sign of a comparison. -/
def Compares (z : Int) (x y : List Byte) : Prop := (z = 0 ↔ x = y) ∧ (z < 0 ↔ x < y) ∧ (0 < z ↔ y < x)

/-- The indexes below `k`, the greatest first. -/
def down (k : Nat) : List Nat := (List.range k).reverse

/-- What the options select: the indexes to look at, in order. -/
def order (left : Bool) (size : Nat) (start : Option Int) : List Nat :=
  if left then down (startAt size (start.getD size) + 1).toNat
  else List.range' (startAt size (start.getD 0)).toNat (size + 1 - (startAt size (start.getD 0)).toNat)

/-- The decimal text of an integer. -/
def decimal (z : Int) : List Byte := ascii (toString z)

end Verif.Str
