import Verif.Print.Model
import Verif.Eq.Spec
import Verif.Tok.StrLit

/-!
# Specification of printed texts

What the text of a value is, and which values can be read back.  A value is a finite
tree (`Verif.Eq.T`, `Verif.Eq.Rep`).
-/

namespace Verif.Print

open Verif.Tok (Byte ascii)
open Verif.Eq (T NTy)

/-- The decimal digits of a number. -/
def digits10 (n : Nat) : List Byte := ascii (Nat.repr n)

/-- The text of an integer: sign, digits, the suffix of its type. -/
def intLiteral (t : NTy) (z : Int) : List Byte :=
  (if z < 0 then ascii "-" else []) ++ digits10 z.natAbs ++
  (match t with
    | .char => ascii "b" | .i => [] | .u => ascii "u" | .i32 => ascii "i32" | .u32 => ascii "u32"
    | .i64 => ascii "i64" | .u64 => ascii "u64" | .float => [] | .double => [])

/-- A string: a terminating zero, before it at least one character, all printable or between
backspace and carriage return. -/
def StringData (l s : List Byte) : Prop :=
  l = s ++ [0] ∧ s ≠ [] ∧ ∀ c ∈ s, (32 ≤ c.toNat ∧ c.toNat ≤ 126) ∨ (8 ≤ c.toNat ∧ c.toNat ≤ 13)

/-- A character of a string in its text. -/
def charText (c : Byte) : List Byte :=
  if c = 34 then ascii "\\\"" else if c = 10 then ascii "\\n" else if c = 13 then ascii "\\r"
  else if c = 9 then ascii "\\t" else if c = 92 then ascii "\\\\" else [c]

/-- The text of a string. -/
def stringText (s : List Byte) : List Byte := ascii "\"" ++ s.flatMap charText ++ ascii "\""

/-- The text of a byte array: its bytes with spaces between them. -/
def arrayText (l : List Byte) : List Byte :=
  ascii "[" ++ ((l.map fun c => digits10 c.toNat).intersperse (ascii " ")).flatten ++ ascii "]"

instance (l s : List Byte) : Decidable (StringData l s) := by unfold StringData; infer_instance

/-- The text of a byte array: a string if it is the data of one. -/
def bytesText (l : List Byte) : List Byte :=
  if StringData l l.dropLast then stringText l.dropLast else arrayText l

/-- The text of an atom. -/
def atomText (tab : Sym.Tab) : T → List Byte
  | .sym id => nameBytes ((Sym.getName tab id).getD [])
  | .num t z => intLiteral t z
  | .bytes l => bytesText l
  | _ => []

/-- The text of a value: `txt false t` on its own, `txt true t` as the rest of a list. -/
def txt (tab : Sym.Tab) : Bool → T → List Byte
  | tail, .cons a d => ascii (if tail then " " else "(") ++ txt tab false a ++ txt tab true d
  | true, .sym 0 => ascii ")"
  | true, t => ascii " . " ++ atomText tab t ++ ascii ")"
  | false, t => atomText tab t

/-- How deep lists are nested in their elements. -/
def depth : T → Nat
  | .cons a d => max (depth a + 1) (depth d)
  | _ => 0

/-- Bits of an `i` or `u` value: 28 or 56. -/
def bits : Verif.Val.Build → Nat
  | .b32 => 28
  | .b64 => 56

/-- The range of an integer type. -/
def InRange (b : Verif.Val.Build) : NTy → Int → Prop
  | .char, z => 0 ≤ z ∧ z < 2 ^ 8
  | .i, z => -2 ^ (bits b - 1) ≤ z ∧ z < 2 ^ (bits b - 1)
  | .u, z => 0 ≤ z ∧ z < 2 ^ bits b
  | .i32, z => -2 ^ 31 ≤ z ∧ z < 2 ^ 31
  | .u32, z => 0 ≤ z ∧ z < 2 ^ 32
  | .i64, z => -2 ^ 63 ≤ z ∧ z < 2 ^ 63
  | .u64, z => 0 ≤ z ∧ z < 2 ^ 64
  | .float, _ => False
  | .double, _ => False

/-- Printing the array looks at index -1 of its data: there is no printable (or white space)
character at the start, and it has not exactly one byte. -/
def LooksBack (l : List Byte) : Prop :=
  l.length ≠ 1 ∧ ∀ c, l.head? = some c →
    ¬ ((32 ≤ c.toNat ∧ c.toNat ≤ 126) ∨ (8 ≤ c.toNat ∧ c.toNat ≤ 13))

/-- A name that is read as a symbol of that name: no upper case letters, and the text of
a symbol, or one of the two symbols that are tokens of their own. -/
def ReadableName (n : List Byte) : Prop :=
  (Tok.SymbolText n ∧ n.length ≤ 255 ∧ n.map Tok.lowerCase = n) ∨ n = ascii "_" ∨ n = ascii "?"

/-- Integers in range, symbols with a printable name, byte arrays, lists of them. -/
def Printable (D : Dev) (tab : Sym.Tab) : T → Prop
  | .sym id => ∃ n, Sym.getName tab id = some n ∧ n ≠ []
  | .num t z => InRange D.b t z
  | .bytes l => LooksBack l → D.stray.isSome
  | .cons a d => Printable D tab a ∧ Printable D tab d
  | .arr _ => False
  | .obj _ => False

/-- Values that can be read back: names must be those of symbols, strings have at most 256
characters, and other byte arrays fit into the memory that the reader sets aside. -/
def Readable (D : Dev) (tab : Sym.Tab) : T → Prop
  | .sym id => ∃ n, Sym.getName tab id = some n ∧ (∀ c ∈ n, c < 256) ∧ ReadableName (nameBytes n)
  | .num _ _ => True
  | .bytes l => (StringData l l.dropLast → l.length ≤ 257) ∧
      (¬ StringData l l.dropLast → l.length + 2 ≤ D.room)
  | .cons a d => Readable D tab a ∧ Readable D tab d
  | .arr _ => True
  | .obj _ => True

end Verif.Print
