import Verif.Tok.Model

/-!
# Specification of literals

What the text of a number, a string or a symbol stands for, independently of the
tokenizers.  Only `Byte`, `ascii` and the numbers of the token types are taken
from the model.
-/

namespace Verif.Tok

/-- A character that ends a number or a symbol: not a letter, a digit or one of
`+-*/=<>!?_.`. -/
def Delimiter (c : Byte) : Prop :=
  c ∉ ascii "abcdefghijklmnopqrstuvwxyzABCDEFGHIJKLMNOPQRSTUVWXYZ0123456789+-*/=<>!?_."

instance (c : Byte) : Decidable (Delimiter c) := inferInstanceAs (Decidable (¬ _))

/-! ## Integers -/

/-- Type suffixes of integers. -/
inductive Suffix where
  | none | byte | i | u | i32 | u32 | i64 | u64
  deriving DecidableEq

def Suffix.text : Suffix → List Byte
  | .none => []
  | .byte => ascii "b"
  | .i => ascii "i"
  | .u => ascii "u"
  | .i32 => ascii "i32"
  | .u32 => ascii "u32"
  | .i64 => ascii "i64"
  | .u64 => ascii "u64"

/-- The numbers of the types (tokpar.h:48-58); no suffix is the same as `i`. -/
def Suffix.type : Suffix → Nat
  | .none => 101
  | .byte => 100
  | .i => 101
  | .u => 102
  | .i32 => 103
  | .u32 => 104
  | .i64 => 105
  | .u64 => 106

/-- The value of a digit in a base. -/
def digitValue (base : Nat) (c : Byte) : Option Nat :=
  let lower := if c ∈ ascii "ABCDEF" then c + 32 else c
  match (ascii "0123456789abcdef").idxOf? lower with
  | some v => if v < base then some v else none
  | none => none

/-- An integer literal: sign, `0x` or `0X` or nothing, digits, suffix. -/
structure IntLit where
  neg : Bool
  /-- `none` decimal, `some false` for `0x`, `some true` for `0X` -/
  hex : Option Bool
  digits : List Byte
  suffix : Suffix

def IntLit.base (l : IntLit) : Nat := if l.hex.isSome then 16 else 10

/-- There is at least one digit and all are digits of the base.  After hexadecimal
digits a `b` is one more digit. -/
def IntLit.Ok (l : IntLit) : Prop :=
  l.digits ≠ [] ∧ (∀ c ∈ l.digits, (digitValue l.base c).isSome) ∧ (l.hex.isSome → l.suffix ≠ .byte)

def IntLit.text (l : IntLit) : List Byte :=
  (if l.neg then ascii "-" else []) ++
  (match l.hex with | none => [] | some false => ascii "0x" | some true => ascii "0X") ++
  l.digits ++ l.suffix.text

/-- The positional value of the digits. -/
def positional (base : Nat) (ds : List Byte) : Nat :=
  ds.foldl (fun a c => a * base + (digitValue base c).getD 0) 0

/-- The value. -/
def IntLit.value (l : IntLit) : Int :=
  if l.neg then -(positional l.base l.digits : Int) else positional l.base l.digits

/-! ## Strings -/

/-- A character of a string literal: itself, or after a backslash. -/
inductive Item where
  | raw (c : Byte)
  | esc (c : Byte)
  deriving DecidableEq

/-- A character stands for itself unless it is a quote or a backslash. -/
def Item.Ok : Item → Prop
  | .raw c => c ≠ 34 ∧ c ≠ 92
  | .esc _ => True

instance (i : Item) : Decidable i.Ok := by cases i <;> unfold Item.Ok <;> infer_instance

def Item.text : Item → List Byte
  | .raw c => [c]
  | .esc c => [92, c]

/-- The escapes `\\ \n \r \t \0 \"`; any other escape stands for a backslash. -/
def Item.denotes : Item → Byte
  | .raw c => c
  | .esc c => (([(92, 92), (110, 10), (114, 13), (116, 9), (48, 0), (34, 34)] :
      List (Byte × Byte)).lookup c).getD 92

def strText (is : List Item) : List Byte := [34] ++ is.flatMap Item.text ++ [34]

/-! ## Symbols -/

def symbolStart : List Byte := ascii "abcdefghijklmnopqrstuvwxyzABCDEFGHIJKLMNOPQRSTUVWXYZ+-*/=<>#!"
def symbolRest : List Byte :=
  ascii "abcdefghijklmnopqrstuvwxyzABCDEFGHIJKLMNOPQRSTUVWXYZ0123456789+-*/=<>!?_"
/-- Upper case letters become lower case. -/
def lowerCase (c : Byte) : Byte :=
  if c ∈ ascii "ABCDEFGHIJKLMNOPQRSTUVWXYZ" then c + 32 else c

end Verif.Tok
