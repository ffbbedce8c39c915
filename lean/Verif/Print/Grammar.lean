import Verif.Print.Spec
import Verif.Tok.Schedule

/-!
# Specification of program texts

Which sequences of tokens are expressions, and what expression each of them is.  Constant
markers (`@const-start`, `@const-end`) are no part of an expression and may stand anywhere.
Backquoted expressions are left out, see `Verif.QQ` for those.
-/

namespace Verif.Print

open Verif.Tok (Byte Token ascii)
open Verif.Eq (T NTy Val Heap)

/-- An expression.  A symbol that is spelled in the text is given by its name. -/
inductive X where
  | name (s : List Byte)
  | sym (id : Nat)
  | num (t : NTy) (z : Int)
  | bytes (l : List Byte)
  | cons (a d : X)
  deriving DecidableEq

/-- The value an expression stands for, names being looked up in a symbol table. -/
def X.tree (tab : Sym.Tab) : X → T
  | .name s => .sym ((Sym.getByName tab (s.map BitVec.toNat)).getD 0)
  | .sym id => .sym id
  | .num t z => .num t z
  | .bytes l => .bytes l
  | .cons a d => .cons (a.tree tab) (d.tree tab)

/-- All names of an expression are in the symbol table. -/
def X.Known (tab : Sym.Tab) : X → Prop
  | .name s => (Sym.getByName tab (s.map BitVec.toNat)).isSome
  | .cons a d => a.Known tab ∧ d.Known tab
  | _ => True

/-- The value `v` is the expression `x`. -/
def Means (tab : Sym.Tab) (h : Heap) (v : Val) (x : X) : Prop := x.Known tab ∧ Eq.Rep h v (x.tree tab)

/-- A list of expressions that ends with `d`. -/
def listX (xs : List X) (d : X) : X := xs.foldr .cons d

/-- The empty list. -/
def nilX : X := .sym 0

/-- The tokens of the grammar by their numbers. -/
def tOpen : Token := .syntax 1
def tClose : Token := .syntax 2
def tOpenArray : Token := .syntax 3
def tCloseArray : Token := .syntax 4
def tDot : Token := .syntax 5
def tOpenBlock : Token := .syntax 12
def tCloseBlock : Token := .syntax 13

/-- `@const-start` and `@const-end`. -/
def isMark : Token → Bool
  | .syntax 14 => true
  | .syntax 15 => true
  | _ => false

/-- Tokens that are expressions by themselves: strings (with a terminating zero), numbers,
names, characters, `_` and `?`. -/
def leafOf (D : Dev) : Token → Option X
  | .string s => some (.bytes (s ++ [0]))
  | .float ty s => some (.num (if ty = 107 then .float else .double) (D.strtod ty s))
  | .int ty neg v => (tokNTy ty).map fun t => .num t (intVal D.b neg v t)
  | .symbol s => some (.name s)
  | .char c => some (.num .char c.toNat)
  | .syntax 6 => some (.sym 9)
  | .syntax 11 => some (.sym 0x41)
  | _ => none

/-- What `'`, `,@` and `,` put in front of the expression that follows. -/
def prefixOf : Token → Option Nat
  | .syntax 7 => some 0x100
  | .syntax 9 => some 0x74
  | .syntax 10 => some 0x73
  | _ => none

/-- The byte that a number token stands for in an array. -/
def byteTok (D : Dev) (k : Token) : Option Byte :=
  match leafOf D k with
  | some (.num t z) => some (match t with
    | .float | .double => D.toByte t z
    | _ => BitVec.ofInt 8 z)
  | _ => none

/-- What an opening bracket puts at the start of its list: `{` is `(progn`. -/
def opens : Token → Option (List X)
  | .syntax 1 => some []
  | .syntax 12 => some [.sym 0x102]
  | _ => none

/-- `o` and `c` are a pair of brackets; in the loose grammar any opening bracket goes with any
closing one. -/
def Pair (loose : Bool) (o c : Token) : Prop :=
  (o = tOpen ∧ c = tClose) ∨ (o = tOpenBlock ∧ c = tCloseBlock) ∨
  (loose = true ∧ (o = tOpen ∨ o = tOpenBlock) ∧ (c = tClose ∨ c = tCloseBlock))

/-- Closing brackets and dots, and the symbols that the loose grammar takes them for. -/
def strayOf : Token → Option Nat
  | .syntax 2 => some 0x71
  | .syntax 13 => some 0x71
  | .syntax 4 => some 0x81
  | .syntax 5 => some 0x76
  | _ => none

mutual
/-- The tokens are the expression. -/
inductive Expr (D : Dev) (loose : Bool) : List Token → X → Prop
  | leaf {k x} : leafOf D k = some x → Expr D loose [k] x
  /-- `(e ...)` and `{e ...}` -/
  | list {o c ts p xs} : opens o = some p → Pair loose o c → Seq D loose ts xs →
      Expr D loose (o :: ts ++ [c]) (listX (p ++ xs) nilX)
  /-- `(e ... . e)` -/
  | dotted {o c ts ts' p xs x} : opens o = some p → Pair loose o c → Seq D loose ts xs → p ++ xs ≠ [] →
      Item D loose [tCloseArray] ts' x → Expr D loose (o :: ts ++ tDot :: ts' ++ [c]) (listX (p ++ xs) x)
  /-- `[n ...]`: numbers; the array fits into the memory set aside for it -/
  | array {ts l} : ts.map (byteTok D) = l.map some → (l ≠ [] → l.length + 2 ≤ D.room) →
      Expr D loose (tOpenArray :: ts ++ [tCloseArray]) (.bytes l)
  /-- `'e`, `,e` and `,@e` -/
  | quoted {k w ts x} : prefixOf k = some w → Item D loose [tClose, tCloseBlock, tCloseArray, tDot] ts x →
      Expr D loose (k :: ts) (listX [.sym w, x] nilX)
/-- An expression; in the loose grammar also one of the given stray tokens. -/
inductive Item (D : Dev) (loose : Bool) : List Token → List Token → X → Prop
  | expr {l ts x} : Expr D loose ts x → Item D loose l ts x
  | stray {l k w} : loose = true → k ∈ l → strayOf k = some w → Item D loose l [k] (.sym w)
/-- A sequence of expressions. -/
inductive Seq (D : Dev) (loose : Bool) : List Token → List X → Prop
  | nil : Seq D loose [] []
  | cons {ts ts' x xs} : Item D loose [tCloseArray] ts x → Seq D loose ts' xs → Seq D loose (ts ++ ts') (x :: xs)
end

/-- The tokens of a text, without constant markers, and how the text ends: with `finished` unless
some part of it is no token. -/
def Tokens (text : List Byte) (ts : List Token) (o : Tok.Out) : Prop :=
  ∃ raw, Tok.Lexes ⟨cstr text, true, false⟩ raw o ∧ ts = raw.filter (!isMark ·)

end Verif.Print
