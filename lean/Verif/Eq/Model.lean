/-
Model of structural equality and of the association list look-ups built on it
(`struct_eq`, `fundamental_eq`, `assoc_lookup`, `cossa_lookup`, src/fundamental.c).

Simplifications:
* A value is an inductive type instead of a tagged word.  A number is held directly
  (`imm`) or in a cell (`ptr (.num t) …`), according to its type and the build; `z` is
  the integer, or the bit pattern of a floating point number.
* `lbm_type_of_functional` clears the bit that marks pointers into the constant heap
  (include/heap.h:805-808): here the flag `k` of a pointer, which the tag ignores.
* Memory of an array is stored in the object; a null array header is the outcome `none`
  (undefined behaviour), and so is a cell that does not fit the type of the pointer.
* The recursion of C uses the C stack, which the model does not bound; it takes
  fuel instead, and running out of fuel is `none` as well.
-/

namespace Verif.Eq

/-- Number types. -/
inductive NTy where
  | char | i | u | i32 | u32 | float | i64 | u64 | double
  deriving DecidableEq, Repr

/-- What `lbm_type_of_functional` distinguishes.  `other` are channels, custom types, defragmentable
memories and anything else. -/
inductive Tag where
  | sym | num (t : NTy) | cons | array | lispArray | other (n : Nat)
  deriving DecidableEq, Repr

inductive Val where
  | sym (id : Nat)
  | imm (t : NTy) (z : Int)
  | ptr (t : Tag) (k : Bool) (ix : Nat)
  deriving DecidableEq, Repr

/-- `lbm_type_of_functional`, include/heap.h:805-808. -/
def Val.tag : Val → Tag
  | .sym _ => .sym
  | .imm t _ => .num t
  | .ptr t _ _ => t

/-- What a cell holds. -/
inductive Obj where
  | pair (a d : Val)
  | num (z : Int)
  | bytes (l : List (BitVec 8))
  | arr (l : List Val)
  | other

/-- The two heaps (RAM and constant). -/
abbrev Heap := Bool → Nat → Obj

/-- Comparison of floating point numbers given by their bits: C's `==` (IEEE-754; opaque). -/
structure Flt where
  eq32 : Int → Int → Bool
  eq64 : Int → Int → Bool

variable (F : Flt) (H : Heap)

/-- Decoding a number (`lbm_dec_i`, … `lbm_dec_double`). -/
def numOf : Val → Option Int
  | .imm _ z => some z
  | .ptr _ k ix => match H k ix with
    | .num z => some z
    | _ => none
  | _ => none

/-- `==` at a number type. -/
def numEq (t : NTy) (x y : Int) : Bool :=
  match t with
  | .float => F.eq32 x y
  | .double => F.eq64 x y
  | _ => x == y

/-- `lbm_car` and `lbm_cdr` of a cons. -/
def pairOf : Val → Option (Val × Val)
  | .ptr _ k ix => match H k ix with
    | .pair a d => some (a, d)
    | _ => none
  | _ => none

/-- The array header of a byte array. -/
def bytesOf : Val → Option (List (BitVec 8))
  | .ptr _ k ix => match H k ix with
    | .bytes l => some l
    | _ => none
  | _ => none

/-- The array header of a lisp array. -/
def elemsOf : Val → Option (List Val)
  | .ptr _ k ix => match H k ix with
    | .arr l => some l
    | _ => none
  | _ => none

/-- The loop of `array_struct_equality` (fundamental.c:232-235): stops at the first difference. -/
def arrLoop (eq : Val → Val → Option Bool) : List Val → List Val → Option Bool
  | x :: xs, y :: ys =>
    match eq x y with
    | some true => arrLoop eq xs ys
    | r => r
  | _, _ => some true

/-- `struct_eq` (fundamental.c:240-280) with `bytearray_equality` (209-222) and
`array_struct_equality` (225-238). -/
def structEq : Nat → Val → Val → Option Bool
  | 0, _, _ => none
  | f + 1, a, c =>
    if a.tag = c.tag then
      match a.tag with
      | .sym =>
        match a, c with
        | .sym x, .sym y => some (x == y)
        | _, _ => none
      | .num t =>
        match numOf H a, numOf H c with
        | some x, some y => some (numEq F t x y)
        | _, _ => none
      | .cons =>
        match pairOf H a, pairOf H c with
        | some p, some q =>
          match structEq f p.1 q.1 with
          | some true => structEq f p.2 q.2
          | r => r
        | _, _ => none
      | .array =>
        match bytesOf H a, bytesOf H c with
        | some l, some m => some (l.length == m.length && l == m)
        | _, _ => none
      | .lispArray =>
        match elemsOf H a, elemsOf H c with
        | some l, some m =>
          if l.length = m.length then arrLoop (structEq f) l m else some false
        | _, _ => none
      | .other _ => some false
    else some false

/-- The loop of `fundamental_eq` (fundamental.c:475-487): compares the first argument with
every other, until one differs. -/
def eqLoop (f : Nat) (a : Val) : List Val → Option Bool
  | [] => some true
  | c :: cs =>
    match structEq F H f a c with
    | some true => eqLoop f a cs
    | r => r

/-- `fundamental_eq` (fundamental.c:475-487).  Without arguments it is given a word beyond its
arguments but does not look at it. -/
def fEq (f : Nat) : List Val → Option Bool
  | [] => some true
  | a :: cs => eqLoop F H f a cs

def symNIL : Nat := 0
def symEERROR : Nat := 0x22
def symNoMatch : Nat := 0x40

/-- `assoc_lookup` (fundamental.c:315-333).  The outer fuel is for the list, `f` for comparisons. -/
def assocLookup (f : Nat) (key : Val) : Nat → Val → Option Val
  | 0, _ => none
  | n + 1, curr =>
    if curr.tag = .cons then
      match pairOf H curr with
      | none => none
      | some (c, d) =>
        if c.tag = .cons then
          match pairOf H c with
          | none => none
          | some (k, v) =>
            match structEq F H f k key with
            | none => none
            | some true => some v
            | some false => assocLookup f key n d
        else some (.sym symEERROR)
    else some (.sym symNoMatch)

/-- `cossa_lookup` (fundamental.c:335-350): looks for the second component. -/
def cossaLookup (f : Nat) (key : Val) : Nat → Val → Option Val
  | 0, _ => none
  | n + 1, curr =>
    if curr.tag = .cons then
      match pairOf H curr with
      | none => none
      | some (c, d) =>
        if c.tag = .cons then
          match pairOf H c with
          | none => none
          | some (k, v) =>
            match structEq F H f v key with
            | none => none
            | some true => some k
            | some false => cossaLookup f key n d
        else some (.sym symEERROR)
    else some (.sym symNoMatch)

/-- `fundamental_assoc` (fundamental.c:888-906) with two arguments, and `fundamental_cossa`
(939-957), which differ in the look-up only. -/
def fLookup (lookup : Val → Val → Option Val) (alist key : Val) : Option Val :=
  if alist.tag = .cons then
    (lookup key alist).map fun r => if r = .sym symNoMatch then .sym symNIL else r
  else if alist = .sym symNIL then some alist
  else some (.sym symEERROR)

def fAssoc (f n : Nat) (alist key : Val) : Option Val :=
  fLookup (fun key alist => assocLookup F H f key n alist) alist key

def fCossa (f n : Nat) (alist key : Val) : Option Val :=
  fLookup (fun key alist => cossaLookup F H f key n alist) alist key

end Verif.Eq
