import Verif.Lists.Model
import Verif.Eq.Model

/-!
# Model of the set extensions (`src/extensions/set_extensions.c`)

The functions work on the heap of `Verif.Heap`; `struct_eq` is the model of `Verif.Eq`, applied to a view of that heap.

Simplifications: the memory behind boxed numbers and byte arrays, which the set functions do not write, is given by `Mem`; loops take fuel, and running out of it is `none`.
-/

namespace Verif.Set
open Verif.Heap Verif.Env Verif.Lists

/-- The contents of the memory outside of the cells: the number in a block, and the bytes of an array with a given header. -/
structure Mem where
  num : Nat → Int
  bytes : Nat → List (BitVec 8)

/-- The types of numbers in a word, `include/lbm_defines.h:72-77` and `128-135`: 0 is `i`, 1 `u`, 2 `char`, and on 64-bit builds 3 `float`, 4 `i32`, 5 `u32`. -/
def immTy : Nat → Eq.NTy
  | 0 => .i | 1 => .u | 2 => .char | 3 => .float | 4 => .i32 | _ => .u32

/-- The types of pointers, `include/lbm_defines.h:43-64`. -/
def ptrTag : PTy → Eq.Tag
  | .cons => .cons | .i32 => .num .i32 | .u32 => .num .u32 | .i64 => .num .i64 | .u64 => .num .u64 | .float => .num .float | .double => .num .double
  | .array => .array | .lispArray => .lispArray | .channel => .other 0 | .custom => .other 1 | .defragMem => .other 2

/-- A value as `struct_eq` sees it. -/
def tr : Val → Eq.Val
  | .sym id => .sym id
  | .imm t z => .imm (immTy t) z
  | .ptr t k ix => .ptr (ptrTag t) k ix
  | .cont n => .ptr (.other 3) false n

/-- The content of a cell as `struct_eq` sees it. -/
def obj (M : Mem) : Content → Eq.Obj
  | .pair a d => .pair (tr a) (tr d)
  | .boxed a => .num (M.num a)
  | .byteArr h _ => .bytes (M.bytes h)
  | .lispArr _ _ l => .arr (l.map tr)
  | _ => .other

/-- The heap as `struct_eq` sees it. -/
def view (M : Mem) (h : Heap) : Eq.Heap := fun k ix => obj M (if k then h.consts ix else h.cells ix).content

variable (F : Eq.Flt) (M : Mem)

/-- `struct_eq`, `src/fundamental.c:240-280`. -/
def equal (g : Nat) (h : Heap) (a b : Val) : Option Bool := Eq.structEq F (view M h) g (tr a) (tr b)

/-- The loop of `ext_member`, `src/extensions/set_extensions.c:40-46`. -/
def memberLoop (g : Nat) (h : Heap) (set val : Val) : Nat → Val → Option Val
  | 0, _ => none
  | f + 1, curr =>
    if isCons curr then
      (equal F M g h (car h curr) val).bind fun b => if b then some set else memberLoop g h set val f (cdr h curr)
    else some nil

/-- `ext_member`, `src/extensions/set_extensions.c:34-49`, with two arguments. -/
def member (g f : Nat) (h : Heap) (set val : Val) : Option Val :=
  if isList set then memberLoop F M g h set val f set else some (.sym 0x21)

/-- A new last cell, `src/extensions/set_extensions.c:62-70` and `73-79`. `none` if there is no free cell. -/
def addCell (h : Heap) (start last x : Val) : Heap × Option (Val × Val) :=
  let r := cons h x nil
  if r.2 = merror then (r.1, none)
  else if last = nil then (r.1, some (r.2, r.2))
  else ((setCdr r.1 last r.2).1, some (start, r.2))

/-- The loop of `set_insert` and what follows it, `src/extensions/set_extensions.c:56-80`. -/
def insertLoop (g : Nat) (set val : Val) : Nat → Heap → Val → Val → Val → Option (Heap × Val)
  | 0, _, _, _, _ => none
  | f + 1, h, curr, start, last =>
    if isCons curr then
      (equal F M g h (car h curr) val).bind fun b =>
        if b then some (h, set)
        else match addCell h start last (car h curr) with
          | (h', none) => some (h', merror)
          | (h', some (s, l)) => insertLoop g set val f h' (cdr h' curr) s l
    else match addCell h start last val with
      | (h', none) => some (h', merror)
      | (h', some (s, _)) => some (h', s)

/-- `set_insert`, `src/extensions/set_extensions.c:51-81`. -/
def setInsert (g f : Nat) (h : Heap) (set val : Val) : Option (Heap × Val) := insertLoop F M g set val f h set nil nil

/-- `ext_set_insert`, `src/extensions/set_extensions.c:84-90`, with two arguments. -/
def extInsert (g f : Nat) (h : Heap) (set val : Val) : Option (Heap × Val) :=
  if isList set then setInsert F M g f h set val else some (h, .sym 0x21)

/-- The loop of `ext_set_union`, `src/extensions/set_extensions.c:99-104`. -/
def unionLoop (g : Nat) : Nat → Heap → Val → Val → Option (Heap × Val)
  | 0, _, _, _ => none
  | f + 1, h, curr, set =>
    if isCons curr then
      (setInsert F M g f h set (car h curr)).bind fun r => if r.2 = merror then some (r.1, merror) else unionLoop g f r.1 (cdr r.1 curr) r.2
    else some (h, set)

/-- `ext_set_union`, `src/extensions/set_extensions.c:93-107`, with two arguments. -/
def extUnion (g f : Nat) (h : Heap) (a b : Val) : Option (Heap × Val) :=
  if isList a && isList b then unionLoop F M g f h a b else some (h, .sym 0x21)

end Verif.Set
