import Verif.Env.Model

/-
Model of the list operations of `src/heap.c`, `src/fundamental.c` and `src/eval_cps.c`
over the cons heap of `Verif.Heap.Model` (with `car`, `cdr`, `cons` of `Verif.Env.Model`).

Simplifications:
* Integer arguments are given as the `int32_t` they are decoded to (`lbm_dec_as_i32`, see `Verif.Arith`).
* The evaluator runs the collector and repeats an operation that returns an out of memory error
  (`src/eval_cps.c:150-172`); the model is one attempt.  `apply_reverse` and `apply_rotate` collect in
  the middle of their work; here they fail instead.
* `none` is undefined behaviour (or no more fuel, for loops that follow pointers).
-/

namespace Verif.Lists
open Verif.Heap Verif.Env

/-- `lbm_is_list`, `include/heap.h:940-942`. -/
def isList (v : Val) : Bool := isCons v || v == nil

/-- `lbm_is_list_rw`, `include/heap.h:944-946`. -/
def isListRW (v : Val) : Bool := isConsRW v || v == nil

/-- The loop of `lbm_index_list`, `src/heap.c:1186-1195`. -/
def idxLoop (h : Heap) : Nat → Val → Val
  | 0, c => if isCons c then car h c else nil
  | n + 1, c => if isCons c then idxLoop h n (cdr h c) else nil

/-- `lbm_index_list`, `src/heap.c:1177-1196`. -/
def indexList (f : Nat) (h : Heap) (l : Val) (n : Int) : Option Val :=
  if n < 0 then
    (listLength h f l).map fun len =>
      if (len : Int) + n < 0 then nil else idxLoop h ((len : Int) + n).toNat l
  else some (idxLoop h n.toNat l)

/-- `lbm_list_drop`, `src/heap.c:1167-1175`. -/
def listDrop (h : Heap) : Nat → Val → Val
  | 0, c => c
  | n + 1, c => if isCons c then listDrop h n (cdr h c) else c

/-- The loop of `lbm_list_copy`, `src/heap.c:1139-1145`. -/
def copyTo : Nat → Heap → Val → Val → Heap
  | 0, h, _, _ => h
  | n + 1, h, targ, curr =>
    if isCons curr then
      let h1 := (setCar h targ (car h curr)).1
      copyTo n h1 (cdr h1 targ) (cdr h1 curr)
    else h

/-- `lbm_list_copy`, `src/heap.c:1124-1148`.  Returns the list and the updated `*m`. -/
def listCopy (f : Nat) (h : Heap) (m : Int) (l : Val) : Option (Heap × Val × Int) :=
  match listLength h f l with
  | none => none
  | some n =>
    let copyN := if 0 ≤ m ∧ m < n then m.toNat else n
    let m' := if 0 ≤ m ∧ m < n then m else if m = -1 then (n : Int) else m
    if copyN = 0 then some (h, nil, m')
    else
      match allocateList h copyN with
      | none => none
      | some (h1, v) =>
        if isSymbol v then some (h1, v, m')
        else some (copyTo copyN h1 v l, v, m')

/-- The loop of `lbm_list_destructive_reverse`, `src/heap.c:1114-1119`. -/
def revLoop : Nat → Heap → Val → Val → Option (Heap × Val)
  | 0, _, _, _ => none
  | f + 1, h, curr, last =>
    if isConsRW curr then revLoop f (setCdr h curr last).1 (cdr h curr) curr
    else some (h, last)

/-- `lbm_list_destructive_reverse`, `src/heap.c:1107-1121`. -/
def destructiveReverse (f : Nat) (h : Heap) (l : Val) : Option (Heap × Val) :=
  if isSymbol l then some (h, l) else revLoop f h l nil

/-- The loop of `lbm_list_reverse`, `src/heap.c:1096-1103`, and of `apply_reverse`,
`src/eval_cps.c:2686-2691`. -/
def reverseLoop : Nat → Heap → Val → Val → Option (Heap × Val)
  | 0, _, _, _ => none
  | f + 1, h, curr, acc =>
    if isCons curr then
      let r := cons h (car h curr) acc
      if isSymbol r.2 then some (r.1, merror) else reverseLoop f r.1 (cdr r.1 curr) r.2
    else some (h, acc)

/-- `(reverse l)`: `apply_reverse`, `src/eval_cps.c:2681-2700`. The error symbol is `EERROR`. -/
def fReverse (f : Nat) (h : Heap) (l : Val) : Option (Heap × Val) :=
  if isList l then reverseLoop f h l nil else some (h, .sym 0x22)

/-- The inner loop of `fundamental_append`, `src/fundamental.c:718-720`: element `j-1` down to 0. -/
def appendOne (v : Val) : Nat → Heap → Val → Heap × Val
  | 0, h, res => (h, res)
  | j + 1, h, res =>
    let r := cons h (idxLoop h j v) res
    appendOne v j r.1 r.2

/-- The outer loop of `fundamental_append`, `src/fundamental.c:707-721`, on the arguments before the last,
last first. -/
def appendRev (f : Nat) : List Val → Heap → Val → Option (Heap × Val)
  | [], h, res => some (h, res)
  | a :: as, h, res =>
    if isList a then
      match listLength h f a with
      | none => none
      | some n =>
        let r := appendOne a n h res
        appendRev f as r.1 r.2
    else some (h, terror)

/-- `fundamental_append`, `src/fundamental.c:699-724`.  The arguments are `init ++ [last]`. -/
def fAppend (f : Nat) (h : Heap) (args : List Val) : Option (Heap × Val) :=
  match args.reverse with
  | [] => some (h, nil)
  | [a] => if isList a then some (h, a) else some (h, terror)
  | last :: rest => appendRev f rest h last

/-- `fundamental_take`, `src/fundamental.c:1312-1320`. -/
def fTake (f : Nat) (h : Heap) (l : Val) (n : Int) : Option (Heap × Val) :=
  if isList l then (listCopy f h n l).map fun r => (r.1, r.2.1) else some (h, terror)

/-- `fundamental_drop`, `src/fundamental.c:1322-1329`; the count is decoded as `uint32_t`. -/
def fDrop (h : Heap) (l : Val) (n : Nat) : Val :=
  if isList l then listDrop h n l else terror

/-- `lbm_enc_i` of an `int32_t`: `w` payload bits (28 or 56) are kept. -/
def encI (w : Nat) (z : Int) : Val := .imm 0 ((BitVec.ofInt w z).toInt)

/-- The loop of `fundamental_range`, `src/fundamental.c:1296-1298`, for the `k` numbers from
`start`, the last first. -/
def rangeLoop (w : Nat) (start : Int) : Nat → Heap → Val → Heap × Val
  | 0, h, r => (h, r)
  | k + 1, h, r =>
    let p := cons h (encI w (start + k)) r
    rangeLoop w start k p.1 p.2

/-- `fundamental_range`, `src/fundamental.c:1261-1300`, for two arguments (with one, `start` is 0).
`end - start` may overflow, and the loop counter goes below `start`: undefined if that is the
least `int32_t`. -/
def fRange (w f : Nat) (h : Heap) (start stop : Int) : Option (Heap × Val) :=
  if stop = start then some (h, nil)
  else
    let rev := decide (stop < start)
    let lo := if stop < start then stop else start
    let hi := if stop < start then start else stop
    if 2 ^ 31 - 1 < hi - lo then none
    else if (numFree h : Int) < hi - lo then some (h, merror)
    else if lo = -(2 ^ 31) then none
    else
      let p := rangeLoop w lo (hi - lo).toNat h nil
      if rev then destructiveReverse f p.1 p.2 else some p

/-- Finding the last cell in `apply_rotate`, `src/eval_cps.c:2988-2993`. -/
def lastCell (h : Heap) : Nat → Val → Val → Option Val
  | 0, _, _ => none
  | f + 1, curr, e => if isCons curr then lastCell h f (cdr h curr) curr else some e

/-- The rotation loop of `apply_rotate`, `src/eval_cps.c:2995-3001`. -/
def rotLoop : Nat → Heap → Val → Val → Heap × Val
  | 0, h, start, _ => (h, start)
  | d + 1, h, start, e =>
    let start' := cdr h start
    let h1 := (setCdr h start nil).1
    let h2 := (setCdr h1 e start).1
    rotLoop d h2 start' start

/-- The part of `apply_rotate` between the two reversals. -/
def rotBody (f : Nat) (d : Nat) (h : Heap) (ls : Val) : Option (Heap × Val) :=
  match lastCell h f ls nil with
  | none => none
  | some e => some (rotLoop d h ls e)

/-- Reverse when rotating to the right. -/
def flip (f : Nat) (right : Bool) (p : Heap × Val) : Option (Heap × Val) :=
  if right then destructiveReverse f p.1 p.2 else some p

/-- `apply_rotate`, `src/eval_cps.c:2974-3012`.  `-dist` overflows for the least `int`. -/
def fRotate (f : Nat) (h : Heap) (l : Val) (dist : Int) : Option (Heap × Val) :=
  if isList l then
    match listCopy f h (-1) l with
    | none => none
    | some (h1, ls, len) =>
      if isSymbol ls && ls == merror then some (h1, merror)
      else if 0 < len ∧ dist ≠ 0 then
        if dist = -(2 ^ 31) then none
        else
          match flip f (decide (0 < dist)) (h1, ls) with
          | none => none
          | some p =>
            match rotBody f dist.natAbs p.1 p.2 with
            | none => none
            | some q => flip f (decide (0 < dist)) q
      else some (h1, ls)
  else some (h, .sym 0x22)

/-- The loop of `fundamental_set_ix`, `src/fundamental.c:860-873`.  The result is the value for
`result`. -/
def setIxLoop (all val : Val) : Nat → Heap → Val → Option Nat → Option (Heap × Val)
  | 0, _, _, _ => none
  | f + 1, h, curr, ix =>
    if isConsRW curr then
      let next := cdr h curr
      if ix = some 0 then some ((setCar h curr val).1, all)
      else if next = nil then some (h, nil)
      else setIxLoop all val f h next (ix.map (· - 1))
    else some (h, terror)

/-- `fundamental_set_ix`, `src/fundamental.c:848-886`, for lists.  A negative index that is still negative
after adding the length becomes a huge unsigned number, which no list reaches: `none`. -/
def fSetIx (f : Nat) (h : Heap) (l : Val) (n : Int) (val : Val) : Option (Heap × Val) :=
  if isListRW l then
    if n < 0 then
      match listLength h f l with
      | none => none
      | some len =>
        setIxLoop l val f h l (if (len : Int) + n < 0 then none else some ((len : Int) + n).toNat)
    else setIxLoop l val f h l (some n.toNat)
  else some (h, terror)

end Verif.Lists
