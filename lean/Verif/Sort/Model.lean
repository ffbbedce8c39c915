import Verif.Lists.Model

/-
Model of `sort` and `merge` (`src/eval_cps.c`): merge sort on a copy of the list, in
continuation passing style, with the comparator evaluated by the interpreter between two steps.

Simplifications:
* The comparator is a total function `cmp` on values (what it returns, nil or not).  What else its evaluation does to the heap
  is an arbitrary function `E t` (`t` counts steps), so it may allocate, collect garbage and assign.
* The frames on the stack are records; the slots for the comparator body, its environment and its parameters are left
  out (see `bindParams` for the environment).
* `lbm_enc_i(len)` and the layer are plain integers: lists are shorter than 2^27.
-/

namespace Verif.Sort
open Verif.Heap Verif.Env Verif.Lists

/-- The slots `sptr[0..4]` of `MERGE_REST`, `src/eval_cps.c:2862-2866`. -/
structure Frame where
  head : Val
  last : Val
  a : Val
  aRest : Val
  bRest : Val

/-- The slots `sptr[4..8]` of `MERGE_LAYER`, `src/eval_cps.c:2935-2939`. -/
structure LFrame where
  acc : Val
  accLast : Val
  rest : Val
  layer : Nat
  len : Nat

/-- Appending the cell `c` to the merged list, `src/eval_cps.c:3493-3499` and 3512-3518. -/
def pushCell (h : Heap) (fr : Frame) (c : Val) : Heap × Frame :=
  if fr.head = nil then (h, { fr with head := c, last := c })
  else ((setCdr h fr.last c).1, { fr with last := c })

/-- `cont_merge_rest`, `src/eval_cps.c:3471-3551`: `r` is the answer of the comparator. Either the merged list or the
frame for the next comparison. -/
def mergeRest (h : Heap) (fr : Frame) (r : Bool) : Heap × (Val ⊕ Frame) :=
  let a := fr.a
  let b := cdr h a
  let h := (setCdr h a nil).1
  if r = false then
    let p := pushCell h fr b
    if p.2.bRest = nil then
      let h := (setCdr p.1 a p.2.aRest).1
      let h := (setCdr h p.2.last a).1
      (h, .inl p.2.head)
    else
      let b := p.2.bRest
      let bRest := cdr p.1 b
      let h := (setCdr p.1 b nil).1
      let h := (setCdr h a b).1
      (h, .inr { p.2 with a := a, bRest := bRest })
  else
    let p := pushCell h fr a
    if p.2.aRest = nil then
      let h := (setCdr p.1 b p.2.bRest).1
      let h := (setCdr h p.2.last b).1
      (h, .inl p.2.head)
    else
      let a := p.2.aRest
      let aRest := cdr p.1 a
      let h := (setCdr p.1 a nil).1
      let h := (setCdr h a b).1
      (h, .inr { p.2 with a := a, aRest := aRest })

/-- `for (int i = 0; i < layer-1; i ++) if (lbm_is_cons(curr)) curr = lbm_cdr(curr); else break;`,
`src/eval_cps.c:3609-3615`. -/
def walk (h : Heap) : Nat → Val → Val
  | 0, c => c
  | n + 1, c => if isCons c then walk h n (cdr h c) else c

/-- Cutting off the first `layer` elements, `src/eval_cps.c:3606-3617`: the rest of the list. -/
def cut (h : Heap) (layer : Nat) (l : Val) : Heap × Val :=
  let c := walk h (layer - 1) l
  ((setCdr h c nil).1, cdr h c)

/-- What the machine does next. -/
inductive St where
  /-- The comparator is applied to the cars of `fr.a` and of the next cell. -/
  | merge (o : Option LFrame) (fr : Frame)
  /-- `MERGE_LAYER` with result `r`. -/
  | layer (L : LFrame) (r : Val)
  | done (v : Val)

/-- The last cell of the merged sublist, `src/eval_cps.c:3571-3578` (fuel `f`). -/
def lastOf (h : Heap) : Nat → Val → Val
  | 0, c => c
  | f + 1, c => if isCons c then (if cdr h c = nil then c else lastOf h f (cdr h c)) else c

/-- Accumulating a merged sublist, `src/eval_cps.c:3580-3586`. -/
def accum (h : Heap) (L : LFrame) (r : Val) : Heap × LFrame :=
  let c := lastOf h L.len r
  if L.acc = nil then (h, { L with acc := r, accLast := c })
  else ((setCdr h L.accLast r).1, { L with accLast := c })

/-- Merging the next two sublists of `L.rest`, `src/eval_cps.c:3605-3678`. -/
def nextMerge (h : Heap) (L : LFrame) : Heap × St :=
  let a := L.rest
  let p := cut h L.layer a
  let b := p.2
  let q := cut p.1 L.layer b
  let L := { L with rest := q.2 }
  if b = nil then (q.1, .layer L a)
  else
    let aRest := cdr q.1 a
    let bRest := cdr q.1 b
    let h := (setCdr q.1 a b).1
    let h := (setCdr h b nil).1
    (h, .merge (some L) ⟨nil, nil, a, aRest, bRest⟩)

/-- `cont_merge_layer`, `src/eval_cps.c:3566-3680`. -/
def mergeLayer (h : Heap) (L : LFrame) (r : Val) : Heap × St :=
  let p := accum h L r
  if p.2.rest = nil then
    if p.2.len ≤ p.2.layer * 2 then (p.1, .done p.2.acc)
    else nextMerge p.1 { p.2 with layer := p.2.layer * 2, rest := p.2.acc, acc := nil, accLast := nil }
  else nextMerge p.1 p.2

/-- After a merge: its result goes to the layer, if there is one. -/
def afterMerge (o : Option LFrame) : Val ⊕ Frame → St
  | .inr fr => .merge o fr
  | .inl v => match o with
    | none => .done v
    | some L => .layer L v

/-- One step: the comparator (asked about the heap before it runs) and then the continuation. `E` is what the
evaluation of the comparator does to the heap. -/
def step (cmp : Val → Val → Bool) (E : Heap → Heap) (h : Heap) : St → Heap × St
  | .merge o fr =>
    let r := cmp (car h fr.a) (car h (cdr h fr.a))
    let p := mergeRest (E h) fr r
    (p.1, afterMerge o p.2)
  | .layer L r => mergeLayer h L r
  | .done v => (h, .done v)

/-- `n` steps, the first at time `t`. -/
def run (cmp : Val → Val → Bool) (E : Nat → Heap → Heap) : Nat → Nat → Heap → St → Heap × St
  | 0, _, h, s => (h, s)
  | n + 1, t, h, s => run cmp E n (t + 1) (step cmp (E t) h s).1 (step cmp (E t) h s).2

/-- `apply_sort`, `src/eval_cps.c:2880-2955`: copies the list and sets up the first comparison. -/
def startSort (f : Nat) (h : Heap) (l : Val) : Option (Heap × St) :=
  if isList l then
    match listCopy f h (-1) l with
    | none => none
    | some (h1, v, len) =>
      if isSymbol v && v == merror then some (h1, .done v)
      else if len ≤ 1 then some (h1, .done v)
      else
        let b := cdr h1 v
        let rest := cdr h1 b
        some ((setCdr h1 b nil).1, .merge (some ⟨nil, nil, rest, 1, len.toNat⟩) ⟨nil, nil, v, nil, nil⟩)
  else some (h, .done terror)

/-- `apply_merge`, `src/eval_cps.c:2802-2877`. -/
def startMerge (f : Nat) (h : Heap) (l m : Val) : Option (Heap × St) :=
  if isList l && isList m then
    match listCopy f h (-1) l with
    | none => none
    | some (h1, a, lenA) =>
      if isSymbol a && a == merror then some (h1, .done a)
      else
        match listCopy f h1 (-1) m with
        | none => none
        | some (h2, b, lenB) =>
          if isSymbol b && b == merror then some (h2, .done b)
          else if lenA = 0 then some (h2, .done b)
          else if lenB = 0 then some (h2, .done a)
          else
            let aRest := cdr h2 a
            let bRest := cdr h2 b
            let h3 := (setCdr h2 a b).1
            let h4 := (setCdr h3 b nil).1
            some (h4, .merge none ⟨nil, nil, a, aRest, bRest⟩)
  else some (h, .done terror)

/-- Binding the parameters of the comparator in the environment of its closure, `src/eval_cps.c:2840-2848` and 2911-2919. -/
def bindParams (f : Nat) (h : Heap) (env p1 p2 x y : Val) : Option (Heap × Val) :=
  match envSet f h env p1 x with
  | none => none
  | some (h1, env1) => envSet f h1 env1 p2 y

end Verif.Sort
