import Verif.Eval.Store

/-!
# Quasiquotation

The continuations that the reader runs after it has read a quasi-quoted template (`src/eval_cps.c:4773-4953`). They replace the template by code that
builds it. The store, values and words are those of `Verif.Eval.Store`; as there, allocation always succeeds. The stack is a list of words, top first, without limit. All cells are
in writable memory.
-/

namespace Verif.QQ

open Verif.Eval (V W St)

/-- The parts of a context that are used here. -/
structure M where
  K : List W
  r : V
  st : St

/-- Go on, an error (`error_ctx`), or outside of the model: a loop that does not end, or a word on the stack that is not what it should be. -/
inductive Out where
  | next (m : M)
  | err (e : V)
  | ub

/-- `quote_it` (eval_cps.c:4781-4787). `SPECIAL_SYMBOLS_END` is 0xFFFF. -/
def quoteIt (s : St) (v : V) : St × V :=
  match v with
  | .sym n =>
    if n < 0xFFFF then (s, v)
    else
      let (s1, t) := s.cons v .nil
      s1.cons .quote t
  | _ =>
    let (s1, t) := s.cons v .nil
    s1.cons .quote t

/-- `lbm_is_quoted_list` (heap.h:948-954). -/
def isQuotedList (s : St) (v : V) : Bool :=
  match v with
  | .cons a =>
    decide (s.car a = .quote) &&
      match s.cdr a with
      | .cons b => (s.car b).isCons
      | _ => false
  | _ => false

/-- `is_append` (eval_cps.c:4789-4793). -/
def isAppend (s : St) (v : V) : Bool :=
  match v with
  | .cons a => decide (s.car a = .append)
  | _ => false

/-- The loop of `lbm_list_append`: the last cell of a list. -/
def lastCell (s : St) : Nat → Nat → Option Nat
  | 0, _ => none
  | f + 1, a =>
    match s.cdr a with
    | .cons b => lastCell s f b
    | _ => some a

/-- `lbm_list_append` (heap.c:1151-1165), destructive; `none` if the list has no end. -/
def listAppend (s : St) (l1 l2 : V) : Option (St × V) :=
  let isList (v : V) : Bool := v.isCons || decide (v = .nil)
  if isList l1 && isList l2 then
    match l1 with
    | .cons a => (lastCell s (s.next + 1) a).map fun c => (s.setCdr (.cons c) l2, l1)
    | _ => some (s, l2)
  else some (s, .eerror)

/-- The result of `append`. -/
inductive AOut where
  | ok (s : St) (v : V)
  | err (e : V)
  | ub

/-- `append` (eval_cps.c:4795-4834). -/
def append (s : St) (front back : V) : AOut :=
  if front = .nil then .ok s back
  else if back = .nil then .ok s front
  else if isQuotedList s front && isQuotedList s back then
    match s.gcadr front, s.gcadr back with
    | some f, some b =>
      match listAppend s f b with
      | none => .ub
      | some (s1, v) => let (s2, r) := quoteIt s1 v; .ok s2 r
    | _, _ => .err .terror
  else if isAppend s back then
    match s.gcadr back with
    | none => .err .terror
    | some ql =>
      if isQuotedList s ql && isQuotedList s front then
        match s.gcadr front, s.gcadr ql with
        | some f, some b =>
          match listAppend s f b with
          | none => .ub
          | some (s1, v) =>
            match s1.gcdr ql with
            | some d => .ok (s1.setCar d v) back
            | none => .err .terror
        | _, _ => .err .terror
      else
        match s.gcdr back with
        | none => .err .terror
        | some b =>
          let (s1, t) := s.cons front b
          let (s2, r) := s1.cons .append t
          .ok s2 r
  else
    let (s1, t0) := s.cons back .nil
    let (s2, t1) := s1.cons front t0
    let (s3, r) := s2.cons .append t1
    .ok s3 r

/-- Continue with the result of `append` in the register. -/
def AOut.go (o : AOut) (K : List W) : Out :=
  match o with
  | .ok s v => .next ⟨K, v, s⟩
  | .err e => .err e
  | .ub => .ub

/-- `cont_qq_expand_start` (eval_cps.c:4773-4779). -/
def expandStart (m : M) (K : List W) : Out := .next ⟨.k 33 :: .v m.r :: K, .nil, m.st⟩

/-- `cont_qq_expand` (eval_cps.c:4846-4884). -/
def expand (m : M) (x : V) (K : List W) : Out :=
  match x with
  | .cons a =>
    if m.st.car a = .comma then
      match m.st.gcar (m.st.cdr a) with
      | none => .err .terror
      | some e => (append m.st m.r e).go K
    else if m.st.car a = .commaAt then .err .rerror
    else .next ⟨.k 35 :: .v (m.st.car a) :: .k 33 :: .v (m.st.cdr a) :: .k 34 :: .v m.r :: K, .nil, m.st⟩
  | _ =>
    let (s, q) := quoteIt m.st x
    (append s m.r q).go K

/-- `cont_qq_append` (eval_cps.c:4886-4891). -/
def qqAppend (m : M) (head : V) (K : List W) : Out := (append m.st head m.r).go K

/-- `cont_qq_expand_list` (eval_cps.c:4908-4944). -/
def expandList (m : M) (x : V) (K : List W) : Out :=
  match x with
  | .cons a =>
    if m.st.car a = .comma then
      match m.st.gcar (m.st.cdr a) with
      | none => .err .terror
      | some e =>
        let (s1, tl) := m.st.cons e .nil
        let (s2, tmp) := s1.cons .list tl
        (append s2 m.r tmp).go K
    else if m.st.car a = .commaAt then
      match m.st.gcar (m.st.cdr a) with
      | none => .err .terror
      | some e => .next ⟨K, e, m.st⟩
    else .next ⟨.k 35 :: .v (m.st.car a) :: .k 33 :: .v (m.st.cdr a) :: .k 34 :: .v m.r :: .k 36 :: K, .nil, m.st⟩
  | _ =>
    let (s1, al) := m.st.cons x .nil
    let (s2, tl) := s1.cons al .nil
    let (s3, tmp) := s2.cons .quote tl
    (append s3 m.r tmp).go K

/-- `cont_qq_list` (eval_cps.c:4946-4952). -/
def qqList (m : M) (K : List W) : Out :=
  let (s1, t) := m.st.cons m.r .nil
  let (s2, tmp) := s1.cons .list t
  .next ⟨K, tmp, s2⟩

/-- One continuation (the codes are those of eval_cps.c:82-86). -/
def step (m : M) : Out :=
  match m.K with
  | .k 32 :: K => expandStart m K
  | .k 33 :: .v x :: K => expand m x K
  | .k 34 :: .v h :: K => qqAppend m h K
  | .k 35 :: .v x :: K => expandList m x K
  | .k 36 :: K => qqList m K
  | _ => .ub

/-- `n` steps. -/
def steps : Nat → Out → Out
  | 0, o => o
  | n + 1, .next m => steps n (step m)
  | _ + 1, o => o

end Verif.QQ
