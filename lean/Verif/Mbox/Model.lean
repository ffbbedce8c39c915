import Verif.Eq.Spec

/-
Model of mailboxes, pattern matching and `recv` (`src/eval_cps.c`).

Simplifications:
* Messages and patterns are finite trees (`Verif.Eq.T`); comparing with `struct_eq` is `same` (C29 proves that the code computes it).
* The heap appears only as the number of free cells; an environment is the list of its bindings, newest first.
* A clause of `recv` is a list `(pattern body)`; `extra` is its third element or nil. Clauses that are not lists are a type error, and are not modelled.
* An access outside of the mailbox array is `none`.
-/

namespace Verif.Mbox
open Verif.Eq

/-- The fields `mailbox`, `mailbox_size` and `num_mail` of a context, `include/eval_cps.h:67-69`. Entries that were never written are arbitrary. -/
structure Mbox (M : Type) where
  slot : Nat → M
  size : Nat
  num : Nat

variable {M : Type}

/-- The loop of `mailbox_remove_mail` from index `i` with `n` iterations to go, `src/eval_cps.c:1357-1359`. -/
def shift : Nat → Nat → Mbox M → Option (Mbox M)
  | 0, _, m => some m
  | n + 1, i, m =>
    if i + 1 < m.size then shift n (i + 1) { m with slot := fun j => if j = i then m.slot (i + 1) else m.slot j }
    else none

/-- `mailbox_remove_mail`, `src/eval_cps.c:1355-1361`. Without any mail `num_mail - 1` wraps around and the loop runs over the end of the
mailbox. -/
def remove (m : Mbox M) (ix : Nat) : Option (Mbox M) :=
  if m.num = 0 then none
  else (shift (m.num - 1 - ix) ix m).map fun m => { m with num := m.num - 1 }

/-- The write `ctx->mailbox[ctx->num_mail] = mail; ctx->num_mail ++`, `src/eval_cps.c:1369-1370`. -/
def store (m : Mbox M) (v : M) : Option (Mbox M) :=
  if m.num < m.size then some { m with slot := fun j => if j = m.num then v else m.slot j, num := m.num + 1 } else none

/-- `mailbox_add_mail`, `src/eval_cps.c:1363-1372`. -/
def add (m : Mbox M) (v : M) : Option (Mbox M) :=
  if m.num ≥ m.size then
    match remove m 0 with
    | none => none
    | some m => store m v
  else store m v

/-- The copying loop of `lbm_mailbox_change_size`, `src/eval_cps.c:1345-1347`: `n` iterations from `i`. -/
def copyMail (old : Nat → M) (size : Nat) : Nat → Nat → (Nat → M) → Option (Nat → M)
  | 0, _, s => some s
  | n + 1, i, s => if i < size then copyMail old size n (i + 1) (fun j => if j = i then old i else s j) else none

/-- `lbm_mailbox_change_size` with a successful allocation, `src/eval_cps.c:1331-1353`; `fresh` is what the new memory contains. (An allocation of 0 words fails:
`lbm_memory_allocate`.) -/
def changeSize (m : Mbox M) (newSize : Nat) (fresh : Nat → M) : Option (Mbox M) :=
  (copyMail m.slot newSize m.num 0 fresh).map fun s => ⟨s, newSize, m.num⟩

/-! ### Pattern matching -/

def symNil : Nat := 0
def symDontcare : Nat := 9
def symMatchAny : Nat := 0x41
def symTimeout : Nat := 0xA
def symNoMatch : Nat := 0x40

/-- Bindings, newest first. -/
abbrev Env := List (T × T)

/-- `get_match_binder_variable`, `src/eval_cps.c:1511-1521`; nil is "no variable". -/
def binderVar : T → Option T
  | .cons (.sym k) (.cons v _) => if k = symMatchAny then (match v with
      | .sym s => if s = symNil then none else some v
      | _ => some v) else none
  | _ => none

/-- What `match` reads and writes: the environment `*env`, the flag `*gc` and the number of free cells. -/
structure MSt where
  env : Env
  gc : Bool
  free : Nat

/-- `lbm_cons(var, e)` and `lbm_cons(binding, *env)`, `src/eval_cps.c:1530-1539`. If the second fails the first has used up a cell. -/
def bind (s : MSt) (var e : T) : Bool × MSt :=
  if 2 ≤ s.free then (true, { env := (var, e) :: s.env, gc := false, free := s.free - 2 })
  else (false, { s with gc := true, free := 0 })

/-- `match`, `src/eval_cps.c:1526-1557`. -/
def matchP (F : Flt) : T → T → MSt → Bool × MSt
  | p, e, s =>
    match binderVar p with
    | some v => bind s v e
    | none =>
      match p with
      | .sym k => if k = symDontcare then (true, s) else ((match e with | .sym k' => k == k' | _ => false), s)
      | .cons hp tp =>
        match e with
        | .cons he te =>
          let r := matchP F hp he s
          if r.1 then matchP F tp te r.2 else r
        | _ => (same F (.cons hp tp) e, s)
      | p => (same F p e, s)

/-- A clause of `recv`. -/
structure Clause where
  pat : T
  body : T
  extra : T

/-- What `find_match` returns, `src/eval_cps.c:101-103` and 1577-1584. -/
inductive Found where
  | needGC
  | noMatch
  | patternError
  | found (n : Nat) (body : T)

/-- The inner loop of `find_match`: the patterns against one message, `src/eval_cps.c:1575-1587`. -/
def tryClauses (F : Flt) (e : T) : List Clause → MSt → Option Clause × MSt
  | [], s => (none, s)
  | c :: cs, s =>
    let r := matchP F c.pat e s
    if r.1 then (some c, r.2) else tryClauses F e cs r.2

def isNil : T → Bool
  | .sym k => k == symNil
  | _ => false

/-- The outer loop, `src/eval_cps.c:1573-1592`. -/
def findLoop (F : Flt) (cs : List Clause) : List T → Nat → MSt → Found × MSt
  | [], _, s => (.noMatch, s)
  | e :: es, n, s =>
    let r := tryClauses F e cs s
    match r.1 with
    | some c => if r.2.gc then (.needGC, r.2) else if isNil c.extra then (.found n c.body, r.2) else (.patternError, r.2)
    | none => findLoop F cs es (n + 1) r.2

/-- `find_match`, `src/eval_cps.c:1562-1593`. -/
def findMatch (F : Flt) (cs : List Clause) (msgs : List T) (env : Env) (free : Nat) : Found × MSt :=
  findLoop F cs msgs 0 ⟨env, false, free⟩

/-- What `recv` does. -/
inductive Recv where
  /-- The context blocks until the next message. -/
  | block
  /-- The body is evaluated in this environment; the mailbox has changed. -/
  | body (m : Mbox T) (body : T) (env : Env)
  | patternError
  | noMemory

/-- The messages in the mailbox, oldest first: `msgs[0..num-1]`. -/
def Mbox.mail (m : Mbox M) : List M := (List.range m.num).map m.slot

/-- `receive_base`, `src/eval_cps.c:2152-2186`; `gcFree` is the number of free cells after a collection. -/
def receive (F : Flt) (cs : List Clause) (m : Mbox T) (env : Env) (free gcFree : Nat) : Option Recv :=
  if m.num = 0 then some .block
  else
    let r := findMatch F cs m.mail env free
    let r := match r.1 with
      | .needGC => findMatch F cs m.mail env gcFree
      | _ => r
    match r.1 with
    | .needGC => some .noMemory
    | .patternError => some .patternError
    | .noMatch => some .block
    | .found n b => (remove m n).map fun m' => .body m' b r.2.env

/-- The result of `recv-to` after being woken (`cont_recv_to_retry`, `src/eval_cps.c:5028-5071`): either as `recv`, or the timeout symbol, or
blocking again, for as many microseconds as the fourth component says. `r` is `ctx->r`; `word` is the word `sptr[1]`, the encoded timeout;
`w` the width of a word. -/
inductive Retry where
  | recv (r : Recv)
  | timedOut
  | again (us : Nat)

def retry (F : Flt) (cs : List Clause) (m : Mbox T) (env : Env) (free gcFree : Nat) (timedOut : Bool) (w word : Nat) : Option Retry :=
  match receive F cs m env free gcFree with
  | none => none
  | some .block => if timedOut then some .timedOut else some (.again (word * 1000000 % 2 ^ w))
  | some r => some (.recv r)

end Verif.Mbox
