/-
Model of the process queues and the scheduler of `src/eval_cps.c`.

Simplifications:
* A context is its address; its id is the index of that address in memory (`src/eval_cps.c:1285`), so contexts are identified with their ids.
* What the running context computes is not modelled here: an execution is any sequence of the operations on queues that contexts, the evaluator loop
  and other threads perform. Every operation holds `qmutex` (or is made by the evaluator thread on `ctx_running`), so operations are atomic.
* Reading or writing through a NULL pointer is `none`. Loops over a queue take fuel; without fuel they are `none`.
* Times are naturals below `2 ^ w` where `w` is the width of a word.
-/

namespace Verif.Sched

/-- `state` of a context, `include/eval_cps.h:43-48`. -/
inductive TState where
  | ready | blocked | timeout | sleeping | recvBl | recvTo
  deriving DecidableEq, Repr

/-- `LBM_IS_STATE_TIMEOUT`, `include/eval_cps.h:51`. -/
def TState.isTimeout : TState → Bool
  | .timeout | .recvTo => true
  | _ => false

/-- `LBM_IS_STATE_WAKE_UP_WAKABLE`, `include/eval_cps.h:52`. -/
def TState.wakable : TState → Bool
  | .sleeping | .timeout | .recvTo => true
  | _ => false

/-- `LBM_IS_STATE_UNBLOCKABLE`, `include/eval_cps.h:53`. -/
def TState.unblockable : TState → Bool
  | .blocked | .timeout => true
  | _ => false

/-- `LBM_IS_STATE_RECV`, `include/eval_cps.h:54`. -/
def TState.isRecv : TState → Bool
  | .recvBl | .recvTo => true
  | _ => false

/-- The fields `state`, `timestamp` and `sleep_us` of a context. -/
structure Info where
  state : TState
  timestamp : Nat
  sleep : Nat
  deriving DecidableEq, Repr

abbrev Cid := Nat

/-- `eval_context_queue_t`, `src/eval_cps.c:176-179`. -/
structure Queue where
  first : Option Cid
  last : Option Cid
  deriving DecidableEq, Repr

/-- The fields `next` and `prev` of all contexts. -/
structure Links where
  next : Cid → Option Cid
  prev : Cid → Option Cid

def Links.setNext (k : Links) (c : Cid) (v : Option Cid) : Links := { k with next := fun i => if i = c then v else k.next i }
def Links.setPrev (k : Links) (c : Cid) (v : Option Cid) : Links := { k with prev := fun i => if i = c then v else k.prev i }

/-- `enqueue_ctx_nm`, `src/eval_cps.c:917-929`. -/
def enqueue (k : Links) (q : Queue) (c : Cid) : Links × Queue :=
  match q.last with
  | none => ((k.setPrev c none).setNext c none, ⟨some c, some c⟩)
  | some l => (((k.setPrev c (some l)).setNext c none).setNext l (some c), ⟨q.first, some c⟩)

/-- The loop of `lookup_ctx_nm` from `curr`, `src/eval_cps.c:938-948`. -/
def lookup (k : Links) : Nat → Option Cid → Cid → Option Bool
  | _, none, _ => some false
  | 0, _, _ => none
  | f + 1, some c, cid => if c = cid then some true else lookup k f (k.next c) cid

/-- Unlinking `curr` in `drop_ctx_nm`, `src/eval_cps.c:965-983`. -/
def unlink (k : Links) (q : Queue) (c : Cid) : Option (Links × Queue) :=
  match k.prev c with
  | none =>
    match k.next c with
    | none => some (k, ⟨none, none⟩)
    | some t => some (k.setPrev t none, ⟨some t, q.last⟩)
  | some p =>
    match k.next c with
    | none => some (k.setNext p none, ⟨q.first, some p⟩)
    | some t => some ((k.setNext p (some t)).setPrev t (some p), q)

/-- The loop of `drop_ctx_nm`, `src/eval_cps.c:962-986`. -/
def dropLoop (k : Links) (q : Queue) : Nat → Option Cid → Cid → Option (Links × Queue)
  | _, none, _ => some (k, q)
  | 0, _, _ => none
  | f + 1, some c, cid => if c = cid then unlink k q c else dropLoop k q f (k.next c) cid

/-- `drop_ctx_nm`, `src/eval_cps.c:950-988`. -/
def drop (f : Nat) (k : Links) (q : Queue) (cid : Cid) : Option (Links × Queue) :=
  if q.first = none ∨ q.last = none then some (k, q) else dropLoop k q f q.first cid

/-- `dequeue_ctx_nm`, `src/eval_cps.c:1103-1120`. -/
def dequeue (k : Links) (q : Queue) : Option (Links × Queue × Option Cid) :=
  match q.last with
  | none => some (k, q, none)
  | some l =>
    match q.first with
    | none => none
    | some c =>
      if c = l then some ((k.setPrev c none).setNext c none, ⟨none, none⟩, some c)
      else
        match k.next c with
        | none => none
        | some t => some (((k.setPrev t none).setPrev c none).setNext c none, ⟨some t, some l⟩, some c)

/-- The globals of the scheduler, `src/eval_cps.c:404-409` and `ctx_running`: queues, running context, atomic flag, the fields of contexts. `timeouts` lists the
contexts that were sent the message `timeout` by the scheduler, in order. -/
structure S where
  k : Links
  queue : Queue
  blocked : Queue
  running : Option Cid
  atomic : Bool
  info : Cid → Info
  timeouts : List Cid

/-- `lbm_eval_init` for the queues, `src/eval_cps.c:5441-5445`. The links of contexts that do not exist yet are arbitrary. -/
def init (k : Links) (info : Cid → Info) : S := ⟨k, ⟨none, none⟩, ⟨none, none⟩, none, false, info, []⟩

def S.setInfo (s : S) (c : Cid) (i : Info) : S := { s with info := fun d => if d = c then i else s.info d }
def S.setState (s : S) (c : Cid) (t : TState) : S := s.setInfo c { s.info c with state := t }

/-- Appending a context to the ready queue. -/
def S.toReady (s : S) (c : Cid) : S :=
  let r := enqueue s.k s.queue c
  { s with k := r.1, queue := r.2 }

/-- Appending a context to the blocked queue. -/
def S.toBlocked (s : S) (c : Cid) : S :=
  let r := enqueue s.k s.blocked c
  { s with k := r.1, blocked := r.2 }

/-- `t_diff` of `wake_up_ctxs_nm`, `src/eval_cps.c:1139-1148`; `w` is the width of `lbm_uint`. -/
def tDiff (w now ts : Nat) : Nat := if ts > now then (2 ^ w - 1 - ts) + now else now - ts

/-- The condition under which a context is woken, `src/eval_cps.c:1138` and 1150. -/
def due (w now : Nat) (i : Info) : Bool := i.state.wakable && decide (i.sleep ≤ tDiff w now i.timestamp)

/-- Unlinking in `wake_up_ctxs_nm`, `src/eval_cps.c:1152-1168`. -/
def wakeUnlink (k : Links) (q : Queue) (c : Cid) : Option (Links × Queue) :=
  if some c = q.last then
    match k.prev c with
    | some p => some (k.setNext p none, ⟨q.first, some p⟩)
    | none => some (k, ⟨none, none⟩)
  else
    match k.prev c with
    | none =>
      match k.next c with
      | none => none
      | some t => some (k.setPrev t none, ⟨some t, q.last⟩)
    | some p =>
      let k1 := k.setNext p (k.next c)
      match k1.next c with
      | none => some (k1, q)
      | some t => some (k1.setPrev t (k1.prev c), q)

/-- Lines 1169-1176: the unlinked context becomes ready; a timeout is also sent as a message. -/
def wakeOne (s : S) (c : Cid) : Option S :=
  match wakeUnlink s.k s.blocked c with
  | none => none
  | some (k, q) =>
    let s1 := { s with k := (k.setNext c none).setPrev c none, blocked := q }
    let s2 := if (s1.info c).state.isTimeout then { s1 with timeouts := s1.timeouts ++ [c] } else s1
    some ((s2.setState c .ready).toReady c)

/-- The loop of `wake_up_ctxs_nm`, `src/eval_cps.c:1134-1180`. -/
def wakeLoop (w now : Nat) : Nat → S → Option Cid → Option S
  | _, s, none => some s
  | 0, _, _ => none
  | f + 1, s, some c =>
    let next := s.k.next c
    if due w now (s.info c) then
      match wakeOne s c with
      | none => none
      | some s1 => wakeLoop w now f s1 next
    else wakeLoop w now f s next

/-- `wake_up_ctxs_nm`. -/
def wakeUp (w now f : Nat) (s : S) : Option S := wakeLoop w now f s s.blocked.first

/-- The operations on the queues. -/
inductive Op where
  /-- `lbm_create_ctx_parent` succeeds with a context at this address. -/
  | create (c : Cid)
  /-- The running context ends: `finish_ctx` at the end of its program, by an error that nothing catches, or by killing itself. -/
  | finish
  /-- `block_current_ctx` or `yield_ctx` by the running context; `trapped`: errors are caught by a `trap`. -/
  | block (t : TState) (now sleep : Nat) (trapped : Bool)
  /-- `lbm_find_receiver_and_send`. -/
  | send (c : Cid)
  /-- `lbm_unblock_ctx_r`, `lbm_unblock_ctx_unboxed` or `handle_event_unblock_ctx`. -/
  | unblock (c : Cid)
  /-- `(kill c v)` by the running context, for another context. -/
  | kill (c : Cid)
  /-- The evaluator loop when the quota is used up or no context runs; `now` is the clock. -/
  | round (now : Nat)
  /-- `(atomic …)` is entered by the running context; `trapped` as above. -/
  | enterAtomic (trapped : Bool)
  /-- `(atomic …)` is left by the running context. -/
  | exitAtomic
  /-- The evaluator handles a request for a reset. -/
  | reset
  deriving DecidableEq, Repr

/-- `atomic_error` (`src/eval_cps.c:689-693`): the flag is cleared, then the error is caught by a `trap` or ends the context
(`error_ctx_base`, 1027-1079). -/
def atomicError (s : S) (trapped : Bool) : S :=
  if trapped then { s with atomic := false } else { s with atomic := false, running := none }

/-- `block_current_ctx` and `yield_ctx`, `src/eval_cps.c:698-707` and 1183-1198. -/
def opBlock (s : S) (t : TState) (now sleep : Nat) (trapped : Bool) : Option S :=
  if s.atomic then some (atomicError s trapped)
  else match s.running with
    | none => none
    | some c => some { (s.setInfo c ⟨t, now, sleep⟩).toBlocked c with running := none }

/-- The change of state that `lbm_unblock_ctx_r` (`src/eval_cps.c:1399-1414`), `lbm_unblock_ctx_unboxed` (1417-1437),
`handle_event_unblock_ctx` (5250-5267) and `lbm_find_receiver_and_send` (1473-1487) make to a blocked context if `cond` holds of its state. -/
def release (cond : TState → Bool) (f : Nat) (s : S) (c : Cid) : Option (S × Bool) :=
  match lookup s.k f s.blocked.first c with
  | none => none
  | some false => some (s, false)
  | some true =>
    if cond (s.info c).state then
      match drop f s.k s.blocked c with
      | none => none
      | some (k, q) => some ((({ s with k := k, blocked := q } : S).setState c .ready).toReady c, true)
    else some (s, false)

/-- `apply_kill` for another context, `src/eval_cps.c:2756-2779`. -/
def opKill (f : Nat) (s : S) (c : Cid) : Option (S × Bool) :=
  match lookup s.k f s.blocked.first c with
  | none => none
  | some true =>
    match drop f s.k s.blocked c with
    | none => none
    | some (k, q) =>
      match drop f k s.queue c with
      | none => none
      | some (k', q') => some ((({ s with k := k', blocked := q, queue := q' } : S).setState c .ready).toReady c, true)
  | some false =>
    match lookup s.k f s.queue.first c with
    | none => none
    | some false => some (s, false)
    | some true =>
      match drop f s.k s.queue c with
      | none => none
      | some (k, q) => some ((({ s with k := k, queue := q } : S).setState c .ready).toReady c, true)

/-- The running context goes to the end of the ready queue, `src/eval_cps.c:5396-5399`. -/
def requeue (s : S) : S :=
  match s.running with
  | none => s
  | some c => { s.toReady c with running := none }

/-- The scheduling part of `lbm_run_eval`, `src/eval_cps.c:5389-5403`. -/
def opRound (w f : Nat) (s : S) (now : Nat) : Option S :=
  if s.atomic then some s
  else
    match wakeUp w now f (requeue s) with
    | none => none
    | some s1 =>
      match dequeue s1.k s1.queue with
      | none => none
      | some (k, q, c) => some { s1 with k := k, queue := q, running := c }

/-- One operation. -/
def step (w f : Nat) (s : S) : Op → Option S
  | .create c => some ((s.setInfo c ⟨.ready, 0, 0⟩).toReady c)
  | .finish => some { s with running := none }
  | .block t now sleep trapped => opBlock s t now sleep trapped
  | .send c => (release TState.isRecv f s c).map (·.1)
  | .unblock c => (release TState.unblockable f s c).map (·.1)
  | .kill c => (opKill f s c).map (·.1)
  | .round now => opRound w f s now
  | .enterAtomic trapped => if s.atomic then some (atomicError s trapped) else some { s with atomic := true }
  | .exitAtomic => some { s with atomic := false }
  | .reset => some { s with atomic := false, blocked := ⟨none, none⟩, queue := ⟨none, none⟩, running := none }

end Verif.Sched
