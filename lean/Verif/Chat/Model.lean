import Verif.Sched.Props
import Verif.Mbox.Props

/-!
# Processes that send messages to each other

The scheduler (`Verif.Sched`) together with the mailboxes and `recv` (`Verif.Mbox`): `send`, `recv` and `recv-to` of `src/eval_cps.c`.

Simplifications:
* Those of the two models. What a context computes between two operations is not modelled.
* A context that blocked in `recv` has the `recv` form as its current expression, one that blocked in `recv-to` has the patterns below `RECV_TO_RETRY` on its stack: here `pend` tells what the context does first
  when it runs again.
* How long a context waits in `recv-to`, and whether it was woken by the timeout, is up to the environment (C37 and C60 are about times).
* An error inside of `recv` is caught by a `trap` or ends the context, which of them is up to the environment.
-/

namespace Verif.Chat
open Verif.Sched Verif.Mbox Verif.Eq

/-- The scheduler, the mailboxes, and the `recv` (or `recv-to`, if the flag is set) that a context is in. `live` is not in the code: the contexts that exist. -/
structure W where
  s : S
  live : List Cid
  box : Cid → Mbox T
  pend : Cid → Option (List Clause × Bool)

/-- Changes the value of a function at one place. -/
def put {α : Type} (g : Cid → α) (c : Cid) (v : α) : Cid → α := fun d => if d = c then v else g d

/-- What can happen. -/
inductive Act where
  /-- An operation that is not about messages. -/
  | sched (op : Op)
  /-- A message is sent, by a process, the host or an event. -/
  | send (c : Cid) (v : T)
  /-- The running context evaluates `recv` or (with `to`) `recv-to`. -/
  | recv (cs : List Clause) (to : Bool) (now us : Nat) (env : Env) (free gcFree : Nat) (trapped : Bool)
  /-- The running context was blocked in `recv` or `recv-to` and tries again. -/
  | retry (now us : Nat) (env : Env) (free gcFree : Nat) (timedOut trapped : Bool)
  /-- `set-mailbox-size` by the running context, with memory available. -/
  | resize (n : Nat) (fresh : Nat → T)

/-- What it gives. -/
inductive Res where
  | none
  | sent (ok : Bool)
  | received (r : Recv)

/-- The search of `lbm_find_receiver_and_send`, `src/eval_cps.c:1477-1510`. -/
def find (f : Nat) (s : S) (c : Cid) : Option Bool :=
  match lookup s.k f s.blocked.first c with
  | none => none
  | some true => some true
  | some false =>
    match lookup s.k f s.queue.first c with
    | none => none
    | some true => some true
    | some false => some (decide (s.running = some c))

/-- `lbm_find_receiver_and_send`, `src/eval_cps.c:1473-1512`, and the result of `apply_send`, 2601-2619. -/
def send (f : Nat) (x : W) (c : Cid) (v : T) : Option (W × Res) :=
  match find f x.s c with
  | none => none
  | some false => some (x, .sent false)
  | some true =>
    match release TState.isRecv f x.s c with
    | none => none
    | some (s, _) =>
      match add (x.box c) v with
      | none => none
      | some m => some ({ x with s := s, box := put x.box c m }, .sent true)

/-- The messages of contexts whose time is over, `src/eval_cps.c:1170-1172`. -/
def addTimeouts : List Cid → (Cid → Mbox T) → Option (Cid → Mbox T)
  | [], box => some box
  | c :: l, box =>
    match add (box c) (.sym symTimeout) with
    | none => none
    | some m => addTimeouts l (put box c m)

/-- A new context has an empty mailbox, `src/eval_cps.c:1288-1296` (`EVAL_CPS_DEFAULT_MAILBOX_SIZE`). -/
def boxAfter (box : Cid → Mbox T) : Op → Cid → Mbox T
  | .create c => put box c ⟨(box c).slot, 10, 0⟩
  | _ => box

/-- A context that is killed does something else next, `src/eval_cps.c:2765-2770`. -/
def pendAfter (pend : Cid → Option (List Clause × Bool)) : Op → Cid → Option (List Clause × Bool)
  | .create c => put pend c none
  | .kill c => put pend c none
  | _ => pend

/-- An operation of the scheduler, with the messages it sends. -/
def sched (w f : Nat) (x : W) (op : Op) : Option (W × Res) :=
  match Sched.step w f x.s op with
  | none => none
  | some s =>
    match addTimeouts (s.timeouts.drop x.s.timeouts.length) x.box with
    | none => none
    | some box => some (⟨s, liveAfter x.s x.live op, boxAfter box op, pendAfter x.pend op⟩, .none)

/-- `receive_base` (`src/eval_cps.c:2152-2186`) and `cont_recv_to` (4984-5021) in the context `c`. -/
def recvIn (F : Flt) (w f : Nat) (x : W) (c : Cid) (cs : List Clause) (to : Bool) (now us : Nat) (env : Env) (free gcFree : Nat) (trapped : Bool) : Option (W × Res) :=
  match receive F cs (x.box c) env free gcFree with
  | none => none
  | some .block =>
    match sched w f x (.block (if to then .recvTo else .recvBl) now us trapped) with
    | none => none
    | some (y, _) => some ({ y with pend := put y.pend c (if x.s.atomic then none else some (cs, to)) }, .received .block)
  | some (.body m b e) => some ({ x with box := put x.box c m, pend := put x.pend c none }, .received (.body m b e))
  | some r =>
    if trapped then some ({ x with pend := put x.pend c none }, .received r)
    else
      match sched w f x .finish with
      | none => none
      | some (y, _) => some ({ y with pend := put y.pend c none }, .received r)

/-- One action. `none` is undefined behaviour, or the action is not possible. -/
def wstep (F : Flt) (w f : Nat) (x : W) : Act → Option (W × Res)
  | .sched op => sched w f x op
  | .send c v => send f x c v
  | .recv cs to now us env free gcFree trapped =>
    -- `eval_receive`, `eval_receive_timeout`: `src/eval_cps.c:2192` and 2210
    if x.s.atomic then sched w f x (.enterAtomic trapped)
    else
      match x.s.running with
      | none => none
      | some c => recvIn F w f x c cs to now us env free gcFree trapped
  | .retry now us env free gcFree timedOut trapped =>
    match x.s.running with
    | none => none
    | some c =>
      match x.pend c with
      | none => none
      | some (cs, to) =>
        -- `cont_recv_to_retry`, `src/eval_cps.c:5061-5065`
        match receive F cs (x.box c) env free gcFree, to && timedOut with
        | some .block, true => some ({ x with pend := put x.pend c none }, .none)
        | _, _ => recvIn F w f x c cs to now us env free gcFree trapped
  | .resize n fresh =>
    match x.s.running with
    | none => none
    | some c => (changeSize (x.box c) n fresh).map fun m => ({ x with box := put x.box c m }, .none)

end Verif.Chat
