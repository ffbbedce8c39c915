import Verif.Sched.Props

/-!
Model of `wait` (`src/eval_cps.c`): the wait for another process to end.

Simplifications: the id that is waited for is an integer value; here it is already decoded. What is on the stack of the waiting context between two polls is the id
itself (lines 2303-2305), so the same poll is repeated; the clock callback is set.
-/

namespace Verif.Sched

/-- `queue_iterator_nm` with the function `context_exists`, `src/eval_cps.c:886-894` and 1009-1013: the flag `found` is set when a context has the id; the loop does not stop then. -/
def existsLoop (k : Links) (cid : Cid) : Nat → Option Cid → Bool → Option Bool
  | _, none, found => some found
  | 0, some _, _ => none
  | f + 1, some c, found => existsLoop k cid f (k.next c) (if c = cid then true else found)

/-- What a poll does: the context goes on with the value `t`, or it sleeps (or the sleep is an error because of an atomic block), in the state `s`. -/
inductive Poll where
  | returns
  | sleeps (s : S)

/-- `cont_wait`, `src/eval_cps.c:2287-2313`. A NULL `ctx_running` is dereferenced in line 2298. -/
def contWait (f : Nat) (s : S) (cid : Cid) (now : Nat) (trapped : Bool) : Option Poll :=
  match existsLoop s.k cid f s.blocked.first false with
  | none => none
  | some e1 =>
    match existsLoop s.k cid f s.queue.first e1 with
    | none => none
    | some e2 =>
      match s.running with
      | none => none
      | some c =>
        if (if c = cid then true else e2) then (opBlock s .sleeping now 50000 trapped).map .sleeps
        else some .returns

/-- `apply_wait` with an integer as argument, `src/eval_cps.c:2538-2549`: it sleeps before the first poll. -/
def applyWait (s : S) (now : Nat) (trapped : Bool) : Option S := opBlock s .sleeping now 50000 trapped

/-! ### What can be observed -/

/-- The poll of the running context for `cid` ends in this way. -/
def Polls (s : S) (cid : Cid) (now : Nat) (trapped : Bool) (p : Poll) : Prop := ∃ n, ∀ f ≥ n, contWait f s cid now trapped = some p

/-- At some point of the execution `c` runs and then its poll for `t` returns. -/
inductive Returns (w : Nat) (c t : Cid) : S → List Op → Prop
  | here {s : S} {ops : List Op} : s.running = some c → (∀ now tr, Polls s t now tr .returns) → Returns w c t s ops
  | there {s s1 : S} {op : Op} {ops : List Op} : Does w s op s1 → Returns w c t s1 ops → Returns w c t s (op :: ops)

end Verif.Sched
