import Verif.Arith.Model

/-!
# The quota of evaluation steps (C138)

The inner loop of `lbm_run_eval` (`src/eval_cps.c:5382-5410`) and `set-eval-quota`.
-/

namespace Verif.Quota

open Verif.Val (Build)

/-- What the loop looks at: `eval_steps_quota`, `eval_steps_refill`, `ctx_running` and the queue of ready contexts (eval_cps.c:217-218). Atomic blocks are C34, requests to stop the loop are C92: both are left out here. -/
structure S where
  quota : Nat
  refill : Nat
  running : Option Nat
  queue : List Nat

/-- What happens in one iteration of the loop. -/
inductive Ev where
  /-- An evaluation step of the running context: whether it is still the running one afterwards (it may end or block), which contexts stay in the queue (it may kill others), which are put behind (it may spawn or unblock some), and `set-eval-quota`. -/
  | step (stays : Bool) (keep : Nat → Bool) (new : List Nat) (setRefill : Option Nat)
  /-- The other branch: `unblocked` are the contexts that events unblock, `woken` those whose time has come. -/
  | turn (unblocked woken : List Nat)

/-- The first of the queue becomes the running context (`dequeue_ctx_nm`, eval_cps.c:1104-1122; 5400). -/
def dequeue (q : List Nat) : Option Nat × List Nat :=
  match q with
  | [] => (none, [])
  | c :: r => (some c, r)

/-- One iteration (eval_cps.c:5382-5410). The result has the context that made an evaluation step. `none`: the loop does something else than this event. -/
def iter (s : S) : Ev → Option (S × Option Nat)
  | .step stays keep new setRefill =>
    match s.running with
    | none => none
    | some c =>
      if s.quota = 0 then none
      else some (⟨s.quota - 1, setRefill.getD s.refill, if stays then some c else none, s.queue.filter keep ++ new⟩, some c)
  | .turn unblocked woken =>
    if s.running.isSome ∧ s.quota ≠ 0 then none
    else
      -- 5388; 5393; 5395-5398; 5399; 5400
      let (r, q) := dequeue (s.queue ++ unblocked ++ s.running.toList ++ woken)
      some (⟨s.refill, s.refill, r, q⟩, none)

/-- Iterations one after the other, with the contexts that made the steps, in order. -/
def run (s : S) : List Ev → Option (S × List Nat)
  | [] => some (s, [])
  | e :: es =>
    match iter s e with
    | none => none
    | some (s', c) =>
      match run s' es with
      | none => none
      | some (s'', l) => some (s'', c.toList ++ l)

/-- `ext_eval_set_quota` (src/extensions/runtime_extensions.c:39-44, with `lbm_set_eval_step_quota`, eval_cps.c:220-222): the new value of `eval_steps_refill`. `none` is an error. -/
def setQuota {b : Build} (F : Arith.FOps) : List (Arith.V b) → Option Nat
  | [.num n] => some (Arith.decAsU32 F (.num n)).toNat
  | _ => none

end Verif.Quota
