/-
Model of how other threads pause, continue, reset and kill the evaluator, `src/eval_cps.c:217-227`, 5214-5247 and 5331-5411.

Simplifications:
* One other thread. Every access to a shared variable is one step, and steps of the two threads interleave in any way (sequential consistency; `eval_cps_run_state` is
  not volatile in the code, here it is read when the text says so).
* What the evaluator computes is not modelled. Whether there is a running context is not modelled either, so a quantum may end at any time; it ends at the latest when the
  quota is used up.
-/

namespace Verif.Ctl

/-- `EVAL_CPS_STATE_…`, `include/eval_cps.h:30-35`. -/
inductive St where
  | none | paused | running | kill | dead | reset
  deriving DecidableEq, Repr

/-- Where the evaluator thread is in `lbm_run_eval`. -/
inductive Pc where
  /-- line 5343, reading `eval_cps_state_changed` -/
  | top
  /-- line 5343, reading `eval_cps_run_state` -/
  | check
  /-- line 5344 -/
  | clear
  /-- line 5345, reading `eval_cps_next_state` -/
  | switch
  /-- lines 5347-5362 -/
  | resetting
  /-- lines 5364-5367 -/
  | pause1
  /-- line 5368 -/
  | pause2
  /-- line 5369 -/
  | pause3
  /-- line 5374 -/
  | killing
  /-- line 5378, reading `eval_cps_next_state` again -/
  | setRun
  /-- lines 5382-5409 -/
  | inner
  /-- the thread has ended -/
  | over
  deriving DecidableEq, Repr

/-- Where the other thread is. -/
inductive Host where
  | idle
  /-- about to write `eval_cps_next_state_arg` -/
  | arg (k : Nat) (c : St)
  /-- about to write `eval_cps_next_state` -/
  | next (c : St)
  /-- about to compare `eval_cps_next_state` and `eval_cps_run_state` -/
  | cmp
  /-- about to set `eval_cps_state_changed` -/
  | set
  deriving DecidableEq, Repr

/-- The variables of lines 217-227. `asked` is the value of `eval_cps_next_state_arg` with which the evaluator last decided about garbage collection before it paused. -/
structure S where
  next : St
  arg : Nat
  changed : Bool
  run : St
  quota : Nat
  pc : Pc
  host : Host
  asked : Nat
  deriving DecidableEq, Repr

/-- Initial values (lines 218-227) after `lbm_eval_init` (line 5445), when the evaluator thread starts. -/
def init (quota : Nat) : S := ⟨.none, 0, false, .running, quota, .top, .idle, 0⟩

/-- The functions that other threads call, lines 5216-5242. -/
inductive Call where
  | reset | pause | pauseGc (k : Nat) | continue | kill
  deriving DecidableEq, Repr

/-- The first thing a call does. -/
def Call.start : Call → Host
  | .reset => .arg 0 .reset
  | .pause => .arg 0 .paused
  | .pauseGc k => .arg k .paused
  | .continue => .next .running
  | .kill => .next .kill

/-- One step of the other thread inside a call, lines 5216-5242. -/
def hostGo (s : S) : Option S :=
  match s.host with
  | .idle => Option.none
  | .arg k c => some { s with arg := k, host := .next c }
  | .next c => some { s with next := c, host := .cmp }
  | .cmp => some { s with host := if s.next ≠ s.run then .set else .idle }
  | .set => some { s with changed := true, host := .idle }

/-- One step of the evaluator thread, lines 5342-5411, apart from evaluation steps. In the inner loop this is the end of a quantum; `refill` is `eval_steps_refill`. -/
def evalGo (refill : Nat) (s : S) : Option S :=
  match s.pc with
  | .top => some { s with pc := if s.changed then .clear else .check }
  | .check => some { s with pc := if s.run = .paused then .clear else .inner }
  | .clear => some { s with changed := false, pc := .switch }
  | .switch => some { s with pc := match s.next with
      | .reset => .resetting
      | .paused => .pause1
      | .kill => .killing
      | _ => .setRun }
  | .resetting =>
    if s.run ≠ .reset then some { s with quota := refill, run := .reset, pc := .top } else some { s with pc := .top }
  | .pause1 => if s.run ≠ .paused then some { s with asked := s.arg, pc := .pause2 } else some { s with pc := .top }
  | .pause2 => some { s with arg := 0, pc := .pause3 }
  | .pause3 => some { s with run := .paused, pc := .top }
  | .killing => some { s with run := .dead, pc := .over }
  | .setRun => some { s with run := s.next, pc := .inner }
  | .inner => if s.changed then some { s with pc := .top } else some { s with quota := refill }
  | .over => Option.none

/-- An evaluation step, lines 5383-5385. If it ends with an error, `longjmp` leads back to line 5340. -/
def evalStep (fails : Bool) (s : S) : Option S :=
  if s.pc = .inner ∧ 0 < s.quota then some { s with quota := s.quota - 1, pc := if fails then .top else .inner } else Option.none

/-- What can happen. -/
inductive Ev where
  | call (c : Call)
  | host
  | go (refill : Nat)
  | eval (fails : Bool)
  deriving DecidableEq, Repr

def step (s : S) : Ev → Option S
  | .call c => if s.host = .idle then some { s with host := c.start } else Option.none
  | .host => hostGo s
  | .go refill => evalGo refill s
  | .eval fails => evalStep fails s

/-- The evaluator reads or writes the heap, the memory, the queues or the events in this step: an evaluation step (line 5385), scheduling with event processing and
garbage collection (lines 5390-5403), clearing the queues (5348-5353), or garbage collection before a pause (5366). -/
def touches (s : S) : Ev → Bool
  | .eval _ => true
  | .go _ => match s.pc with
    | .inner => !s.changed
    | .resetting => decide (s.run ≠ .reset)
    | .pause1 => decide (s.run ≠ .paused)
    | _ => false
  | _ => false

end Verif.Ctl
