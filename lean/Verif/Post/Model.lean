import Verif.Chat.Props
import Verif.Ev.Props

/-!
# The delivery of events

The host puts events into the queue (`Verif.Ev`), the evaluator takes them out and hands them over to processes (`Verif.Chat`): `process_events` and what it calls in `src/eval_cps.c`.

Simplifications:
* What it means to read a flat value (`lbm_unflatten_value`) is C13 to C15: here a buffer holds the value it stands for, or nothing if it is not properly formed. Whether there is memory for the value is up to the
  environment.
* `word` tells which value an unboxed word stands for (C11).
* What defining a value means is C20 and C74: here the definitions are collected in `defs`. The calls of the host's function are collected in `calls`.
* A context that is unblocked with an error ends: here only the value it continues with is given, in `ret`.
-/

namespace Verif.Post
open Verif.Sched Verif.Mbox Verif.Eq Verif.Chat Verif.Ev

/-- The processes, the event queue, the number of the event handler (`lbm_event_handler_pid`), and the buffers of flat values in memory. -/
structure P where
  w : W
  ring : Ring
  handler : Int
  bufs : Nat → Option (Option T)
  ret : Cid → Option T
  defs : List (Nat × T)
  calls : List Nat

/-- `SYM_EERROR`, `include/lbm_defines.h:155`. -/
def symEerror : Nat := 0x22

/-- Changes the contents of an address. -/
def poke (g : Nat → Option (Option T)) (a : Nat) (v : Option (Option T)) : Nat → Option (Option T) := fun d => if d = a then v else g d

/-- `get_event_value`, `src/eval_cps.c:5280-5297`: the value, and the buffer is freed. `none`: the buffer is not there. `room`: there is memory for the value. -/
def getValue (word : Nat → T) (bufs : Nat → Option (Option T)) (e : Event) (room : Bool) : Option (T × (Nat → Option (Option T))) :=
  if e.bufLen > 0 then
    match bufs e.bufPtr with
    | none => none
    | some x =>
      some (match x, room with
        | some v, true => v
        | _, _ => .sym symEerror, poke bufs e.bufPtr none)
  else some (word e.bufPtr, bufs)

/-- One event is handled: the body of the loop of `process_events`, `src/eval_cps.c:5306-5325`. -/
def handle (word : Nat → T) (w f : Nat) (p : P) (e : Event) (room : Bool) : Option P :=
  match getValue word p.bufs e room with
  | none => none
  | some (v, bufs) =>
    match e.type with
    | 0 =>
      if p.handler ≥ 0 then
        match Chat.send f p.w p.handler.toNat v with
        | none => none
        | some (x, _) => some { p with w := x, bufs := bufs }
      else some { p with bufs := bufs }
    | 1 =>
      -- `handle_event_unblock_ctx`, 5248-5265
      match release TState.unblockable f p.w.s e.parameter with
      | none => none
      | some (_, t) =>
        match Chat.sched w f p.w (.unblock e.parameter) with
        | none => none
        | some (x, _) => some { p with w := x, bufs := bufs, ret := if t then put p.ret e.parameter (some v) else p.ret }
    | 2 => some { p with bufs := bufs, defs := p.defs ++ [(e.parameter, v)] }
    | 3 => some { p with bufs := bufs, calls := p.calls ++ [e.parameter] }
    | _ => some { p with bufs := bufs }

/-- One round of the loop of `process_events`, `src/eval_cps.c:5305-5326`. The flag: there was an event. -/
def deliver (word : Nat → T) (w f : Nat) (p : P) (room : Bool) : Option (P × Bool) :=
  match pop p.ring with
  | none => none
  | some (ring, none) => some ({ p with ring := ring }, false)
  | some (ring, some e) => (handle word w f { p with ring := ring } e room).map fun q => (q, true)

/-- `process_events`, `src/eval_cps.c:5299-5327`, if no event is added meanwhile; `rooms i` tells whether there is memory for the value of event `i`. -/
def processEvents (word : Nat → T) (w f : Nat) (rooms : Nat → Bool) : Nat → Nat → P → Option P
  | 0, _, _ => none
  | n + 1, i, p =>
    if !p.ring.present then some p
    else
      match deliver word w f p (rooms i) with
      | none => none
      | some (q, false) => some q
      | some (q, true) => processEvents word w f rooms n (i + 1) q

/-- What can happen. -/
inductive POp where
  /-- The processes and the scheduler do something. -/
  | act (a : Act)
  /-- The host makes a flat value. -/
  | flat (a : Nat) (x : Option T)
  /-- The host frees a flat value. -/
  | drop (a : Nat)
  /-- `lbm_event`. -/
  | event (a len : Nat)
  /-- `lbm_event_unboxed`; `imm`: the value is a symbol, i, u or char. -/
  | unboxed (v : Nat) (imm : Bool)
  /-- `lbm_event_define`. -/
  | define (key a len : Nat)
  /-- `lbm_unblock_ctx`. -/
  | unblock (c : Cid) (a len : Nat)
  /-- `lbm_event_run_user_callback`. -/
  | callback (arg : Nat)
  /-- `(event-register-handler pid)` or `lbm_set_event_handler_pid`. -/
  | register (pid : Int)
  /-- The evaluator takes an event out of the queue. -/
  | deliver (room : Bool)

/-- The event that an operation asks for: `lbm_event`, `lbm_event_unboxed`, `lbm_event_define`, `lbm_event_run_user_callback` (`src/eval_cps.c:346-371`) and `lbm_unblock_ctx` (1395-1397). -/
def posts (p : P) : POp → Option (Option (Ring × Bool))
  | .event a len => some (Ev.event p.ring p.handler a len)
  | .unboxed v imm => some (eventUnboxed p.ring p.handler imm v)
  | .define key a len => some (push p.ring ⟨2, key, a, len⟩)
  | .unblock c a len => some (push p.ring ⟨1, c, a, len⟩)
  | .callback arg => some (push p.ring ⟨3, arg, 0, 0⟩)
  | _ => none

/-- One step. The flag is what the functions for the host return. -/
def pstep (F : Flt) (word : Nat → T) (w f : Nat) (p : P) (op : POp) : Option (P × Bool) :=
  match posts p op with
  | some none => none
  | some (some (ring, ok)) => some ({ p with ring := ring }, ok)
  | none =>
    match op with
    | .act a => (wstep F w f p.w a).map fun r => ({ p with w := r.1 }, true)
    | .flat a x => some ({ p with bufs := poke p.bufs a (some x) }, true)
    | .drop a => some ({ p with bufs := poke p.bufs a none }, true)
    -- `lbm_set_event_handler_pid`, 317-319
    | .register pid => some ({ p with handler := pid }, true)
    | .deliver room => deliver word w f p room
    | _ => none

end Verif.Post
