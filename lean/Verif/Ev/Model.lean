/-
Model of the event queue of the evaluator (`src/eval_cps.c:304-396` and 5455-5470): a ring buffer shared by any number of
producer threads and the evaluator thread. Every function holds `lbm_events_mutex` while it touches the ring, so
an execution is a sequence of whole calls.

Simplifications: `unsigned int` indices are naturals (they stay below `lbm_events_max`); a write or read outside the buffer
is `none`.
-/

namespace Verif.Ev

/-- `lbm_event_t`, `include/eval_cps.h:93-98`. -/
structure Event where
  type : Nat
  parameter : Nat
  bufPtr : Nat
  bufLen : Nat
  deriving DecidableEq, Repr

/-- The static variables of `src/eval_cps.c:304-309`; `present` is `lbm_events != NULL`. -/
structure Ring where
  present : Bool
  buf : Nat → Option Event
  head : Nat
  tail : Nat
  max : Nat
  full : Bool

/-- The initial values of the static variables, `src/eval_cps.c:304-308`. -/
def start : Ring := ⟨false, fun _ => none, 0, 0, 0, false⟩

/-- `lbm_eval_init_events` with a successful allocation, `src/eval_cps.c:5455-5470`. The contents of the new buffer are
unspecified. -/
def initEvents (num : Nat) : Ring := ⟨true, fun _ => none, 0, 0, num, false⟩

/-- `event_internal`, `src/eval_cps.c:325-343`. `none` is a write outside of the buffer. -/
def push (r : Ring) (e : Event) : Option (Ring × Bool) :=
  if r.present then
    if !r.full then
      if r.head < r.max then
        let head := (r.head + 1) % r.max
        some ({ r with buf := fun i => if i = r.head then some e else r.buf i, head := head, full := head == r.tail }, true)
      else none
    else some (r, false)
  else some (r, false)

/-- `lbm_event_pop`, `src/eval_cps.c:374-385`: the event, if there is one. `none` is a read outside of the buffer or of
an entry that was never written. -/
def pop (r : Ring) : Option (Ring × Option Event) :=
  if r.head == r.tail && !r.full then some (r, none)
  else
    if r.tail < r.max then
      match r.buf r.tail with
      | none => none
      | some e => some ({ r with tail := (r.tail + 1) % r.max, full := false }, some e)
    else none

/-- `lbm_event_queue_is_empty`, `src/eval_cps.c:387-395`. -/
def isEmpty (r : Ring) : Bool := r.head == r.tail && !r.full

/-- `lbm_event_unboxed`, `src/eval_cps.c:353-364`; `immediate`: the value is a symbol, i, u or char. -/
def eventUnboxed (r : Ring) (handlerPid : Int) (immediate : Bool) (v : Nat) : Option (Ring × Bool) :=
  if immediate then
    if handlerPid > 0 then push r ⟨0, 0, v, 0⟩ else some (r, false)
  else some (r, false)

/-- `lbm_event`, `src/eval_cps.c:366-371`. -/
def event (r : Ring) (handlerPid : Int) (buf len : Nat) : Option (Ring × Bool) :=
  if handlerPid > 0 then push r ⟨0, 0, buf, len⟩ else some (r, false)

end Verif.Ev
