import Verif.Post.Model

/-! # What is said about the delivery of events -/

namespace Verif.Post
open Verif.Sched Verif.Mbox Verif.Eq Verif.Chat Verif.Ev

/-- What the host sends. A value is missing if its flat form is not readable. -/
inductive Letter where
  | handler (v : Option T)
  /-- A value for the handler that needs no memory. -/
  | small (v : T)
  | unblock (c : Cid) (v : Option T)
  | define (key : Nat) (v : Option T)
  | call (arg : Nat)

/-- What an operation of the host sends. -/
def letter (word : Nat → T) (bufs : Nat → Option (Option T)) : POp → Option Letter
  | .event a _ => some (.handler (bufs a).join)
  | .unboxed v _ => some (.small (word v))
  | .define key a _ => some (.define key (bufs a).join)
  | .unblock c a _ => some (.unblock c (bufs a).join)
  | .callback arg => some (.call arg)
  | _ => none

/-- The buffer an operation of the host hands over. -/
def handsOver : POp → Option Nat
  | .event a _ | .define _ a _ | .unblock _ a _ => some a
  | _ => none

/-- The value that arrives: the value that was sent, or `eval_error` if it is not readable or there is no memory for it. -/
def arrives (room : Bool) : Option T → T
  | some v => if room then v else .sym symEerror
  | none => .sym symEerror

/-- The operation can happen; `own` are the buffers that belong to the host. A buffer that is handed over belongs to the host and is not empty, and a new buffer is not in use. -/
def POk (own : List Nat) (p : P) : POp → Prop
  | .act a => Ok p.w a
  | .flat a _ => p.bufs a = none
  | .drop a => a ∈ own
  | .event a len | .define _ a len | .unblock _ a len => a ∈ own ∧ 0 < len
  | _ => True

/-- The buffers of the host after the operation. A buffer that is handed over belongs to the evaluator if the event is accepted. -/
def ownAfter (own : List Nat) (ok : Bool) : POp → List Nat
  | .flat a _ => a :: own
  | .drop a => own.erase a
  | op => match handsOver op with
    | some a => if ok then own.erase a else own
    | none => own

/-- The step ends in `q` with the flag `ok`. -/
def PDoes (F : Flt) (word : Nat → T) (w : Nat) (p : P) (op : POp) (q : P) (ok : Bool) : Prop := ∃ n, ∀ f ≥ n, pstep F word w f p op = some (q, ok)

/-- What happened so far: the letters that were accepted, how many of them are delivered, and the buffers that belong to the host. -/
structure Log where
  accepted : List Letter
  delivered : Nat
  own : List Nat

/-- The log after a step. -/
def logAfter (word : Nat → T) (p : P) (l : Log) (op : POp) (ok : Bool) : Log :=
  ⟨match letter word p.bufs op with
    | some x => if ok then l.accepted ++ [x] else l.accepted
    | none => l.accepted,
   match op with
    | .deliver _ => if ok then l.delivered + 1 else l.delivered
    | _ => l.delivered,
   ownAfter l.own ok op⟩

/-- States of some execution from the start, with a queue for `max` events, and what happened so far. -/
inductive PReach (F : Flt) (word : Nat → T) (w max : Nat) : P → Log → Prop
  | start {k : Links} {info : Cid → Info} {box : Cid → Mbox T} : PReach F word w max ⟨Chat.start k info box, initEvents max, -1, fun _ => none, fun _ => none, [], []⟩ ⟨[], 0, []⟩
  | step {p q : P} {l : Log} {op : POp} {ok : Bool} : PReach F word w max p l → POk l.own p op → PDoes F word w p op q ok → PReach F word w max q (logAfter word p l op ok)

/-- The letters that are not delivered. -/
def Log.pending (l : Log) : List Letter := l.accepted.drop l.delivered

/-- The values for the event handler among some letters; `rooms i` tells whether there is memory for letter number `i`. -/
def forHandler (rooms : Nat → Bool) : Nat → List Letter → List T
  | _, [] => []
  | i, .handler v :: l => arrives (rooms i) v :: forHandler rooms (i + 1) l
  | i, .small v :: l => v :: forHandler rooms (i + 1) l
  | i, _ :: l => forHandler rooms (i + 1) l

/-- The context is blocked by an extension and can be unblocked by the host. -/
def Stopped (x : W) (c : Cid) : Prop := ∃ r b, Placed x.s x.live r b ∧ c ∈ b ∧ ((x.s.info c).state = .blocked ∨ (x.s.info c).state = .timeout)

/-- What a letter does when it is delivered. A value for the event handler is sent to it as a message (see `C115_send`); a context that is blocked is unblocked and continues with the value; a definition or a call is made. -/
def Effect (F : Flt) (w : Nat) (room : Bool) (p q : P) : Letter → Prop
  | .handler v => (if p.handler < 0 then q.w = p.w else ∃ ok, Acts F w p.w (.send p.handler.toNat (arrives room v)) q.w (.sent ok)) ∧ q.ret = p.ret ∧ q.defs = p.defs ∧ q.calls = p.calls
  | .small v => (if p.handler < 0 then q.w = p.w else ∃ ok, Acts F w p.w (.send p.handler.toNat v) q.w (.sent ok)) ∧ q.ret = p.ret ∧ q.defs = p.defs ∧ q.calls = p.calls
  | .unblock c v => Acts F w p.w (.sched (.unblock c)) q.w .none ∧ (Stopped p.w c → q.ret = put p.ret c (some (arrives room v))) ∧ (¬ Stopped p.w c → q.ret = p.ret) ∧ q.defs = p.defs ∧ q.calls = p.calls
  | .define key v => q.w = p.w ∧ q.ret = p.ret ∧ q.defs = p.defs ++ [(key, arrives room v)] ∧ q.calls = p.calls
  | .call arg => q.w = p.w ∧ q.ret = p.ret ∧ q.defs = p.defs ∧ q.calls = p.calls ++ [arg]

end Verif.Post
