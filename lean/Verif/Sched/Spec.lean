import Verif.Sched.Model

/-! What the queues stand for: lists of contexts. -/

namespace Verif.Sched

/-- The contexts `l` are linked to each other in this order; the `prev` of the first is `p` and the `next` of the last is `n`. -/
def Seg (k : Links) : Option Cid → List Cid → Option Cid → Prop
  | _, [], _ => True
  | p, c :: l, n => k.prev c = p ∧ k.next c = l.head?.or n ∧ Seg k (some c) l n

/-- The doubly linked queue `q` is well formed and contains exactly the contexts `l`, in this order. -/
def IsQueue (k : Links) (q : Queue) (l : List Cid) : Prop :=
  q.first = l.head? ∧ q.last = l.getLast? ∧ Seg k none l none

/-- The operation can be performed now: a new context is at an address that is not in use, the running context exists for the operations it performs, and
blocking sets a blocked state. -/
def Allowed (s : S) (live : List Cid) : Op → Prop
  | .create c => c ∉ live
  | .finish => s.running ≠ none
  | .block t _ _ _ => s.running ≠ none ∧ t ≠ .ready
  | .send _ => True
  | .unblock _ => True
  | .kill c => s.running ≠ none ∧ s.running ≠ some c
  | .round _ => True
  | .enterAtomic _ => s.running ≠ none
  | .exitAtomic => s.running ≠ none
  | .reset => True

/-- The operation ends the running context. -/
def ends (s : S) : Op → Bool
  | .finish => true
  | .block _ _ _ trapped => s.atomic && !trapped
  | .enterAtomic trapped => s.atomic && !trapped
  | _ => false

/-- The contexts that exist after the operation. -/
def liveAfter (s : S) (live : List Cid) (op : Op) : List Cid :=
  match op with
  | .create c => c :: live
  | .reset => []
  | op => if ends s op then live.filter (fun c => decide (s.running ≠ some c)) else live

/-- The operation ends in the state `s'`. -/
def Does (w : Nat) (s : S) (op : Op) (s' : S) : Prop := ∃ n, ∀ f ≥ n, step w f s op = some s'

/-- Executions: from `s` with the contexts `live` the operations lead to `s'` with the contexts `live'`. -/
inductive Exec (w : Nat) : S → List Cid → List Op → S → List Cid → Prop
  | nil {s : S} {live : List Cid} : Exec w s live [] s live
  | cons {s s1 s2 : S} {live live' : List Cid} {op : Op} {ops : List Op} : Allowed s live op → Does w s op s1 →
      Exec w s1 (liveAfter s live op) ops s2 live' → Exec w s live (op :: ops) s2 live'

/-- States of some execution from the start. -/
def Reachable (w : Nat) (s : S) (live : List Cid) : Prop := ∃ k info ops, Exec w (init k info) [] ops s live

/-- Each context is in exactly one place: `ready` and `blocked` are the contents of the queues, and together with the running context these are all contexts, each once. The state of a context tells
whether it is blocked. -/
structure Placed (s : S) (live ready blocked : List Cid) : Prop where
  ready_ok : IsQueue s.k s.queue ready
  blocked_ok : IsQueue s.k s.blocked blocked
  all : (s.running.toList ++ ready ++ blocked).Perm live
  nodup : live.Nodup
  st_blocked : ∀ c ∈ blocked, (s.info c).state ≠ .ready
  st_ready : ∀ c ∈ s.running.toList ++ ready, (s.info c).state = .ready

/-- What an operation does to the running context and to the contents of the queues. -/
structure Places where
  running : Option Cid
  ready : List Cid
  blocked : List Cid
  deriving DecidableEq, Repr

def after (w : Nat) (s : S) (r b : List Cid) : Op → Places
  | .create c => ⟨s.running, r ++ [c], b⟩
  | .finish => ⟨none, r, b⟩
  | .block _ _ _ trapped =>
    if s.atomic then ⟨if trapped then s.running else none, r, b⟩ else ⟨none, r, b ++ s.running.toList⟩
  | .send c => if c ∈ b ∧ ((s.info c).state = .recvBl ∨ (s.info c).state = .recvTo) then ⟨s.running, r ++ [c], b.erase c⟩ else ⟨s.running, r, b⟩
  | .unblock c => if c ∈ b ∧ ((s.info c).state = .blocked ∨ (s.info c).state = .timeout) then ⟨s.running, r ++ [c], b.erase c⟩ else ⟨s.running, r, b⟩
  | .kill c => if c ∈ b then ⟨s.running, r ++ [c], b.erase c⟩ else if c ∈ r then ⟨s.running, r.erase c ++ [c], b⟩ else ⟨s.running, r, b⟩
  | .round now =>
    if s.atomic then ⟨s.running, r, b⟩
    else
      let l := r ++ s.running.toList ++ b.filter (fun c => due w now (s.info c))
      ⟨l.head?, l.tail, b.filter (fun c => !due w now (s.info c))⟩
  | .enterAtomic trapped => ⟨if s.atomic && !trapped then none else s.running, r, b⟩
  | .exitAtomic => ⟨s.running, r, b⟩
  | .reset => ⟨none, [], []⟩

/-- The atomic flag after an operation. -/
def afterAtomic (s : S) : Op → Bool
  | .block .. => false
  | .enterAtomic _ => !s.atomic
  | .exitAtomic => false
  | .reset => false
  | _ => s.atomic

/-- The contexts that get the message `timeout` during an operation. -/
def timedOut (w : Nat) (s : S) (b : List Cid) : Op → List Cid
  | .round now => if s.atomic then [] else b.filter (fun c => due w now (s.info c) && (s.info c).state.isTimeout)
  | _ => []

/-- The states with a delay: `sleep`, `yield`, blocked by an extension with a timeout, and `recv-to`. -/
def delayed : List TState := [.sleeping, .timeout, .recvTo]

/-- The states in which the delay is a timeout for something else. -/
def withTimeout : List TState := [.timeout, .recvTo]

/-- The true time since `ts` at `now`, for a clock that wraps around at `2 ^ b` and has wrapped at most once. -/
def elapsed (b now ts : Nat) : Nat := (now + 2 ^ b - ts) % 2 ^ b

end Verif.Sched
