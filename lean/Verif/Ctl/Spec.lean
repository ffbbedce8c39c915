import Verif.Ctl.Model

/-! # Executions of the evaluator and another thread -/

namespace Verif.Ctl

/-- A sequence of steps, each of them allowed by `ok`. -/
inductive Exec (ok : S → Ev → Prop) : S → List Ev → S → Prop
  | nil {s} : Exec ok s [] s
  | cons {s s1 s' e es} : ok s e → step s e = some s1 → Exec ok s1 es s' → Exec ok s (e :: es) s'

/-- The state that a request leads to. -/
def effect : St → St
  | .none => .running
  | .kill => .dead
  | c => c

/-- The other thread makes a request only after it has seen the effect of the request before. -/
def Patient (s : S) (e : Ev) : Prop := ∀ c, e = .call c → s.run = effect s.next

/-- The evaluator has read a request (to run, to reset or to end) that it has not yet carried out. -/
def Deciding (s : S) : Prop := s.pc = .setRun ∨ s.pc = .resetting ∨ s.pc = .killing

/-- No request is made at that moment. -/
def Apart (s : S) (e : Ev) : Prop := e = .host → Deciding s → ∀ c, s.host ≠ .next c

/-- The other thread makes no requests other than to pause. -/
def OnlyPause (_ : S) (e : Ev) : Prop := ∀ c, e = .call c → c = .pause ∨ ∃ k, c = .pauseGc k

/-- Only the evaluator takes steps. -/
def Alone (_ : S) (e : Ev) : Prop := e ≠ .host ∧ ∀ c, e ≠ .call c

end Verif.Ctl
