import Verif.Gc.Model

/-!
# Specification: what may be assumed of the collector, and what "the same result" means
-/

namespace Verif.Gc

open Verif.Eval

/-- What can be reached from the roots and the global environment: the parts of cons cells, and the values in captured stacks. -/
inductive Reach (s : St) (R : List V) : V → Prop
  | root {v} (h : v ∈ R) : Reach s R v
  | glob (i : Nat) : Reach s R (s.globals i)
  | car {a} (h : Reach s R (.cons a)) : Reach s R (s.car a)
  | cdr {a} (h : Reach s R (.cons a)) : Reach s R (s.cdr a)
  | kont {n x} (h : Reach s R (.arr n)) (hx : W.v x ∈ s.konts n) : Reach s R x

/-- A collector and allocator that can be trusted with what is reachable, and with nothing else: the reachable cells
and arrays are left alone, and new ones are taken from the unreachable ones. (That the collector of the code keeps what is
reachable is C09, that allocation takes free cells C07 and C08.) Unreachable cells may be overwritten with anything, at any time. -/
structure Sound (g : Gc) : Prop where
  car : ∀ R s a, Reach s R (.cons a) → (g.collect R s).car a = s.car a
  cdr : ∀ R s a, Reach s R (.cons a) → (g.collect R s).cdr a = s.cdr a
  konts : ∀ R s n, Reach s R (.arr n) → (g.collect R s).konts n = s.konts n
  globals : ∀ R s, (g.collect R s).globals = s.globals
  atomic : ∀ R s, (g.collect R s).atomic = s.atomic
  next : ∀ R s, (g.collect R s).next = s.next
  fresh : ∀ R s, (∃ n, ∀ a, Reach s R (.cons a) → a < n) → ¬ Reach s R (.cons (g.pick R s))
  freshArr : ∀ R s, (∃ n, ∀ a, Reach s R (.arr a) → a < n) → ¬ Reach s R (.arr (g.pickArr R s))

/-- Follow a path of `car`s (`true`) and `cdr`s (`false`). -/
def look (s : St) : V → List Bool → Option V
  | v, [] => some v
  | .cons a, true :: p => look s (s.car a) p
  | .cons a, false :: p => look s (s.cdr a) p
  | _, _ :: _ => none

/-- What a program can see of a value without looking into it. -/
inductive Label where
  | sym (n : Nat)
  | u (n : Nat)
  | atom (n : Nat)
  | cons
  | arr
  deriving DecidableEq

/-- The label of a value: the address of a cell is not part of it. -/
def label : V → Label
  | .sym n => .sym n
  | .u n => .u n
  | .atom n => .atom n
  | .cons _ => .cons
  | .arr _ => .arr

/-- What a program can get at: the value that it has computed, and the buckets of the global environment. -/
def view (s : St) (v : V) : Nat → V
  | 0 => v
  | i + 1 => s.globals i

/-- Two families of values in two stores that no program can tell apart: along every path there is the same, and two paths lead to the
same cell in one store if and only if they do in the other. -/
def Same (s : St) (f : Nat → V) (s' : St) (f' : Nat → V) : Prop :=
  (∀ i p, (look s (f i) p).map label = (look s' (f' i) p).map label) ∧
  (∀ i p j q, look s (f i) p = look s (f j) q ↔ look s' (f' i) p = look s' (f' j) q)

/-- Executions that no program and no observer of the result can tell apart: both are still running, and then the value in the register `r` and the global variables are the same; or
both have ended, in the same way, with the same value and the same global variables; or both have reached something that is not modelled. -/
def SameOutcome : Out → Out → Prop
  | .next m, .next m' => Same m.st (view m.st m.r) m'.st (view m'.st m'.r)
  | .fin s v ok, .fin s' v' ok' => ok = ok' ∧ Same s (view s v) s' (view s' v')
  | .out, .out => True
  | _, _ => False

/-- A machine that starts with a store in which everything that is reachable has been allocated. -/
def WF (m : M) : Prop :=
  (∀ a, Reach m.st (roots m) (.cons a) → a < m.st.next) ∧ (∀ n, Reach m.st (roots m) (.arr n) → n < m.st.nk)

end Verif.Gc
