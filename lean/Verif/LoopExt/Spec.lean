import Verif.LoopExt.Model
import Verif.Eval.Spec

/-!
# Specification of the loop macros

When a value in the store is a given piece of code, and what the loops mean in terms of the semantics of the language (`Ev`).
-/

namespace Verif.LoopExt

open Verif.Eval

mutual
/-- The value `x` is the code `t`; its cells are all in the set `D`. -/
def IsTm (D : Nat → Prop) (s : St) : V → Tm → Prop
  | x, .v y => x = y
  | x, .l ts => IsTms D s x ts
/-- The value `x` is a list of such values. -/
def IsTms (D : Nat → Prop) (s : St) : V → List Tm → Prop
  | x, [] => x = .nil
  | x, t :: ts => ∃ a, x = .cons a ∧ D a ∧ IsTm D s (s.car a) t ∧ IsTms D s (s.cdr a) ts
end

mutual
/-- The number of cells of the code. -/
def size : Tm → Nat
  | .v _ => 0
  | .l ts => sizes ts
/-- The number of cells of a list. -/
def sizes : List Tm → Nat
  | [] => 0
  | t :: ts => size t + sizes ts + 1
end

/-- The cells of `D` have not been written, and no cells have been given back. -/
def Same (D : Nat → Prop) (s s' : St) : Prop := s.next ≤ s'.next ∧ ∀ a, D a → s'.car a = s.car a ∧ s'.cdr a = s.cdr a

/-- The function, its result so far and the way out are bound in the environment. -/
def Named (I : Ids) (clo w brk : V) (s : St) (env : V) : Prop :=
  s.lookup (.sym I.loop) (s.next + 1) env = some (some clo) ∧ s.lookup (.sym I.res) (s.next + 1) env = some (some w) ∧
    s.lookup (.sym I.brk) (s.next + 1) env = some (some brk)

/-- The set with the two cells that are allocated next. -/
def With (D : Nat → Prop) (s : St) : Nat → Prop := fun a => D a ∨ a = s.next ∨ a = s.next + 1

/-- One iteration of `(loopwhile cond body)`, from its start in the environment `env` to the start of the next one in the environment `env'`. `w` and `w'` are the value of the loop so far; `base` is the
environment of the loop function. Each iteration has an environment of its own, `base` extended by the names `a01` (the value so far) and `break`. The conditions `Same` and `Named` say that the parts of
the loop do not write to its code (the cells of `D`) and do not assign to its names. -/
inductive WhileOnce (P : Prims) (I : Ids) (D : Nat → Prop) (base clo brk cond body : V) : St → V → V → St → V → V → Prop
  | mk {s s1 s2 s3 s4 env env1 env2 c w w1} :
      Ev P false s none (.exp env cond) s1 none (.ok c) → c ≠ .nil → Same D s s1 → Named I clo w brk s1 env →
      Ev P false s1 none (.exp env body) s2 none (.ok w1) → w1 ≠ .placeholder → Same D s1 s2 →
      allocBinding s2 (.sym I.res) w1 base = (s3, env1) → Named I clo w brk s3 env → allocBinding s3 (.sym I.brk) brk env1 = (s4, env2) →
      WhileOnce P I D base clo brk cond body s env w s4 env2 w1

/-- One iteration of `(loopfor it start cond update body)`. The environment of an iteration binds `it` too. In each iteration the update is evaluated before the body, and the body sees the old value
of `it`. -/
inductive ForOnce (P : Prims) (I : Ids) (D : Nat → Prop) (base clo brk it cond update body : V) : St → V → V → St → V → V → Prop
  | mk {s s1 s2 s3 s4 s5 s6 env env1 env2 env3 c i w w1} :
      Ev P false s none (.exp env cond) s1 none (.ok c) → c ≠ .nil → Same D s s1 → Named I clo w brk s1 env →
      Ev P false s1 none (.exp env update) s2 none (.ok i) → Same D s1 s2 → allocBinding s2 it i base = (s3, env1) →
      Ev P false s3 none (.exp env body) s4 none (.ok w1) → w1 ≠ .placeholder → Same (With D s2) s3 s4 →
      allocBinding s4 (.sym I.res) w1 env1 = (s5, env2) → Named I clo w brk s5 env → allocBinding s5 (.sym I.brk) brk env2 = (s6, env3) →
      ForOnce P I D base clo brk it cond update body s env w s6 env3 w1

/-- Any number of iterations. -/
inductive Many (Once : St → V → V → St → V → V → Prop) : St → V → V → St → V → V → Prop
  | none {s env w} : Many Once s env w s env w
  | more {s env w s1 env1 w1 s' env' w'} : Once s env w s1 env1 w1 → Many Once s1 env1 w1 s' env' w' → Many Once s env w s' env' w'

/-- The loop ends: the condition is nil. -/
def Ends (P : Prims) (I : Ids) (D : Nat → Prop) (clo brk cond : V) (s : St) (env w : V) (s' : St) : Prop :=
  Ev P false s none (.exp env cond) s' none (.ok .nil) ∧ Same D s s' ∧ Named I clo w brk s' env

end Verif.LoopExt
