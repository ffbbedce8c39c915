import Verif.Mbox.Model

/-! What pattern matching means, independently of the machine. -/

namespace Verif.Mbox
open Verif.Eq

/-- The bindings, left to right, of a successful match of pattern `p` with `e`: `(? x)` matches anything and binds `x`, `_` matches anything, other symbols match
themselves, pairs match component by component, and everything else matches what is structurally equal. -/
def pm (F : Flt) : T → T → Option (List (T × T))
  | p, e =>
    match binderVar p with
    | some v => some [(v, e)]
    | none =>
      match p with
      | .sym k => if k = symDontcare then some [] else if same F (.sym k) e then some [] else none
      | .cons hp tp =>
        match e with
        | .cons he te =>
          match pm F hp he with
          | none => none
          | some a => (pm F tp te).map (a ++ ·)
        | _ => none
      | p => if same F p e then some [] else none

/-- The variables of a pattern. -/
def vars : T → List T
  | .cons hp tp =>
    match binderVar (.cons hp tp) with
    | some v => [v]
    | none => vars hp ++ vars tp
  | _ => []

/-- The heap cells needed to match the clauses against one message. -/
def cost (cs : List Clause) : Nat := (cs.map fun c => 2 * (vars c.pat).length).sum

/-- Some clause matches `e`. -/
def Accepts (F : Flt) (cs : List Clause) (e : T) : Prop := ∃ c ∈ cs, (pm F c.pat e).isSome = true

/-- `c` is the first clause that matches `e`, with bindings `b`. -/
inductive First (F : Flt) (e : T) : List Clause → Clause → List (T × T) → Prop
  | here {c : Clause} {cs : List Clause} {b : List (T × T)} : pm F c.pat e = some b → First F e (c :: cs) c b
  | there {c c' : Clause} {cs : List Clause} {b : List (T × T)} : pm F c'.pat e = none → First F e cs c b → First F e (c' :: cs) c b

/-- What the symbol `k` is bound to. -/
def lookup (k : Nat) : Env → Option T
  | [] => none
  | (.sym k', v) :: env => if k' = k then some v else lookup k env
  | _ :: env => lookup k env

/-- A mailbox in use: it has room for a message, and does not claim to hold more than fit. -/
def Mbox.WF {M : Type} (m : Mbox M) : Prop := m.num ≤ m.size ∧ 0 < m.size

end Verif.Mbox
