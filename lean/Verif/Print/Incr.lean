import Verif.Print.ParseProps

/-!
# Reading and evaluating a program expression by expression

`read-eval-program`: `apply_read_base` with `incremental` (`src/eval_cps.c:2355-2428`), `cont_read_eval_continue` (4238-4270), case 4 of `read_finish` (3685-3742), `cont_read_done` (4336-4362). The evaluator
is a parameter: a function from the heap, the symbol table and everything else, and the value to be evaluated, to the same afterwards and the result. The flags for constant data and the row numbers are
left out.
-/

namespace Verif.Print

open Verif.Tok (Byte ascii Token Stream)
open Verif.Eq (T NTy Val Heap Obj)

/-- What an evaluation can read and change. -/
structure World (G : Type) where
  h : Heap
  nxt : Nat
  tab : Sym.Tab
  rest : G

/-- The evaluator; `none` if the evaluation ends with an error or does not end. -/
abbrev Evaluator (G : Type) := World G → Val → Option (World G × Val)

/-- The state: the reader, whose stack `K` is what lies above `READ_EVAL_CONTINUE`; the part of the world that the reader does not use; the evaluations so far. -/
structure IS (G : Type) where
  m : RS
  rest : G
  calls : List (World G × Val)

/-- The world of a state. -/
def IS.world {G : Type} (s : IS G) : World G := ⟨s.m.h, s.m.nxt, s.m.tab, s.rest⟩

/-- Why the process stops: an error of the reader, undefined behaviour, code that is not modelled, an evaluation without result. -/
inductive Why where
  | error
  | ub
  | unmodelled
  | failed
  deriving DecidableEq

/-- Outcome of a step. -/
inductive IRes (G : Type) where
  | run (s : IS G)
  | done (s : IS G)
  | stop (why : Why) (calls : List (World G × Val))

/-- A step of the reader. -/
def IS.lift {G : Type} (s : IS G) : RRes → IRes G
  | .run m => .run { s with m := m }
  | .done _ => .stop .ub s.calls
  | .error => .stop .error s.calls
  | .ub => .stop .ub s.calls
  | .unmodelled => .stop .unmodelled s.calls

/-- One continuation. With the stack of the reader empty this is `cont_read_eval_continue` (`src/eval_cps.c:4238-4270`): a closing bracket goes on to `cont_read_done`, which takes it for an error; a dot
is an error; everything else is evaluated, and then the next token is read. At the end of the text with no expression begun this is case 4 of `read_finish` (3708-3724) and `cont_read_done` (4336-4362). -/
def istep {G : Type} (D : Dev) (ev : Evaluator G) (s : IS G) : IRes G :=
  match s.m.K with
  | [] =>
    if s.m.r = symClosePar then .stop .error s.calls
    else if s.m.r = symDot then .stop .error s.calls
    else
      match ev s.world s.m.r with
      | some (w, v) => .run ⟨{ s.m with h := w.h, nxt := w.nxt, tab := w.tab, K := [.next], r := v }, w.rest, s.calls ++ [(s.world, s.m.r)]⟩
      | none => .stop .failed (s.calls ++ [(s.world, s.m.r)])
  | [.next] =>
    match Tok.nextToken s.m.s with
    | (.finished, _) => if isTokSym s.m.r then .stop .error s.calls else .done s
    | _ => s.lift (rstep D s.m)
  | _ => s.lift (rstep D s.m)

/-- Steps. -/
def irun {G : Type} (D : Dev) (ev : Evaluator G) : Nat → IS G → IRes G
  | 0, s => .run s
  | n + 1, s =>
    match istep D ev s with
    | .run s' => irun D ev n s'
    | r => r

/-- The start of `(read-eval-program str)` (`src/eval_cps.c:2355-2428`). -/
def incrStart {G : Type} (w : World G) (text : List Byte) : IS G :=
  ⟨{ h := w.h, nxt := w.nxt, tab := w.tab, s := ⟨cstr text, true, false⟩, total := (cstr text).length, K := [.next], r := .sym 0 }, w.rest, []⟩

end Verif.Print
