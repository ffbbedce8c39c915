import Verif.Eval.Cells

/-!
# The loop macros

`loopfor`, `loopwhile`, `looprange` and `loopforeach`, `src/extensions/loop_extensions.c`. They are macros (lines 170-175) whose bodies call the functions `me-loopfor` and
so on with the unevaluated arguments; these build the code that is then evaluated. The store is that of the evaluator model with the number of free cells.
-/

namespace Verif.LoopExt

open Verif.Eval

/-- `ENC_SYM_MERROR`. -/
abbrev merror : V := .sym 0x23

/-- A store and the number of free cells. -/
structure Hp where
  st : St
  free : Nat

/-- `make_list`, `src/extensions/loop_extensions.c:28-35`, `lbm_heap_allocate_list_init_va`, `src/heap.c:597-619`: nothing is allocated if there are too few cells. -/
def makeList (h : Hp) (l : List V) : Hp × V :=
  if l = [] then (h, .nil)
  else if h.free < l.length then (h, merror)
  else (⟨(cellList h.st l).1, h.free - l.length⟩, (cellList h.st l).2)

/-- Nested calls of `make_list`: a value, or a list. -/
inductive Tm where
  | v (x : V)
  | l (ts : List Tm)

mutual
/-- The value of nested calls of `make_list`. C does not say in which order the arguments of a call are evaluated: `rtl` is from right to left. -/
def build (rtl : Bool) : Tm → Hp → Hp × V
  | .v x, h => (h, x)
  | .l ts, h =>
    let (h1, vs) := buildArgs rtl ts h
    makeList h1 vs
/-- The arguments of a call. -/
def buildArgs (rtl : Bool) : List Tm → Hp → Hp × List V
  | [], h => (h, [])
  | t :: ts, h =>
    if rtl then
      let (h1, vs) := buildArgs rtl ts h
      let (h2, x) := build rtl t h1
      (h2, x :: vs)
    else
      let (h1, x) := build rtl t h
      let (h2, vs) := buildArgs rtl ts h1
      (h2, x :: vs)
end

/-- The symbols `a01`, `a02`, `break`, `a03` and `a04`, `src/extensions/loop_extensions.c:177-183`. -/
structure Ids where
  res : Nat
  loop : Nat
  brk : Nat
  k : Nat
  rst : Nat

/-- They are ordinary symbols with different names. -/
def Ids.Ok (I : Ids) : Prop :=
  runtimeStart ≤ I.res ∧ runtimeStart ≤ I.loop ∧ runtimeStart ≤ I.brk ∧ runtimeStart ≤ I.k ∧ runtimeStart ≤ I.rst ∧
    I.res ≠ I.loop ∧ I.res ≠ I.brk ∧ I.res ≠ I.k ∧ I.res ≠ I.rst ∧ I.loop ≠ I.brk ∧ I.loop ≠ I.k ∧ I.loop ≠ I.rst ∧ I.brk ≠ I.k ∧ I.brk ≠ I.rst ∧ I.k ≠ I.rst

/-- A symbol. -/
abbrev sy (n : Nat) : Tm := .v (.sym n)

/-- The part that is the same in all four: `(let ((a02 (lambda params test))) (call-cc (lambda (a03) (a02 init ...))))`. -/
def letLoop (I : Ids) (params : List Tm) (test : Tm) (init : List Tm) : Tm :=
  .l [sy 0x105, .l [.l [sy I.loop, .l [sy 0x103, .l params, test]]],
    .l [sy 0x10B, .l [sy 0x103, .l [sy I.k], .l (sy I.loop :: init)]]]

/-- `ext_me_loopfor`, `src/extensions/loop_extensions.c:49-70`. -/
def forTm (I : Ids) (it start cond update body : V) : Tm :=
  letLoop I [.v it, sy I.res, sy I.brk] (.l [sy 0x104, .v cond, .l [sy I.loop, .v update, .v body, sy I.brk], sy I.res]) [.v start, .v .nil, sy I.k]

/-- `ext_me_loopwhile`, `src/extensions/loop_extensions.c:81-99`. -/
def whileTm (I : Ids) (cond body : V) : Tm :=
  letLoop I [sy I.res, sy I.brk] (.l [sy 0x104, .v cond, .l [sy I.loop, .v body, sy I.brk], sy I.res]) [.v .nil, sy I.k]

/-- `ext_me_looprange`, `src/extensions/loop_extensions.c:113-131`; `SYM_LT`, `SYM_ADD`, `include/lbm_defines.h`; `one` is the integer 1. -/
def rangeTm (I : Ids) (one it start end_ body : V) : Tm :=
  letLoop I [.v it, sy I.res, sy I.brk]
    (.l [sy 0x104, .l [sy 0x20009, .v it, .v end_], .l [sy I.loop, .l [sy 0x20000, .v it, .v one], .v body, sy I.brk], sy I.res]) [.v start, .v .nil, sy I.k]

/-- `ext_me_loopforeach`, `src/extensions/loop_extensions.c:145-167`; `SYM_EQ`, `SYM_CAR`, `SYM_CDR`, `include/lbm_defines.h`. -/
def foreachTm (I : Ids) (it lst body : V) : Tm :=
  letLoop I [.v it, sy I.rst, sy I.res, sy I.brk]
    (.l [sy 0x104, .l [sy 0x20005, .v it, .v .nil], sy I.res,
      .l [sy I.loop, .l [sy 0x20012, sy I.rst], .l [sy 0x20013, sy I.rst], .v body, sy I.brk]])
    [.l [sy 0x20012, .v lst], .l [sy 0x20013, .v lst], .v .nil, sy I.k]

/-- The four functions, `src/extensions/loop_extensions.c:37-168`: another number of arguments is an error. -/
inductive Fn where
  | for_
  | while_
  | range
  | foreach
  deriving DecidableEq

/-- The nested calls of `make_list`, if the number of arguments is right. -/
def Fn.tm (I : Ids) (one : V) : Fn → List V → Option Tm
  | .for_, [it, start, cond, update, body] => some (forTm I it start cond update body)
  | .while_, [cond, body] => some (whileTm I cond body)
  | .range, [it, start, end_, body] => some (rangeTm I one it start end_ body)
  | .foreach, [it, lst, body] => some (foreachTm I it lst body)
  | _, _ => none

/-- A call of one of the functions. -/
def expand (rtl : Bool) (I : Ids) (one : V) (f : Fn) (args : List V) (h : Hp) : Hp × V :=
  match f.tm I one args with
  | none => (h, .eerror)
  | some t => build rtl t h

end Verif.LoopExt
