import Verif.Mem.Model

/-! Continuations of `call-cc` in the memory: stacks of processes and the arrays that hold copies of them, `src/eval_cps.c:1751-1780`
(`eval_callcc`), `src/eval_cps.c:4425-4460` (application of a continuation) and `src/stack.c`.

Simplified: the header of the array of a continuation and its cell are left out (they are blocks of the same kind; C120 has them for byte
arrays). Which words the evaluator pushes and pops is not part of this model: it may push and pop what it likes. -/

namespace Verif.Kont
open Verif.Mem

/-- A block is the stack of a process, or the array of a continuation that the process with the stack `owner` has captured. -/
inductive Kind
  | stack
  | saved (owner : Nat)
deriving DecidableEq, Repr

/-- `base` is the address of the data, `size` the number of words, `used` the stack pointer (`lbm_stack_t`, `include/stack.h:30-35`). In an array
all words are in use. -/
structure Obj where
  base : Nat
  size : Nat
  used : Nat
  kind : Kind
deriving DecidableEq, Repr

/-- The memory, the contents of its words, and the stacks and arrays by number; `none` is one that was given back. -/
structure Sys where
  mem : Mem
  word : Nat → Nat
  objs : List (Option Obj)

def get (s : Sys) (i : Nat) : Option Obj := (s.objs[i]?).join

def setWord (f : Nat → Nat) (i v : Nat) : Nat → Nat := fun j => if j = i then v else f j

/-- `memset` of `n` words. -/
def fill (f : Nat → Nat) (d n v : Nat) : Nat → Nat := fun j => if d ≤ j ∧ j < d + n then v else f j

/-- `memcpy` of `n` words from `b` to `d`. -/
def copy (f : Nat → Nat) (d b n : Nat) : Nat → Nat := fun j => if d ≤ j ∧ j < d + n then f (b + (j - d)) else f j

/-- A new process: `lbm_stack_allocate`, `src/stack.c:32-42`. -/
def spawn (s : Sys) (n : Nat) : Option (Sys × Option Nat) :=
  (allocate s.mem n).map fun r =>
    match r with
    | (m, none) => (⟨m, s.word, s.objs⟩, none)
    | (m, some p) => (⟨m, fill s.word p n 0x55555555, s.objs ++ [some ⟨p, n, 0, .stack⟩]⟩, some s.objs.length)

/-- `lbm_push`, `src/stack.c:82-89`. -/
def push (s : Sys) (i v : Nat) : Sys × Bool :=
  match get s i with
  | some ⟨b, n, u, .stack⟩ => if u = n then (s, false) else (⟨s.mem, setWord s.word (b + u) v, s.objs.set i (some ⟨b, n, u + 1, .stack⟩)⟩, true)
  | _ => (s, false)

/-- `lbm_stack_drop`, `src/stack.c:74-80`. -/
def drop (s : Sys) (i k : Nat) : Sys × Bool :=
  match get s i with
  | some ⟨b, n, u, .stack⟩ => if k > u then (s, false) else (⟨s.mem, s.word, s.objs.set i (some ⟨b, n, u - k, .stack⟩)⟩, true)
  | _ => (s, false)

/-- `eval_callcc`, `src/eval_cps.c:1751-1780`, up to the second `stack_reserve`: `flag` is the word for `is_atomic`, `env` the word that takes its place
on the stack. A collection before the second attempt to allocate is one of the steps in between. The result is the number of the array. Without
memory the error leaves the flag above the stack. -/
def capture (s : Sys) (i flag env : Nat) : Option (Sys × Option Nat) :=
  match get s i with
  | some ⟨b, n, u, .stack⟩ =>
    if u + 1 < n then
      (allocate s.mem (u + 1)).map fun r =>
        match r with
        | (m, none) => (⟨m, setWord s.word (b + u) flag, s.objs⟩, none)
        | (m, some p) =>
          (⟨m, setWord (copy (setWord s.word (b + u) flag) p b (u + 1)) (b + u) env,
            s.objs.set i (some ⟨b, n, u + 1, .stack⟩) ++ [some ⟨p, u + 1, u + 1, .saved i⟩]⟩, some s.objs.length)
    else some (s, none)
  | _ => some (s, none)

/-- Process `i` applies the continuation `c`, `src/eval_cps.c:4448-4456`: the stack pointer is set, the array is copied to the stack and the last word is taken
off. There is no test that the stack is large enough. The result is the word that was taken off. -/
def resume (s : Sys) (i c : Nat) : Sys × Option Nat :=
  match get s i, get s c with
  | some ⟨b, n, _, .stack⟩, some ⟨p, k, _, .saved _⟩ =>
    let f := copy s.word b p k
    (⟨s.mem, f, s.objs.set i (some ⟨b, n, k - 1, .stack⟩)⟩, some (f (b + (k - 1))))
  | _, _ => (s, none)

/-- The end of a process, or the sweep of an array by the collector: the block is given back. -/
def release (s : Sys) (i : Nat) : Sys :=
  match get s i with
  | some o => ⟨(free s.mem o.base).1, s.word, s.objs.set i none⟩
  | none => s

end Verif.Kont
