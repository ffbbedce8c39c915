/-!
# Stacks of words

`src/stack.c`, and the functions of `src/eval_cps.c` that work on the stack of a context. Words are natural numbers. An access outside of the block of the stack is the outcome `none`.
-/

namespace Verif.Stack

/-- `lbm_stack_t`, `include/stack.h:33-37`. -/
structure Stk where
  data : List Nat
  sp : Nat
  size : Nat
  deriving DecidableEq

/-- `STACK_UNUSED_WORD`, `src/stack.c:25-30`. -/
def unusedWord : Nat := 0x55555555

/-- `lbm_stack_create`, `lbm_stack_allocate`, `src/stack.c:32-50`, where the memory has been allocated. -/
def create (size : Nat) : Stk := ⟨List.replicate size unusedWord, 0, size⟩

/-- Read a word. -/
def Stk.get (s : Stk) (i : Nat) : Option Nat := s.data[i]?

/-- Write a word. -/
def Stk.put (s : Stk) (i v : Nat) : Option Stk := if i < s.data.length then some { s with data := s.data.set i v } else none

/-- The loop of `lbm_get_max_stack`, `src/stack.c:54-60`: `i` is one more than the index. -/
def Stk.unusedLoop (s : Stk) : Nat → Nat → Option Nat
  | 0, unused => some unused
  | i + 1, unused =>
    match s.get i with
    | none => none
    | some w => if w = unusedWord then s.unusedLoop i (unused + 1) else some unused

/-- `lbm_get_max_stack`, `src/stack.c:52-62`. -/
def Stk.maxStack (s : Stk) : Option Nat := (s.unusedLoop s.size 0).map fun u => s.size - u

/-- `lbm_stack_clear`, `src/stack.c:70-72`. -/
def Stk.clear (s : Stk) : Stk := { s with sp := 0 }

/-- `lbm_stack_drop`, `src/stack.c:74-80`. -/
def Stk.drop (s : Stk) (n : Nat) : Stk × Bool := if n > s.sp then (s, false) else ({ s with sp := s.sp - n }, true)

/-- `lbm_push`, `src/stack.c:82-89`. -/
def Stk.push (s : Stk) (v : Nat) : Option (Stk × Bool) :=
  if s.sp = s.size then some (s, false)
  else (s.put s.sp v).map fun s => ({ s with sp := s.sp + 1 }, true)

/-- `lbm_pop`, `src/stack.c:91-95`: the pointer is not compared with 0. -/
def Stk.pop (s : Stk) : Option (Stk × Nat) :=
  if s.sp = 0 then none
  else (s.get (s.sp - 1)).map fun v => ({ s with sp := s.sp - 1 }, v)

/-- `lbm_pop_2`, `src/stack.c:97-102`. -/
def Stk.pop2 (s : Stk) : Option (Stk × Nat × Nat) :=
  if s.sp < 2 then none
  else (s.get (s.sp - 1)).bind fun r0 => (s.get (s.sp - 2)).map fun r1 => ({ s with sp := s.sp - 2 }, r0, r1)

/-- `lbm_pop_3`, `src/stack.c:104-110`. -/
def Stk.pop3 (s : Stk) : Option (Stk × Nat × Nat × Nat) :=
  if s.sp < 3 then none
  else (s.get (s.sp - 1)).bind fun r0 => (s.get (s.sp - 2)).bind fun r1 => (s.get (s.sp - 3)).map fun r2 => ({ s with sp := s.sp - 3 }, r0, r1, r2)

/-- Write words from an index on. -/
def Stk.putAll (s : Stk) (i : Nat) : List Nat → Option Stk
  | [] => some s
  | v :: vs => (s.put i v).bind fun s => s.putAll (i + 1) vs

/-- `stack_reserve`, `src/eval_cps.c:489-497`, and the writes of its caller to all words of the reserved area. `false` is the error `stack_error`. -/
def Stk.reserve (s : Stk) (vs : List Nat) : Option (Stk × Bool) :=
  if s.sp + vs.length < s.size then (s.putAll s.sp vs).map fun s => ({ s with sp := s.sp + vs.length }, true)
  else some (s, false)

/-- Read words from an index on. -/
def Stk.getAll (s : Stk) (i : Nat) : Nat → Option (List Nat)
  | 0 => some []
  | n + 1 => (s.get i).bind fun v => (s.getAll (i + 1) n).map fun vs => v :: vs

/-- `get_stack_ptr`, `src/eval_cps.c:469-476`, and the reads of its caller. -/
def Stk.peek (s : Stk) (n : Nat) : Option (Option (List Nat)) :=
  if n ≤ s.sp then (s.getAll (s.sp - n) n).map some else some none

/-- `get_stack_ptr`, `src/eval_cps.c:469-476`, and a write of its caller to the word `i` of the area. -/
def Stk.poke (s : Stk) (n i v : Nat) : Option (Stk × Bool) :=
  if n ≤ s.sp then (s.put (s.sp - n + i) v).map fun s => (s, true) else some (s, false)

/-- `pop_stack_ptr`, `src/eval_cps.c:480-487`, and the reads of its caller. -/
def Stk.popPtr (s : Stk) (n : Nat) : Option (Stk × Option (List Nat)) :=
  if n ≤ s.sp then (s.getAll (s.sp - n) n).map fun vs => ({ s with sp := s.sp - n }, some vs) else some (s, none)

/-- The operations. -/
inductive Op where
  | push (v : Nat)
  | pop
  | pop2
  | pop3
  | drop (n : Nat)
  | clear
  | reserve (vs : List Nat)
  | peek (n : Nat)
  | poke (n i v : Nat)
  | popPtr (n : Nat)

/-- What the caller gets: whether the operation succeeded, and words. -/
abbrev Ans := Bool × List Nat

/-- Do an operation. -/
def Op.run (s : Stk) : Op → Option (Stk × Ans)
  | .push v => (s.push v).map fun x => (x.1, x.2, [])
  | .pop => (s.pop).map fun x => (x.1, true, [x.2])
  | .pop2 => (s.pop2).map fun x => (x.1, true, [x.2.1, x.2.2])
  | .pop3 => (s.pop3).map fun x => (x.1, true, [x.2.1, x.2.2.1, x.2.2.2])
  | .drop n => some ((s.drop n).1, (s.drop n).2, [])
  | .clear => some (s.clear, true, [])
  | .reserve vs => (s.reserve vs).map fun x => (x.1, x.2, [])
  | .peek n => (s.peek n).map fun x => (s, x.isSome, x.getD [])
  | .poke n i v => (s.poke n i v).map fun x => (x.1, x.2, [])
  | .popPtr n => (s.popPtr n).map fun x => (x.1, x.2.isSome, x.2.getD [])

/-- Do operations. -/
def runAll (s : Stk) : List Op → Option (Stk × List Ans)
  | [] => some (s, [])
  | o :: os => (o.run s).bind fun x => (runAll x.1 os).map fun y => (y.1, x.2 :: y.2)

end Verif.Stack
