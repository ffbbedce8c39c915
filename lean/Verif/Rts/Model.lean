import Verif.Mem.Model

/-
Model of the extension that gives the collector another stack: `set-gc-stack-size`
(`src/extensions/runtime_extensions.c:144-161`), on the allocator of `Verif.Mem`.
-/

namespace Verif.Rts
open Verif.Mem

/-- The memory, and the fields `data` (as the index of a word) and `size` of `lbm_heap_state.gc_stack`
(`include/stack.h:30-36`). The field `sp` is 0 outside of a collection. -/
structure Rts where
  mem : Mem
  data : Nat
  size : Nat

/-- What the extension returns. -/
inductive Res
  | true_
  | merror
  | terror
deriving DecidableEq, Repr

/-- `ext_set_gc_stack_size`, `src/extensions/runtime_extensions.c:144-161`. An argument is given by the result of `lbm_dec_as_u32`
if it is a number. The product `n * sizeof(lbm_uint)` is computed in `size_t`, which has the width of `lbm_uint`.
`lbm_free` (`src/lbm_memory.c:382-384`) is `lbm_memory_free`. The outer `Option` is that of `allocate`. -/
def setGcStackSize (r : Rts) : List (Option Nat) → Option (Rts × Res)
  | [some n] =>
    match malloc r.mem (n * (r.mem.w / 8) % 2 ^ r.mem.w) with
    | none => none
    | some (m1, some p) => some (⟨(free m1 r.data).1, p, n⟩, .true_)
    | some (m1, none) => some (⟨m1, r.data, r.size⟩, .merror)
  | _ => some (r, .terror)

/-- `lbm_push` on the stack of the collector (`src/stack.c:82-89`) with `sp` words on it: the word of the
memory that is written, if any. -/
def pushAt (r : Rts) (sp : Nat) : Option Nat :=
  if sp = r.size then none else some (r.data + sp)

end Verif.Rts
