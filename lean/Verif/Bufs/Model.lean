import Verif.Mem.Model

/-
# Byte arrays that the program frees itself

Model of the life of byte arrays: `bufcreate` (`src/heap.c:1203-1258`), `free` (`src/heap.c:1346-1364`), the sweep of an array
(`src/heap.c:906-912`) and the accesses, on the allocator of `Verif.Mem`.
-/

namespace Verif.Bufs
open Verif.Mem

/-- The memory; the contents of its words, by index; and the cells of the byte arrays, in the order of their creation. A cell is the index
of the header in its car, or `none` for nil. A pointer that is stored in a word is 0 for NULL and else one more than the index of the
word. The cell of an array that the collector has swept is `none` too; nothing refers to it any more. -/
structure Bufs where
  mem : Mem
  word : Nat → Nat
  cells : List (Option Nat)

def setWord (f : Nat → Nat) (i v : Nat) : Nat → Nat := fun j => if j = i then v else f j

/-- `memset(array->data, 0, size)`, `src/heap.c:1242`, for `n` words from `d`. Whole words are set; the last one may be longer than the array. -/
def zero (f : Nat → Nat) (d n : Nat) : Nat → Nat := fun j => if d ≤ j ∧ j < d + n then 0 else f j

/-- `lbm_memory_free` of a pointer, `src/lbm_memory.c:317-353`; NULL is not inside of the memory. -/
def freePtr (m : Mem) : Nat → Mem
  | 0 => m
  | d + 1 => (free m d).1

/-- The last part of `lbm_heap_allocate_array_base`, `src/heap.c:1244-1258`. `cell` says whether there is a free cell. -/
def finish (m : Mem) (f : Nat → Nat) (cells : List (Option Nat)) (p : Nat) (cell : Bool) : Bufs × Option Nat :=
  if cell then (⟨m, f, cells ++ [some p]⟩, some cells.length) else (⟨(free (freePtr m (f (p + 1))) p).1, f, cells⟩, none)

/-- `lbm_heap_allocate_array`, `src/heap.c:1203-1262`, for byte arrays: the header is the words `size` and `data`
(`include/heap.h:246-249`). The result is the place of the new cell, `none` is the memory error. The outer `Option` is that of `allocate`. -/
def create (s : Bufs) (n : Nat) (cell : Bool) : Option (Bufs × Option Nat) :=
  (malloc s.mem (2 * (s.mem.w / 8))).bind fun r =>
    match r with
    | (m, none) => some (⟨m, s.word, s.cells⟩, none)
    | (m, some p) =>
      if n = 0 then some (finish m (setWord (setWord s.word (p + 1) 0) p 0) s.cells p cell)
      else
        (malloc m n).bind fun r =>
          match r with
          | (m, none) => some (⟨(free m p).1, setWord s.word (p + 1) 0, s.cells⟩, none)
          | (m, some d) => some (finish m (setWord (zero (setWord s.word (p + 1) (d + 1)) d (bytesToWords s.mem.w n)) p n) s.cells p cell)

/-- The header that a reference to an array leads to, after `lbm_is_array_r` or `lbm_is_array_rw`, `include/heap.h:850-867`. -/
def header (s : Bufs) (i : Nat) : Option Nat := (s.cells[i]?).join

/-- What `free` returns. -/
inductive Res
  | true_
  | terror
deriving DecidableEq, Repr

/-- `array_extension_unsafe_free_array`, `src/extensions/array_extensions.c:85-99`, and `lbm_heap_explicit_free_array`,
`src/heap.c:1346-1364`, for a reference to a byte array in RAM. -/
def freeArr (s : Bufs) (i : Nat) : Bufs × Res :=
  match header s i with
  | none => (s, .terror)
  | some p => (⟨(free (freePtr s.mem (s.word (p + 1))) p).1, s.word, s.cells.set i none⟩, .true_)

/-- The collector sweeps the cell of an array, `src/heap.c:906-912`. -/
def sweep (s : Bufs) (i : Nat) : Bufs :=
  match header s i with
  | none => s
  | some p => ⟨(free (freePtr s.mem (s.word (p + 1))) p).1, s.word, s.cells.set i none⟩

/-- What the functions on byte arrays do before they access byte `k` (for example `src/extensions/array_extensions.c:366-376`
and `buflen`, 572-579): the word that is accessed. `none` if the reference is rejected or the byte is not in the array. -/
def access (s : Bufs) (i k : Nat) : Option Nat :=
  match header s i with
  | none => none
  | some p => if k < s.word p then some (s.word (p + 1) - 1 + k / (s.mem.w / 8)) else none

/-- A write to byte `k`: the word gets another value. -/
def write (s : Bufs) (i k v : Nat) : Bufs :=
  match access s i k with
  | none => s
  | some a => { s with word := setWord s.word a v }

/-- The first comparison of `bytearray_equality`, `src/fundamental.c:210-217`, which is called for two values of the type of byte arrays
without the check (`src/fundamental.c:279-280`). `none` is an access through the null pointer. -/
def sameSize (s : Bufs) (i j : Nat) : Option Bool :=
  match header s i, header s j with
  | some p, some q => some (s.word p == s.word q)
  | _, _ => none

/-- The beginning of `apply_unflatten`, `src/eval_cps.c:2724-2732`: the pointer to the data and the size. `none` is an access through the null
pointer. -/
def unflattenFrom (s : Bufs) (i : Nat) : Option (Nat × Nat) :=
  match header s i with
  | some p => some (s.word (p + 1), s.word p)
  | none => none

end Verif.Bufs
