import Verif.Heap.Alloc

/-
Model of values of custom types (`src/lbm_custom_type.c`, `include/lbm_custom_type.h`, `custom-destruct` in
`src/fundamental.c`, the allocation of vectors in `src/extensions/matvec_extensions.c`) over the cell heap and the
collector of `Verif.Heap`.

Simplifications:
* The memory blocks are identified by their addresses; `lbm_memory_allocate` is a parameter that yields an address or fails
  (the allocator itself is treated in `Verif.Mem`). Of a block only the three words of a custom value are kept.
* A destructor is a C function of the embedding program; the model records that it was called, and with which value.
-/

namespace Verif.Custom

open Verif.Heap

/-- The three words of the block of a custom value, `include/lbm_custom_type.h:32-36`. -/
structure Words where
  value : Nat
  descriptor : Nat
  destructor : Nat
deriving DecidableEq, Repr

/-- The heap, the words of the blocks, the blocks in use, and the calls of destructors so far, in
order (which destructor, with which value). -/
structure World where
  heap : Heap
  words : Nat → Words
  inUse : List Release
  log : List (Nat × Nat) := []

/-- `lbm_custom_type_create`, `src/lbm_custom_type.c:23-45`. `blk` is the result of `lbm_memory_allocate(3)`.
Returns the result of the function and what it stores in `*result`, `none` when it leaves that as it was. -/
def create (w : World) (blk : Option Nat) (value destructor descriptor : Nat) : World × Bool × Option Val :=
  match blk with
  | none => (w, false, none)
  | some t =>
    let w1 : World := { w with words := fun a => if a = t then ⟨value, descriptor, destructor⟩ else w.words a,
                               inUse := .mem t :: w.inUse }
    match allocateCell w1.heap .custom (.custom t) with
    | (h, cell) =>
      if cell = merror then ({ w1 with inUse := w1.inUse.erase (.mem t) }, false, some merror)
      else ({ w1 with heap := h }, true, some cell)

/-- `lbm_custom_type_destroy`, `src/lbm_custom_type.c:47-52`. `none`: the block is not in use. -/
def destroy (w : World) (a : Nat) : Option World :=
  if .mem a ∈ w.inUse then some { w with log := w.log ++ [((w.words a).destructor, (w.words a).value)] } else none

/-- `lbm_memory_free`, `lbm_defrag_mem_free`, `lbm_defrag_mem_destroy` as the sweep uses them. `none`: the block is not in use. -/
def free (w : World) (r : Release) : Option World :=
  if r ∈ w.inUse then some { w with inUse := w.inUse.erase r } else none

/-- The releases of a sweep (`src/heap.c:894-932`), in order. -/
def release : World → List Release → Option World
  | w, [] => some w
  | w, .destroy a :: rs =>
    match destroy w a with
    | none => none
    | some w1 => release w1 rs
  | _, .word _ :: _ => none
  | w, r :: rs =>
    match free w r with
    | none => none
    | some w1 => release w1 rs

/-- A collection (`gc()`, `src/eval_cps.c:1608-1645`). The code releases what a cell owns when the sweep comes to the cell;
the releases do not touch the heap, so they can as well come after it. -/
def collect (fuel : Nat) (w : World) (pre glob : List Val) (ctxs : List CtxRoots) : Option (Out World) :=
  match gc fuel w.heap pre glob ctxs with
  | none => none
  | some .critical => some .critical
  | some .ub => some .ub
  | some (.ok (h, rel)) =>
    match release { w with heap := h } rel with
    | none => some .ub
    | some w1 => some (.ok w1)

/-- What `custom-destruct` comes to: the symbol `t`, an `eval_error`, a `fatal_error`. -/
inductive Res
  | true | evalError | fatalError
deriving DecidableEq, Repr

/-- `fundamental_custom_destruct`, `src/fundamental.c:1194-1209`, for one argument. `lbm_dec_custom` (`src/heap.c:250-256`) is the `car` word
of the cell; that is 0 when the `car` is nil. -/
def customDestruct (w : World) (x : Val) : Out (World × Res) :=
  match x with
  | .ptr .custom false i =>
    match (w.heap.cells i).content with
    | .custom a =>
      match destroy w a with
      | none => .ub
      | some w1 => .ok ({ w1 with heap := w1.heap.setCell i { w1.heap.cells i with content := .pair nil nil } }, .true)
    | .pair (.sym 0) _ => .ok (w, .fatalError)
    | _ => .ub
  | _ => .ok (w, .evalError)

/-- `lbm_is_custom`, `include/lbm_custom_type.h:66-68`. -/
def isCustom (w : World) (x : Val) : Bool :=
  match x with
  | .ptr .custom false i =>
    match (w.heap.cells i).content with
    | .pair (.sym 0) _ => false
    | _ => true
  | _ => false

/-- `lbm_get_custom_value`, `include/lbm_custom_type.h:77-80`. `none`: reads through a word that is no address of a block in use. -/
def customValue (w : World) (x : Val) : Option Nat :=
  match x with
  | .ptr .custom false i =>
    match (w.heap.cells i).content with
    | .custom a => if .mem a ∈ w.inUse then some (w.words a).value else none
    | _ => none
  | _ => none

/-- `lbm_get_custom_descriptor`, `include/lbm_custom_type.h:71-74`. -/
def customDescriptor (w : World) (x : Val) : Option Nat :=
  match x with
  | .ptr .custom false i =>
    match (w.heap.cells i).content with
    | .custom a => if .mem a ∈ w.inUse then some (w.words a).descriptor else none
    | _ => none
  | _ => none

/-- `vector_float_allocate`, `src/extensions/matvec_extensions.c:37-48`. `data` is the result of `lbm_malloc`, `blk` that of the allocation in
`lbm_custom_type_create`, whose result is ignored. `res` starts as 0, the symbol nil. `desc`, `dtor`: the addresses of
`vector_float_desc`, `common_destructor`. -/
def vectorAllocate (w : World) (data blk : Option Nat) (desc dtor : Nat) : World × Val :=
  match data with
  | none => (w, merror)
  | some mem =>
    match create { w with inUse := .mem mem :: w.inUse } blk mem dtor desc with
    | (w1, _, some v) => (w1, v)
    | (w1, _, none) => (w1, nil)

/-- `ext_vector`, `src/extensions/matvec_extensions.c:86-101`, up to the point where it writes the first number. -/
def extVector (w : World) (data blk : Option Nat) (desc dtor : Nat) : Out (World × Val) :=
  match vectorAllocate w data blk desc dtor with
  | (w1, vec) =>
    if vec = merror then .ok (w1, merror)
    else
      match customValue w1 vec with
      | none => .ub
      | some _ => .ok (w1, vec)

end Verif.Custom
