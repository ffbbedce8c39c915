/-
Model of the cons-cell heap and the stack-based mark and sweep collector
(`src/heap.c`, `gc()` in `src/eval_cps.c`).

Simplifications:
* A value is an inductive type instead of a tagged word (the encodings are treated in
  `Verif.Val`); the GC mark bit, which the C code keeps in the `cdr` word, is a field of the
  cell.
* The block of memory that a boxed number, array, channel or custom object owns is identified
  by its address; the array header's `index` field (`include/heap.h:251-255`) is a field of the cell,
  and the elements of a lisp array are stored in the cell's content.
* The words of the evaluation stack are values; `lbm_gc_mark_aux` sees no raw machine words
  that look like heap pointers by accident.
* Undefined behaviour is the outcome `ub`.
-/

namespace Verif.Heap

/-- Pointer types, `include/lbm_defines.h:43-64` (32-bit), 100-120 (64-bit). -/
inductive PTy
  | cons | i32 | u32 | i64 | u64 | float | double | array | channel | custom | lispArray | defragMem
deriving DecidableEq, Repr

/-- Values. `ptr t k ix` is a heap pointer of type `t` to cell `ix`, in the constant heap
when `k` is set (`LBM_PTR_TO_CONSTANT_BIT`). `cont` is a `LBM_CONTINUATION_INTERNAL` value, which
has the pointer bit set but no cell. `imm` stands for characters and unboxed numbers. -/
inductive Val
  | sym (id : Nat)
  | imm (tag : Nat) (payload : Int)
  | ptr (t : PTy) (k : Bool) (ix : Nat)
  | cont (n : Nat)
deriving DecidableEq, Repr

/-- `SYM_NIL`, `SYM_MERROR`, `SYM_FATAL_ERROR`, `SYM_RECOVERED` (`include/lbm_defines.h`). -/
def nil : Val := .sym 0
def merror : Val := .sym 0x23
def fatalError : Val := .sym 0x26
def recovered : Val := .sym 0x28

/-- The type symbols that the sweep phase dispatches on (`include/lbm_defines.h`):
`SYM_ARRAY_TYPE`, `SYM_IND_I_TYPE`, `SYM_IND_U_TYPE`, `SYM_IND_F_TYPE`, `SYM_CHANNEL_TYPE`,
`SYM_CUSTOM_TYPE`, `SYM_LISPARRAY_TYPE`, `SYM_DEFRAG_MEM_TYPE`, `SYM_DEFRAG_ARRAY_TYPE`. -/
def symArray : Nat := 0x30
def symIndI : Nat := 0x34
def symIndU : Nat := 0x35
def symIndF : Nat := 0x36
def symChannel : Nat := 0x37
def symCustom : Nat := 0x38
def symLispArray : Nat := 0x39
def symDefragMem : Nat := 0x3A
def symDefragArray : Nat := 0x3B

/-- `lbm_is_ptr`, `include/heap.h:812-814`: the pointer bit; set for internal continuations too. -/
def Val.isPtr : Val → Bool
  | .ptr .. => true
  | .cont _ => true
  | _ => false

/-- What a cell holds. `pair` is a cons cell (or a cell on the free list); in all other
cases the C code stores the address of an `lbm_memory` block in `car` and the
corresponding type symbol in `cdr`. -/
inductive Content
  | pair (car cdr : Val)
  | boxed (addr : Nat)
  | byteArr (hdr data : Nat)
  | lispArr (hdr data : Nat) (elems : List Val)
  | channel (chan : Option (Nat × Nat)) (dependency : Val)
  | custom (addr : Nat)
  | defragMem (addr : Nat)
  | defragArr (addr : Nat)
deriving DecidableEq, Repr

/-- A cell: content, mark bit (`lbm_get_gc_mark`), and the `index` field of a lisp array
header, used only during marking. -/
structure Cell where
  content : Content
  mark : Bool := false
  index : Nat := 0
deriving DecidableEq, Repr

/-- `lbm_heap_state_t`, `include/heap.h:211-231`, with the two heaps of `lbm_heaps`. `cells` has
`size` meaningful entries. `dropped` is a ghost flag: set when the mark phase ignores a
failed push. -/
structure Heap where
  size : Nat
  cells : Nat → Cell
  consts : Nat → Cell
  freelist : Val
  numAlloc : Nat
  gcCap : Nat
  gcMarked : Nat := 0
  gcRecovered : Nat := 0
  gcRecoveredArrays : Nat := 0
  gcNum : Nat := 0
  gcLastFree : Nat := 0
  gcLeastFree : Nat := 0
  dropped : Bool := false

/-- Store a cell. -/
def Heap.setCell (h : Heap) (i : Nat) (c : Cell) : Heap :=
  { h with cells := fun j => if j = i then c else h.cells j }

/-- Store a cell of the constant heap. -/
def Heap.setConst (h : Heap) (i : Nat) (c : Cell) : Heap :=
  { h with consts := fun j => if j = i then c else h.consts j }

/-! ### Allocation -/

/-- `generate_freelist`, `src/heap.c:485-506`, and `lbm_heap_init`, `src/heap.c:538-554`: all
cells zeroed, then chained. For `numCells = 0` the C code writes before the array; the model
starts at one cell. -/
def init (numCells gcCap : Nat) : Heap :=
  { size := numCells,
    cells := fun i =>
      if i + 1 < numCells then { content := .pair recovered (.ptr .cons false (i + 1)) }
      else { content := .pair nil nil },
    consts := fun _ => { content := .pair nil nil },
    freelist := .ptr .cons false 0,
    numAlloc := 0,
    gcCap := gcCap,
    gcLastFree := numCells,
    gcLeastFree := numCells }

/-- `lbm_heap_num_free`, `include/heap.h:289-291`. -/
def numFree (h : Heap) : Nat := h.size - h.numAlloc

/-- The `cdr` word of a cell on the free list. -/
def link (c : Cell) : Val :=
  match c.content with
  | .pair _ d => d
  | _ => nil

/-- `lbm_heap_allocate_cell`, `src/heap.c:557-571`. `if (cell)` tests for the nil symbol (word 0).
The content stands for the `car`/`cdr` words given. -/
def allocateCell (h : Heap) (t : PTy) (c : Content) : Heap × Val :=
  match h.freelist with
  | .ptr _ _ ix =>
    let h1 := { h with freelist := link (h.cells ix), numAlloc := h.numAlloc + 1 }
    (h1.setCell ix { content := c }, .ptr t false ix)
  | _ => (h, merror)

/-- The loop of `lbm_heap_allocate_list_init_va`, `src/heap.c:604-613`: `cars` are the values
written, in order. Returns the remaining free list and the index of the last cell written. -/
def fillLoop (h : Heap) (curr : Val) (last : Nat) : List Val → Option (Heap × Val × Nat)
  | [] => some (h, curr, last)
  | v :: vs =>
    match curr with
    | .ptr _ _ ix =>
      let d := link (h.cells ix)
      fillLoop (h.setCell ix { content := .pair v d }) d ix vs
    | _ => none      -- dereferences a non-pointer

/-- `lbm_heap_allocate_list_init_va`, `src/heap.c:597-619`; `lbm_heap_allocate_list`,
`src/heap.c:573-595`, is the case where all values are nil. `none` is undefined behaviour. -/
def allocateListInit (h : Heap) (vs : List Val) : Option (Heap × Val) :=
  if vs.length = 0 then some (h, nil)
  else if numFree h < vs.length then some (h, merror)
  else
    match h.freelist with
    | .ptr .cons k ix =>
      match fillLoop h (.ptr .cons k ix) ix vs with
      | none => none
      | some (h1, rest, last) =>
        match (h1.cells last).content with
        | .pair a _ =>
          let h2 : Heap := { h1 with freelist := rest, numAlloc := h1.numAlloc + vs.length }
          some (h2.setCell last { content := .pair a nil }, .ptr .cons k ix)
        | _ => none
    | _ => some (h, fatalError)

/-- `lbm_heap_allocate_list`, `src/heap.c:573-595`. -/
def allocateList (h : Heap) (n : Nat) : Option (Heap × Val) :=
  allocateListInit h (List.replicate n nil)

/-! ### Reading and writing pairs -/

/-- `lbm_ref_cell`, `include/heap.h:970-972`: the constant bit selects the heap. -/
def cellOf (h : Heap) : Val → Option Cell
  | .ptr _ false i => some (h.cells i)
  | .ptr _ true i => some (h.consts i)
  | _ => none

/-- The content of the cell a value points to. -/
def contentOf (h : Heap) (v : Val) : Option Content := (cellOf h v).map (·.content)

/-- `lbm_set_car`, `src/heap.c:1029-1038` (type tested exactly: constant cells are refused). -/
def setCar (h : Heap) (c v : Val) : Heap × Bool :=
  match c with
  | .ptr .cons false i =>
    match (h.cells i).content with
    | .pair _ d => (h.setCell i { h.cells i with content := .pair v d }, true)
    | _ => (h, true)
  | _ => (h, false)

/-- `lbm_set_cdr`, `src/heap.c:1040-1048`. -/
def setCdr (h : Heap) (c v : Val) : Heap × Bool :=
  match c with
  | .ptr .cons false i =>
    match (h.cells i).content with
    | .pair a _ => (h.setCell i { h.cells i with content := .pair a v }, true)
    | _ => (h, true)
  | _ => (h, false)

/-! ### Mark phase -/

/-- Result of a collector function. `critical` is the jump of `lbm_critical_error`
(`src/eval_cps.c:1087-1089`). -/
inductive Out (α : Type)
  | ok (a : α)
  | critical
  | ub
deriving Repr

/-- State of the marking loop: the heap, the GC stack (top first), and where control is:
`none` at the head of the `while` loop, `some curr` at the label `mark_shortcut`. -/
structure MSt where
  h : Heap
  stack : List Val
  ctl : Option Val

/-- `lbm_push`, `src/stack.c:82-89`: fails when the stack is full. -/
def push (cap : Nat) (s : List Val) (v : Val) : Option (List Val) :=
  if s.length < cap then some (v :: s) else none

/-- The lisp array case of `lbm_gc_mark_phase`, `src/heap.c:790-819`. The result of `lbm_push` is
ignored by the code, so a failed push only sets the ghost flag. -/
def markArray (m : MSt) (curr : Val) (i : Nat) (elems : List Val) : Out (MSt ⊕ Heap) :=
  let c := m.h.cells i
  let hs : Heap × List Val :=
    match push m.h.gcCap m.stack curr with
    | some s => (m.h, s)
    | none => ({ m.h with dropped := true }, m.stack)
  match elems[c.index]? with
  | none => .ub                                   -- reads outside the array's data
  | some e =>
    let next : Out (MSt ⊕ Heap) :=
      if c.index < elems.length - 1 then
        .ok (.inl { h := hs.1.setCell i { c with index := c.index + 1 }, stack := hs.2, ctl := none })
      else
        match hs.2 with
        | [] => .ub                               -- `lbm_pop` below the stack
        | _ :: s =>
          let h1 := { hs.1 with gcMarked := hs.1.gcMarked + 1 }
          .ok (.inl { h := h1.setCell i { c with index := 0, mark := true }, stack := s, ctl := none })
    match e with
    | .ptr _ false j =>
      if m.h.size ≤ j then .ub
      else if (m.h.cells j).mark then next
      else .ok (.inl { h := hs.1, stack := hs.2, ctl := some e })
    | _ => next

/-- One step of the loop of `lbm_gc_mark_phase`, `src/heap.c:769-844`. `.inr` is the normal end.
An array header reached through a `lispArray` pointer must be there, and a `cons` pointer must
lead to a pair, otherwise the C code misinterprets memory (`ub`). -/
def markStep (m : MSt) : Out (MSt ⊕ Heap) :=
  match m.ctl with
  | none =>
    match m.stack with
    | [] => .ok (.inr m.h)
    | curr :: s => .ok (.inl { m with stack := s, ctl := some curr })
  | some curr =>
    match curr with
    | .cont _ => .ub
    | .ptr t false i =>
      if m.h.size ≤ i then .ub
      else
        let c := m.h.cells i
        if c.mark then .ok (.inl { m with ctl := none })
        else
          let h1 : Heap := { m.h with gcMarked := m.h.gcMarked + 1 }
          let h1 := h1.setCell i { c with mark := true }
          match t with
          | .lispArray =>
            match c.content with
            | .lispArr _ _ elems => markArray m curr i elems
            | _ => .ub
          | .channel =>
            match c.content with
            | .channel (some _) dep => .ok (.inl { m with h := h1, ctl := some dep })
            | .channel none _ => .ok (.inl { m with h := h1, ctl := none })
            | _ => .ub
          | .cons =>
            match c.content with
            | .pair a d =>
              if d.isPtr then
                match push m.h.gcCap m.stack d with
                | some s => .ok (.inl { h := h1, stack := s, ctl := some a })
                | none => .critical
              else .ok (.inl { m with h := h1, ctl := some a })
            | _ => .ub
          | _ => .ok (.inl { m with h := h1, ctl := none })
    | _ => .ok (.inl { m with ctl := none })

/-- Iterate the loop; `none` when the fuel runs out. -/
def markRun : Nat → MSt → Option (Out Heap)
  | 0, _ => none
  | n + 1, m =>
    match markStep m with
    | .ok (.inl m') => markRun n m'
    | .ok (.inr h) => some (.ok h)
    | .critical => some .critical
    | .ub => some .ub

/-- `lbm_gc_mark_phase`, `src/heap.c:764-845`: the first push does not test the stack size. -/
def markPhase (fuel : Nat) (h : Heap) (root : Val) : Option (Out Heap) :=
  if h.gcCap = 0 then some .ub
  else markRun fuel { h := h, stack := [root], ctl := none }

/-- Set the mark bit of the cell a pointer leads to, in whichever heap (`lbm_ref_cell`). -/
def setMark (h : Heap) : Val → Heap
  | .ptr _ false i => h.setCell i { h.cells i with mark := true }
  | .ptr _ true i => h.setConst i { h.consts i with mark := true }
  | _ => h

/-- Index of a pointer to the RAM heap outside the heap, or no cell at all. -/
def badRef (h : Heap) : Val → Bool
  | .ptr _ false i => decide (h.size ≤ i)
  | .ptr _ true _ => false
  | _ => true

/-- `lbm_gc_mark_env`, `src/heap.c:848-861`. The spine cell and the binding cell are marked
without looking at the heap they are in. `fuel` bounds both the spine and each mark phase. -/
def markEnv : Nat → Nat → Heap → Val → Option (Out Heap)
  | _, 0, _, _ => none
  | fuel, n + 1, h, curr =>
    if curr.isPtr then
      if badRef h curr then some .ub
      else
        let h1 := setMark h curr
        match contentOf h1 curr with
        | some (.pair b rest) =>
          if badRef h1 b then some .ub
          else
            let h2 := setMark h1 b
            match contentOf h2 b with
            | some (.pair _ v) =>
              match markPhase fuel h2 v with
              | some (.ok h3) => markEnv fuel n { h3 with gcMarked := h3.gcMarked + 2 } rest
              | r => r
            | _ => some .ub
        | _ => some .ub
    else some (.ok h)

/-- `lbm_gc_mark_roots`, `src/heap.c:878-882`. -/
def markRoots (fuel : Nat) : Heap → List Val → Option (Out Heap)
  | h, [] => some (.ok h)
  | h, v :: vs =>
    match markPhase fuel h v with
    | some (.ok h1) => markRoots fuel h1 vs
    | r => r

/-- The filter of `lbm_gc_mark_aux`, `src/heap.c:864-876`: pointer types, inside the heap. (A
constant pointer passes the filter and is then skipped by the mark phase.) -/
def auxOk (h : Heap) : Val → Bool
  | .ptr _ _ i => decide (i < h.size)
  | _ => false

/-- `lbm_gc_mark_aux`, `src/heap.c:864-876`. -/
def markAux (fuel : Nat) (h : Heap) (vs : List Val) : Option (Out Heap) :=
  markRoots fuel h (vs.filter (auxOk h))

/-- What `mark_context` (`src/eval_cps.c:1598-1606`) looks at in a context. -/
structure CtxRoots where
  env : Val
  exp : Val
  program : Val
  r : Val
  mailbox : List Val
  stack : List Val

/-- Sequencing of collector functions. -/
def andThen (r : Option (Out Heap)) (f : Heap → Option (Out Heap)) : Option (Out Heap) :=
  match r with
  | some (.ok h) => f h
  | r => r

/-- `mark_context`, `src/eval_cps.c:1598-1606`. -/
def markContext (fuel : Nat) (h : Heap) (c : CtxRoots) : Option (Out Heap) :=
  andThen (markEnv fuel fuel h c.env) fun h =>
  andThen (markRoots fuel h [c.exp, c.program, c.r]) fun h =>
  andThen (markRoots fuel h c.mailbox) fun h =>
  markAux fuel h c.stack

/-- `queue_iterator_nm` over the contexts, `src/eval_cps.c:1626-1631`. -/
def markContexts (fuel : Nat) : Heap → List CtxRoots → Option (Out Heap)
  | h, [] => some (.ok h)
  | h, c :: cs => andThen (markContext fuel h c) fun h => markContexts fuel h cs

/-- The loop over the global environment, `src/eval_cps.c:1618-1621`. -/
def markGlobals (fuel : Nat) : Heap → List Val → Option (Out Heap)
  | h, [] => some (.ok h)
  | h, v :: vs => andThen (markEnv fuel fuel h v) fun h => markGlobals fuel h vs

/-! ### Sweep -/

/-- What the sweep hands back to a memory manager. `word v` is a call of `lbm_memory_free` (or
`lbm_defrag_mem_free`) on the word that encodes the value `v`. -/
inductive Release
  | mem (addr : Nat)
  | destroy (addr : Nat)
  | defragArr (addr : Nat)
  | defragMem (addr : Nat)
  | word (v : Val)
deriving DecidableEq, Repr

/-- The `switch` of `lbm_gc_sweep_phase`, `src/heap.c:894-932`: what is released for a cell, and
whether `gc_recovered_arrays` is counted up. For a pair the switch looks at the `cdr` value: a pair whose
`cdr` is one of the type symbols is taken for an object of that type; where the
code then follows the `car` word as an address the model says `none` (`ub`). A closed
channel (`car` nil) is followed too. -/
def releaseOf : Content → Option (List Release × Bool)
  | .boxed a => some ([.mem a], false)
  | .byteArr hdr data => some ([.mem data, .mem hdr], true)
  | .lispArr hdr data _ => some ([.mem data, .mem hdr], true)
  | .channel (some (ch, st)) _ => some ([.mem st, .mem ch], false)
  | .channel none _ => none
  | .custom a => some ([.destroy a, .mem a], false)
  | .defragMem a => some ([.defragMem a], false)
  | .defragArr a => some ([.defragArr a], false)
  | .pair a (.sym s) =>
    if s = symIndI ∨ s = symIndU ∨ s = symIndF ∨ s = symDefragArray then some ([.word a], false)
    else if s = symArray ∨ s = symLispArray ∨ s = symChannel ∨ s = symCustom ∨ s = symDefragMem then none
    else some ([], false)
  | .pair _ _ => some ([], false)

/-- One iteration of `lbm_gc_sweep_phase`, `src/heap.c:889-945`. -/
def sweepStep (h : Heap) (i : Nat) : Option (Heap × List Release) :=
  let c := h.cells i
  if c.mark then some (h.setCell i { c with mark := false }, [])
  else
    match releaseOf c.content with
    | none => none
    | some (rel, arr) =>
      let h1 := h.setCell i { content := .pair recovered h.freelist }
      some ({ h1 with
              freelist := .ptr .cons false i,
              numAlloc := h1.numAlloc - 1,
              gcRecovered := h1.gcRecovered + 1,
              gcRecoveredArrays := h1.gcRecoveredArrays + (if arr then 1 else 0) }, rel)

/-- The first `n` iterations of `lbm_gc_sweep_phase`, `src/heap.c:885-947`. -/
def sweepTo : Nat → Heap → Option (Heap × List Release)
  | 0, h => some (h, [])
  | n + 1, h =>
    match sweepTo n h with
    | none => none
    | some (h1, rel) =>
      match sweepStep h1 n with
      | none => none
      | some (h2, r) => some (h2, rel ++ r)

/-- `lbm_gc_sweep_phase`, `src/heap.c:885-947`. -/
def sweep (h : Heap) : Option (Heap × List Release) := sweepTo h.size h

/-- `lbm_heap_new_freelist_length`, `src/heap.c:531-536`. -/
def newFreelistLength (h : Heap) : Heap :=
  { h with gcLastFree := h.size - h.numAlloc,
           gcLeastFree := if h.size - h.numAlloc < h.gcLeastFree then h.size - h.numAlloc
                          else h.gcLeastFree }

/-- `gc()`, `src/eval_cps.c:1608-1645`, called after `lbm_gc_mark_roots(pre)` as `cons_with_gc`
(`src/eval_cps.c:454-475`) and `WITH_GC_RMBR_1` do; a plain `gc()` has `pre = []`. `glob` is the
table of global environments, `ctxs` the ready queue, the blocked queue and the
running context. -/
def gc (fuel : Nat) (h : Heap) (pre glob : List Val) (ctxs : List CtxRoots) :
    Option (Out (Heap × List Release)) :=
  let r := andThen (markRoots fuel h pre) fun h =>
    let h1 := { h with gcNum := h.gcNum + 1, gcRecovered := 0, gcMarked := 0 }   -- lbm_gc_state_inc
    let h2 := { h1 with freelist := nil, numAlloc := h1.size }                    -- lbm_nil_freelist
    andThen (markGlobals fuel h2 glob) fun h => markContexts fuel h ctxs
  match r with
  | none => none
  | some .critical => some .critical
  | some .ub => some .ub
  | some (.ok h) =>
    match sweep h with
    | none => some .ub
    | some (h1, rel) => some (.ok (newFreelistLength h1, rel))

end Verif.Heap
