import Verif.Heap.Model

/-
Specification vocabulary for the heap: which cells a value reaches, what a well-formed heap
looks like to a client, and what the free list is. Nothing here refers to the mark phase.
-/

namespace Verif.Heap

/-- The values stored in a cell that can lead to other cells. -/
def Content.refs : Content → List Val
  | .pair a d => [a, d]
  | .lispArr _ _ es => es
  | .channel (some _) dep => [dep]
  | _ => []

/-- The memory blocks a live object owns. -/
def Content.owned : Content → List Release
  | .pair _ _ => []
  | .boxed a => [.mem a]
  | .byteArr hdr data => [.mem data, .mem hdr]
  | .lispArr hdr data _ => [.mem data, .mem hdr]
  | .channel (some (ch, st)) _ => [.mem st, .mem ch]
  | .channel none _ => []
  | .custom a => [.destroy a, .mem a]
  | .defragMem a => [.defragMem a]
  | .defragArr a => [.defragArr a]

/-- Cell `i` of the RAM heap can be reached from the values `roots`. -/
inductive Reachable (h : Heap) (roots : List Val) : Nat → Prop
  | root {t : PTy} {i : Nat} : Val.ptr t false i ∈ roots → Reachable h roots i
  | step {i : Nat} {t : PTy} {j : Nat} : Reachable h roots i →
      Val.ptr t false j ∈ (h.cells i).content.refs → Reachable h roots j

/-- The cell's content fits the type of a pointer to it. -/
def kindOK : PTy → Content → Prop
  | .cons, c => ∃ a d, c = .pair a d
  | .lispArray, c => ∃ hd da es, c = .lispArr hd da es
  | .channel, c => ∃ ch dep, c = .channel ch dep
  | _, c => (∀ t j, Val.ptr t false j ∉ c.refs) ∧ ∀ hd da es, c ≠ .lispArr hd da es

/-- A value stored somewhere in the heap or used as a root: not an internal continuation
marker, and if it points into the RAM heap, then at a cell of the right kind. -/
def OkRef (h : Heap) : Val → Prop
  | .ptr t false j => j < h.size ∧ kindOK t (h.cells j).content
  | .cont _ => False
  | _ => True

/-- As `OkRef`, for an element of a lisp array, which may be an internal continuation marker. -/
def OkElem (h : Heap) : Val → Prop
  | .cont _ => True
  | v => OkRef h v

/-- Well-formed heap between collections: pointers are typed, lisp arrays are not empty
(an empty lisp array makes the collector read outside it, `C07_empty_array_violated`), no mark bits. -/
structure WF (h : Heap) : Prop where
  pair : ∀ i < h.size, ∀ a d, (h.cells i).content = .pair a d → OkRef h a ∧ OkRef h d
  chan : ∀ i < h.size, ∀ c dep, (h.cells i).content = .channel (some c) dep → OkRef h dep
  arr : ∀ i < h.size, ∀ hd da es, (h.cells i).content = .lispArr hd da es →
          es ≠ [] ∧ ∀ e ∈ es, OkElem h e
  clean : ∀ i, (h.cells i).mark = false ∧ (h.cells i).index = 0

/-- An environment in the RAM heap: a list of (symbol . value) pairs. -/
inductive EnvOK (h : Heap) : Val → Prop
  | done {v : Val} : v.isPtr = false → EnvOK h v
  | bind {i b : Nat} {key val rest : Val} : i < h.size → b < h.size →
      (h.cells i).content = .pair (.ptr .cons false b) rest →
      (h.cells b).content = .pair key val →
      key.isPtr = false → EnvOK h rest → EnvOK h (.ptr .cons false i)

/-- The value is a pointer (of any type) whose index is inside the heap. -/
def inHeap (h : Heap) : Val → Bool
  | .ptr _ _ i => decide (i < h.size)
  | _ => false

/-- All root values of a collection. Of the evaluation stack, only what lies in the heap
counts. -/
def rootsOf (h : Heap) (pre glob : List Val) (ctxs : List CtxRoots) : List Val :=
  pre ++ glob ++
    ctxs.flatMap fun c => c.env :: c.exp :: c.program :: c.r :: (c.mailbox ++ c.stack.filter (inHeap h))

/-- The roots handed to the collector are well formed. -/
structure RootsOK (h : Heap) (pre glob : List Val) (ctxs : List CtxRoots) : Prop where
  pre : ∀ v ∈ pre, OkRef h v
  glob : ∀ v ∈ glob, EnvOK h v
  env : ∀ c ∈ ctxs, EnvOK h c.env
  regs : ∀ c ∈ ctxs, OkRef h c.exp ∧ OkRef h c.program ∧ OkRef h c.r
  mail : ∀ c ∈ ctxs, ∀ v ∈ c.mailbox, OkRef h v
  stack : ∀ c ∈ ctxs, ∀ v ∈ c.stack, inHeap h v = true → OkRef h v

/-- No chain of lisp arrays, each directly an element of the one before, is infinite:
arrays can be ranked. (Cycles that pass through a cons cell are allowed.) -/
def ArraysRanked (h : Heap) : Prop :=
  ∃ rank : Nat → Nat, ∀ i < h.size, ∀ hd da es j, (h.cells i).content = .lispArr hd da es →
    Val.ptr .lispArray false j ∈ es → rank j < rank i

/-- Cells of the heap plus elements of its lisp arrays, among the first `n` cells. -/
def workTo (h : Heap) : Nat → Nat
  | 0 => 0
  | n + 1 => workTo h n + match (h.cells n).content with
    | .lispArr _ _ es => 1 + es.length
    | _ => 1

/-- The GC stack is large enough for whatever the heap may hold: lisp arrays are nested
directly in each other at most `K` deep, and there are `K + 1` words of GC stack for each cell
and each array element. -/
def StackFits (h : Heap) : Prop :=
  ∃ (rank : Nat → Nat) (K : Nat),
    (∀ i < h.size, ∀ hd da es, (h.cells i).content = .lispArr hd da es → rank i < K ∧
      ∀ j, Val.ptr .lispArray false j ∈ es → rank j < rank i) ∧
    (K + 1) * workTo h h.size ≤ h.gcCap

/-- No cell holds a lisp array. -/
def NoArrays (h : Heap) : Prop := ∀ i < h.size, ∀ hd da es, (h.cells i).content ≠ .lispArr hd da es

/-- Content that the sweep recognises for what it is: no pair whose `cdr` is one of the type symbols
(see `C08_type_symbol_violated`), no channel whose `car` was set to nil. -/
def PlainContent : Content → Prop
  | .pair _ (.sym s) => ¬ (s = symIndI ∨ s = symIndU ∨ s = symIndF ∨ s = symDefragArray ∨ s = symArray ∨
      s = symLispArray ∨ s = symChannel ∨ s = symCustom ∨ s = symDefragMem)
  | .channel c _ => c ≠ none
  | _ => True

/-- `v` is the proper list of the values `vs`, stored in the cells `is`. -/
def ListAt (h : Heap) : Val → List Nat → List Val → Prop
  | v, [], [] => v = nil
  | v, i :: is, x :: xs => v = .ptr .cons false i ∧ ∃ d, (h.cells i).content = .pair x d ∧ ListAt h d is xs
  | _, _, _ => False

/-- `l` lists the cells of the free list that starts at `v`, in order. -/
def FreeChain (h : Heap) : Val → List Nat → Prop
  | v, [] => v = nil
  | v, i :: is => v = .ptr .cons false i ∧ i < h.size ∧
      ∃ a d, (h.cells i).content = .pair a d ∧ FreeChain h d is

/-- The allocation state of the heap is consistent: the free list visits each of its cells
once, and its length is what `lbm_heap_num_free` reports. -/
def FreeOK (h : Heap) (l : List Nat) : Prop :=
  FreeChain h h.freelist l ∧ l.Nodup ∧ h.numAlloc + l.length = h.size

/-- Histories of the heap: initialisation, allocation, writes to allocated cells, and collections.
The predicate says which cells are allocated, as the client counts them: what it got from
an allocation and has not lost to a collection. -/
inductive Hist (n cap : Nat) : Heap → (Nat → Prop) → Prop
  | init : 0 < n → Hist n cap (init n cap) (fun _ => False)
  | alloc {h h' : Heap} {live : Nat → Prop} {t : PTy} {c : Content} {i : Nat} : Hist n cap h live →
      allocateCell h t c = (h', .ptr t false i) → Hist n cap h' (fun j => live j ∨ j = i)
  | allocList {h h' : Heap} {live : Nat → Prop} {vs : List Val} {v : Val} {is : List Nat} :
      Hist n cap h live → allocateListInit h vs = some (h', v) → ListAt h' v is vs →
      Hist n cap h' (fun j => live j ∨ j ∈ is)
  | write {h : Heap} {live : Nat → Prop} {i : Nat} {c : Content} : Hist n cap h live → live i →
      Hist n cap (h.setCell i { h.cells i with content := c }) live
  | gc {h h' : Heap} {live : Nat → Prop} {fuel : Nat} {pre glob : List Val} {ctxs : List CtxRoots}
      {rel : List Release} : Hist n cap h live → WF h → RootsOK h pre glob ctxs →
      (∀ i < h.size, ¬ Reachable h (rootsOf h pre glob ctxs) i → PlainContent (h.cells i).content) →
      gc fuel h pre glob ctxs = some (.ok (h', rel)) → h'.dropped = false →
      Hist n cap h' (Reachable h (rootsOf h pre glob ctxs))

end Verif.Heap
