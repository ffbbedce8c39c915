import Verif.Custom.Model
import Verif.Heap.Spec

/-
Specification vocabulary for custom values: the histories of a program that uses them, and which of them exist.
-/

namespace Verif.Custom

open Verif.Heap

/-- The cell holds a custom value. -/
def Content.isCustom : Content → Bool
  | .custom _ => true
  | _ => false

/-- The destructor and the value of the custom value that a cell holds. -/
def valueAt (w : World) (i : Nat) : List (Nat × Nat) :=
  match (w.heap.cells i).content with
  | .custom a => [((w.words a).destructor, (w.words a).value)]
  | _ => []

/-- The custom values in the heap, each as destructor and value. -/
def existing (w : World) : List (Nat × Nat) := (List.range w.heap.size).flatMap (valueAt w)

/-- The memory blocks of a cell. -/
def blocks (c : Content) : List Release := c.owned.filter fun r => match r with | .destroy _ => false | _ => true

/-- Histories: initialisation, creation of custom values (successful or not), allocation of other objects,
writes to cells of other objects, `custom-destruct`, and collections. `made` lists the custom values created, `live` are the
cells the client holds, `cust` those of them that it got as custom values. A block that the allocator hands out is not in use (C01). -/
inductive Hist (n cap : Nat) : World → List (Nat × Nat) → (Nat → Prop) → (Nat → Prop) → Prop
  | init {words : Nat → Words} : 0 < n →
      Hist n cap { heap := init n cap, words := words, inUse := [] } [] (fun _ => False) (fun _ => False)
  | make {w w' : World} {made : List (Nat × Nat)} {live cust : Nat → Prop} {t value dtor desc i : Nat} : Hist n cap w made live cust →
      .mem t ∉ w.inUse → create w (some t) value dtor desc = (w', true, some (.ptr .custom false i)) →
      Hist n cap w' ((dtor, value) :: made) (fun j => live j ∨ j = i) (fun j => cust j ∨ j = i)
  | fail {w w' : World} {made : List (Nat × Nat)} {live cust : Nat → Prop} {blk : Option Nat} {value dtor desc : Nat} {r : Option Val} :
      Hist n cap w made live cust → (∀ t, blk = some t → .mem t ∉ w.inUse) → create w blk value dtor desc = (w', false, r) →
      Hist n cap w' made live cust
  | alloc {w : World} {made : List (Nat × Nat)} {live cust : Nat → Prop} {t : PTy} {c : Content} {h : Heap} {i : Nat} :
      Hist n cap w made live cust → Content.isCustom c = false → (blocks c).Nodup → (∀ r ∈ blocks c, r ∉ w.inUse) →
      allocateCell w.heap t c = (h, .ptr t false i) →
      Hist n cap { w with heap := h, inUse := blocks c ++ w.inUse } made (fun j => live j ∨ j = i) cust
  | write {w : World} {made : List (Nat × Nat)} {live cust : Nat → Prop} {i : Nat} {c : Content} : Hist n cap w made live cust →
      live i → ¬ cust i → Content.isCustom c = false → blocks c = blocks (w.heap.cells i).content →
      Hist n cap { w with heap := w.heap.setCell i { w.heap.cells i with content := c } } made live cust
  | destruct {w w' : World} {made : List (Nat × Nat)} {live cust : Nat → Prop} {i : Nat} {r : Res} : Hist n cap w made live cust →
      cust i → customDestruct w (.ptr .custom false i) = .ok (w', r) → Hist n cap w' made live cust
  | gc {w w' : World} {made : List (Nat × Nat)} {live cust : Nat → Prop} {fuel : Nat} {pre glob : List Val} {ctxs : List CtxRoots} :
      Hist n cap w made live cust → WF w.heap → RootsOK w.heap pre glob ctxs →
      (∀ i < w.heap.size, ¬ Reachable w.heap (rootsOf w.heap pre glob ctxs) i → PlainContent (w.heap.cells i).content) →
      collect fuel w pre glob ctxs = some (.ok w') → w'.heap.dropped = false →
      Hist n cap w' made (Reachable w.heap (rootsOf w.heap pre glob ctxs))
        (fun i => cust i ∧ Reachable w.heap (rootsOf w.heap pre glob ctxs) i)

end Verif.Custom
