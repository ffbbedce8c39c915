import Verif.Lists.Model
import Verif.Heap.Spec

/-
What a heap value means as a list, and what it means that an operation leaves existing data
alone.
-/

namespace Verif.Lists
open Verif.Heap Verif.Env

/-- `v` is a chain of cons cells holding `xs` that ends in `tail`.  `is` are its cells in RAM (cells of
the constant heap are not listed). -/
inductive Chain (h : Heap) (tail : Val) : Val → List Nat → List Val → Prop
  | nil : Chain h tail tail [] []
  | ram {i : Nat} {x d : Val} {is : List Nat} {xs : List Val} : (h.cells i).content = .pair x d →
      Chain h tail d is xs → Chain h tail (.ptr .cons false i) (i :: is) (x :: xs)
  | rom {i : Nat} {x d : Val} {is : List Nat} {xs : List Val} : (h.consts i).content = .pair x d →
      Chain h tail d is xs → Chain h tail (.ptr .cons true i) is (x :: xs)

/-- `v` is the proper list `xs`. -/
def IsList (h : Heap) (v : Val) (xs : List Val) : Prop := ∃ is, Chain h nil v is xs

/-- `v` is the proper list `xs`, and none of its cells is on the free list `fl`. -/
def LiveList (h : Heap) (fl : List Nat) (v : Val) (xs : List Val) : Prop :=
  ∃ is, Chain h nil v is xs ∧ ∀ i ∈ is, i ∉ fl

/-- From `h` to `h'` nothing was written but `k` cells from the front of the free list `fl`, which are
no longer free. -/
structure Took (h h' : Heap) (fl : List Nat) (k : Nat) : Prop where
  free : FreeOK h' (fl.drop k)
  same : ∀ c, c ∉ fl.take k → h'.cells c = h.cells c
  consts : h'.consts = h.consts
  size : h'.size = h.size

end Verif.Lists
