import Verif.Defrag.Model

/-
What a program expects of defragmentable memory: a finite map from heap cells to arrays (a size in bytes and
the data words). It does not mention positions, holes or compaction.
-/

namespace Verif.Defrag

/-- Cells to arrays. -/
abbrev Store := Nat → Option (Nat × List Nat)

/-- `m` with `c` mapped to `v`. -/
def upd (m : Store) (c : Nat) (v : Option (Nat × List Nat)) : Store := fun d => if d = c then v else m d

/-- Number of words that hold `bytes` bytes. -/
def wordsFor (W bytes : Nat) : Nat := (bytes + W - 1) / W

/-- The heap hands out a cell that is not in use as an array. -/
def Fresh (m : Store) (c : Option Nat) : Prop := ∀ x, c = some x → m x = none

/-- Histories of a pool of `nbytes` bytes: allocations (each may compact the pool), arrays dying in a garbage
collection, and writes to arrays. -/
inductive DHist (W base nbytes : Nat) : Pool → Store → Prop
  | create : DHist W base nbytes (create W base nbytes) (fun _ => none)
  | alloc {p p' : Pool} {m : Store} {bytes c : Nat} {c1 c2 : Option Nat} : DHist W base nbytes p m →
      Fresh m c1 → Fresh m c2 → alloc p bytes c1 c2 = (p', .cell c) →
      DHist W base nbytes p' (upd m c (some (bytes, List.replicate (wordsFor W bytes) 0)))
  | allocFails {p p' : Pool} {m : Store} {bytes : Nat} {c1 c2 : Option Nat} {r : Res} : DHist W base nbytes p m →
      Fresh m c1 → Fresh m c2 → alloc p bytes c1 c2 = (p', r) → (∀ c, r ≠ .cell c) → DHist W base nbytes p' m
  | free {p : Pool} {m : Store} {c : Nat} : DHist W base nbytes p m → m c ≠ none →
      DHist W base nbytes (free p c) (upd m c none)
  | write {p : Pool} {m : Store} {c k w bytes : Nat} {d : List Nat} : DHist W base nbytes p m →
      m c = some (bytes, d) → k < d.length →
      DHist W base nbytes (writeWord p c k w) (upd m c (some (bytes, d.set k w)))

end Verif.Defrag
