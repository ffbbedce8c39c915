import Verif.Mem.Model
/-
What a client of the allocator sees, independently of how it works: a list of live blocks
`(start, length)` that the client maintains from the results of its own calls.
-/
namespace Verif.Mem

/-- A block: index of the first word and number of words. -/
abbrev Block := Nat × Nat

/-- Word `i` belongs to block `b`. -/
def Block.covers (b : Block) (i : Nat) : Prop := b.1 ≤ i ∧ i < b.1 + b.2

/-- Two blocks share no word. -/
def Block.disjoint (a b : Block) : Prop := ∀ i, ¬ (a.covers i ∧ b.covers i)

/-- Word `i` of an arena of `size` words is not part of any live block. -/
def isFree (size : Nat) (live : List Block) (i : Nat) : Prop :=
  i < size ∧ ∀ b ∈ live, ¬ b.covers i

/-- `n` consecutive free words start at `p`. -/
def freeRun (size : Nat) (live : List Block) (p n : Nat) : Prop :=
  ∀ i, i < n → isFree size live (p + i)

/-- Total number of words in live blocks. -/
def liveWords (live : List Block) : Nat := (live.map (·.2)).sum

/-- Word `p` is inside a live block but neither its first nor its last word. -/
def strictlyInside (live : List Block) (p : Nat) : Prop :=
  ∃ b ∈ live, b.1 < p ∧ p + 1 < b.1 + b.2

/-- Reachable pairs of an allocator state and the client's list of live blocks: all finite
histories of initialisation, allocation, malloc, malloc below reserve, reserve changes,
statistics updates, and frees and shrinks of live blocks.  With `valid = false` the client
may also pass pointers to `free` that are not live blocks, as long as they do not point
strictly inside one. -/
inductive Reach (valid : Bool) (w size : Nat) : Mem → List Block → Prop
  | init (r : Nat) : Reach valid w size (init w size r) []
  | allocate {m m' live n p} : Reach valid w size m live → n < 2 ^ w →
      allocate m n = some (m', some p) → Reach valid w size m' ((p, n) :: live)
  | allocateFail {m m' live n} : Reach valid w size m live → n < 2 ^ w →
      allocate m n = some (m', none) → Reach valid w size m' live
  | malloc {m m' live n p} : Reach valid w size m live → n < 2 ^ w →
      malloc m n = some (m', some p) → Reach valid w size m' ((p, bytesToWords w n) :: live)
  | mallocFail {m m' live n} : Reach valid w size m live → n < 2 ^ w →
      malloc m n = some (m', none) → Reach valid w size m' live
  | mallocReserve {m m' live n p} : Reach valid w size m live → n < 2 ^ w →
      mallocReserve m n = some (m', some p) →
      Reach valid w size m' ((p, bytesToWords w n) :: live)
  | mallocReserveFail {m m' live n} : Reach valid w size m live → n < 2 ^ w →
      mallocReserve m n = some (m', none) → Reach valid w size m' live
  | free {m live p k} : Reach valid w size m live → (p, k) ∈ live →
      Reach valid w size (free m p).1 (live.erase (p, k))
  | badFree {m live p} : valid = false → Reach valid w size m live →
      (∀ k, (p, k) ∉ live) → ¬ strictlyInside live p → Reach valid w size (Mem.free m p).1 live
  | shrink {m m' live p k n} : Reach valid w size m live → (p, k) ∈ live →
      shrink m p n = (m', true) → Reach valid w size m' ((p, min n k) :: live.erase (p, k))
  | shrinkFail {m m' live p k n} : Reach valid w size m live → (p, k) ∈ live →
      shrink m p n = (m', false) → Reach valid w size m' live
  | setReserve {m live} (r : Nat) : Reach valid w size m live →
      Reach valid w size (setReserve m r) live
  | updateMinFree {m live} : Reach valid w size m live → Reach valid w size (updateMinFree m) live

end Verif.Mem
