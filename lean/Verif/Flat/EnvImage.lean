import Verif.Flat.Memory

/-!
# A bucket of the global environment as a flat value (C137)

`lbm_flatten_env` (`src/lbm_c_interop.c:271-283`).
-/

namespace Verif.Flat

open Verif.Val (Build payload)

/-- What the host gets: the address of the bytes, their number and what they are. `hdr` is the header, which only the cell of the array refers to. -/
structure Image where
  hdr : Nat
  data : Nat
  size : Nat
  bytes : List Byte

/-- `lbm_flatten_env` (lbm_c_interop.c:271-283), `GLOBAL_ENV_ROOTS` is 32 (env.h:28). `env` are the buckets. The second component is `none` for false. -/
def flattenEnv (b : Build) (syms : Syms) (maxDepth : Nat) (s : World) (env : Nat → FV) (index : Int) : Option (World × Option Image) :=
  if index < 0 ∨ 32 ≤ index then some (s, none)
  else
    match flattenMem b syms maxDepth s (env index.toNat) with
    | none => none
    | some (s', .sym _) => some (s', none)
    | some (s', .array p d n bs) => some (s', some ⟨p, d, n, bs⟩)

/-- The collector takes the cell of the array back, to which nothing refers (heap.c:906-912): the bytes, then the header. -/
def sweepImage (s : World) (x : Image) : World := ⟨(Mem.free (Mem.free s.mem x.data).1 x.hdr).1, s.free + 1⟩

/-- C137: outside of 0 to 31 the answer is false and nothing happens. -/
theorem C137_range (b : Build) (syms : Syms) (maxDepth : Nat) (s : World) (env : Nat → FV) (index : Int) (h : index < 0 ∨ 32 ≤ index) :
    flattenEnv b syms maxDepth s env index = some (s, none) := by
  unfold flattenEnv
  rw [if_pos h]

example : flattenEnv .b32 exSyms 2000 ⟨Mem.init 32 64 6, 5⟩ (fun _ => .sym 0) 32 = some (⟨Mem.init 32 64 6, 5⟩, none) := C137_range _ _ _ _ _ _ (by decide)

/-- C137: the call ends; what it delivers are bytes from which the bucket can be read again, with anything behind them, in a new block of memory that has room for them. -/
theorem C137_image {b : Build} {syms : Syms} {maxDepth : Nat} {valid : Bool} {w size : Nat} {live : List Mem.Block} {s : World} {env : Nat → FV} {i : Nat} (h0 : 0 < size) (hw : size < 2 ^ w) (hw8 : 8 ≤ w)
    (h : Mem.Reach valid w size s.mem live) (hi : i < 32) (hn : flattenValueSize b syms maxDepth (env i) < 2 ^ w) :
    ∃ s' r, flattenEnv b syms maxDepth s env i = some (s', r) ∧ ∀ x, r = some x →
      x.size = x.bytes.length ∧ flattenValue b syms maxDepth (env i) = .ok x.bytes ∧
      (∀ n b1 b2 rest, Serialisable b syms n (env i) → n ≤ maxDepth → nodes (env i) ≤ b1 → ∃ left, unflattenValue b syms b1 b2 (x.bytes ++ rest) = .ok (env i) rest left) ∧
      ∃ k, x.size ≤ k * (w / 8) ∧ Mem.Reach valid w size s'.mem ((x.data, k) :: (x.hdr, 2) :: live) := by
  obtain ⟨s', r, e, ha⟩ := C136_array (s := s) h0 hw hw8 h hn
  unfold flattenEnv
  rw [if_neg (by omega), show ((i : Int)).toNat = i by omega, e]
  cases r with
  | sym x => exact ⟨s', none, rfl, fun x hx => by cases hx⟩
  | array p d n bs =>
    obtain ⟨a1, a2, -, k, a3, -, a5⟩ := ha p d n bs rfl
    refine ⟨s', some ⟨p, d, n, bs⟩, rfl, fun x hx => ?_⟩
    cases hx
    refine ⟨a2, a1, fun n b1 b2 rest hs hd hm => ?_, k, a3, a5⟩
    obtain ⟨bytes, left, e1, e2⟩ := C13_self_delimiting b syms maxDepth n b1 b2 (env i) rest hs hd hm
    rw [a1] at e1
    cases e1
    exact ⟨left, e2⟩

/-- C137: with a free cell and room for the bytes the answer is true for every bucket that can be flattened. -/
theorem C137_enough {b : Build} {syms : Syms} {maxDepth : Nat} {w size : Nat} {live : List Mem.Block} {s : World} {env : Nat → FV} {i : Nat} {bytes : List Byte} (h0 : 0 < size) (hw : size < 2 ^ w) (hw8 : 8 ≤ w)
    (h : Mem.Reach true w size s.mem live) (hi : i < 32) (hn : flattenValueSize b syms maxDepth (env i) < 2 ^ w) (hok : flattenValue b syms maxDepth (env i) = .ok bytes) (hf : 0 < s.free)
    (hroom : Room w size s.mem live bytes.length) : ∃ s' x, flattenEnv b syms maxDepth s env i = some (s', some x) ∧ x.bytes = bytes := by
  obtain ⟨s', p, d, e⟩ := C136_enough h0 hw hw8 h hn hok hf hroom
  unfold flattenEnv
  rw [if_neg (by omega), show ((i : Int)).toNat = i by omega, e]
  exact ⟨s', _, rfl, rfl⟩

/-- C137: nothing refers to the cell of the array, so the first collection after the evaluator continues gives the header and the bytes back: exactly the blocks from before the call are live, all words of the bytes are free. -/
theorem C137_given_back {b : Build} {syms : Syms} {maxDepth : Nat} {valid : Bool} {w size : Nat} {live : List Mem.Block} {s s' : World} {env : Nat → FV} {i : Nat} {x : Image} (h0 : 0 < size) (hw : size < 2 ^ w) (hw8 : 8 ≤ w)
    (h : Mem.Reach valid w size s.mem live) (hi : i < 32) (hn : flattenValueSize b syms maxDepth (env i) < 2 ^ w) (hr : flattenEnv b syms maxDepth s env i = some (s', some x)) :
    Mem.Reach valid w size (sweepImage s' x).mem live ∧ ∀ j, j * (w / 8) < x.size → Mem.isFree size live (x.data + j) := by
  obtain ⟨s1, r, e, ha⟩ := C137_image (s := s) (env := env) h0 hw hw8 h hi hn
  rw [hr] at e
  cases e
  obtain ⟨-, -, -, k, hk, hm⟩ := ha x rfl
  have f1 := Mem.Reach.free hm (show (x.data, k) ∈ (x.data, k) :: (x.hdr, 2) :: live by simp)
  rw [List.erase_cons_head] at f1
  have f2 := Mem.Reach.free f1 (show (x.hdr, 2) ∈ (x.hdr, 2) :: live by simp)
  rw [List.erase_cons_head] at f2
  refine ⟨f2, fun j hj => ?_⟩
  obtain ⟨hd, hin, -⟩ := Mem.C01_blocks_disjoint h0 hw hm
  have hjk : j < k := Nat.lt_of_mul_lt_mul_right (Nat.lt_of_lt_of_le hj hk)
  have hb := (hin (x.data, k) (by simp)).1
  simp only at hb
  refine ⟨by omega, fun c hc hcov => ?_⟩
  exact (List.pairwise_cons.1 hd).1 c (by simp [hc]) (x.data + j) ⟨by simp only [Mem.Block.covers]; omega, hcov⟩

/-- A bucket with one variable, in an empty memory. The bytes are in the words from 2 on, and are freed by a collection. -/
example : ∃ s' x, flattenEnv .b32 exSyms 2000 ⟨Mem.init 32 64 6, 5⟩ (fun _ => .cons (.byte 1) (.byte 2)) 3 = some (s', some x) ∧ x.bytes = [1, 4, 1, 4, 2] ∧ x.data = 2 ∧ s'.mem.numFree = 60 ∧ (sweepImage s' x).mem.numFree = 64 :=
  ⟨_, _, rfl, rfl, rfl, rfl, rfl⟩

end Verif.Flat
