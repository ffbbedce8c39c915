import Verif.Mem.Reach
/-
Property theorems about the word memory allocator (C01 to C06).
Statements use only the allocator's functions (`Verif.Mem.Model`) and the client's view of
live blocks (`Verif.Mem.Spec`).  `0 < size` is guaranteed by `lbm_memory_init` (it requires
at least one bitmap word), `size < 2 ^ w` because sizes are machine words.
-/
namespace Verif.Mem

/-- State after allocating 4, 1 and 3 words in a 64 word arena (32-bit build, reserve 6):
the concrete non-trivial case used below. -/
def demo1 : Mem :=
  { init 32 64 6 with
    bm := [.start, .freeOrUsed, .freeOrUsed, .end_, .startEnd, .start, .freeOrUsed, .end_] ++
          List.replicate 56 .freeOrUsed
    off := 7
    numFree := 56 }

/-- `demo1` after freeing the first block and shrinking the last one to 2 words. -/
def demo2 : Mem :=
  { init 32 64 6 with
    bm := [.freeOrUsed, .freeOrUsed, .freeOrUsed, .freeOrUsed, .startEnd, .start, .end_] ++
          List.replicate 57 .freeOrUsed
    off := 6
    numFree := 61 }

theorem demo1_reach : Reach true 32 64 demo1 [(5, 3), (4, 1), (0, 4)] := by
  refine .allocate (n := 3) (m := { init 32 64 6 with
      bm := [.start, .freeOrUsed, .freeOrUsed, .end_, .startEnd] ++ List.replicate 59 .freeOrUsed
      off := 4, numFree := 59 }) ?_ (by decide) (by decide +kernel)
  refine .allocate (n := 1) (m := { init 32 64 6 with
      bm := [.start, .freeOrUsed, .freeOrUsed, .end_] ++ List.replicate 60 .freeOrUsed
      off := 3, numFree := 60 }) ?_ (by decide) (by decide +kernel)
  exact .allocate (n := 4) (.init 6) (by decide) (by decide +kernel)

theorem demo2_reach : Reach true 32 64 demo2 [(5, 2), (4, 1)] := by
  have h := Reach.shrink (m' := demo2) (p := 5) (k := 3) (n := 2)
    (.free (p := 0) (k := 4) demo1_reach (by decide)) (by decide) (by decide +kernel)
  exact h

/-- The same history continued with rejected frees of a free word and of the last word of a
block. -/
theorem demo3_reach : Reach false 32 64 (free (free (free (init 32 64 6) 9).1 100).1 3).1 [] := by
  refine .badFree rfl (.badFree rfl (.badFree rfl (.init 6) ?_ ?_) ?_ ?_) ?_ ?_ <;>
    simp [strictlyInside]

/-! ### C01 -/

/-- C01: in every reachable state, whatever allocations, frees of live blocks, shrinks and
rejected frees happened before, the live blocks are non-empty, inside the arena and pairwise
disjoint; and no operation reads outside the bitmap. -/
theorem C01_blocks_disjoint {valid w size m live} (h0 : 0 < size) (hw : size < 2 ^ w)
    (h : Reach valid w size m live) :
    live.Pairwise Block.disjoint ∧ (∀ b ∈ live, b.1 + b.2 ≤ size ∧ 1 ≤ b.2) ∧
    (∀ n, allocate m n ≠ none) := by
  have hI := reach_inv h0 hw h
  refine ⟨inv_pairwise hI, fun b hb => inv_inside hI hb, fun n => ?_⟩
  rcases allocate_inv hw hI n with ⟨m', p, e, _⟩ | ⟨m', e, _⟩ <;> simp [e]

/-- C01, one allocation: a returned block consists of words that were free and overlaps no
live block. -/
theorem C01_allocation_fresh {valid w size m m' live n p} (h0 : 0 < size) (hw : size < 2 ^ w)
    (h : Reach valid w size m live) (ha : allocate m n = some (m', some p)) :
    1 ≤ n ∧ p + n ≤ size ∧ freeRun size live p n ∧ ∀ b ∈ live, Block.disjoint (p, n) b := by
  have hI := reach_inv h0 hw h
  rcases allocate_inv hw hI n with ⟨m2, p2, e, h1, h2, h3, _⟩ | ⟨m2, e, _⟩
  · rw [e] at ha; cases ha
    refine ⟨h1, (inv_inside h2 List.mem_cons_self).1, h3, fun b hb => ?_⟩
    have := inv_pairwise h2
    rw [List.pairwise_cons] at this
    exact this.1 b hb
  · rw [e] at ha; cases ha

/-- C01 for `lbm_malloc`, sizes in bytes: the returned block covers at least the requested
number of bytes and wastes less than a word, and overlaps no live block.  `w / 8` is
`sizeof(lbm_uint)`. -/
theorem C01_malloc_bytes {valid w size m m' live n p} (h0 : 0 < size) (hw : size < 2 ^ w)
    (hw8 : 8 ≤ w) (h : Reach valid w size m live) (ha : malloc m n = some (m', some p)) :
    ∃ k, n ≤ k * (w / 8) ∧ k * (w / 8) < n + w / 8 ∧ p + k ≤ size ∧
      ∀ b ∈ live, Block.disjoint (p, k) b := by
  have hmw : m.w = w := by obtain ⟨_, hh⟩ := reach_inv h0 hw h; exact hh.hw
  simp only [malloc] at ha
  split at ha
  · cases ha
  · rw [hmw] at ha
    have h1 := C01_allocation_fresh h0 hw h ha
    refine ⟨bytesToWords w n, ?_, ?_, h1.2.1, h1.2.2.2⟩
    all_goals
      have hp : 0 < w / 8 := by omega
      have := Nat.div_add_mod n (w / 8)
      have := Nat.mod_lt n hp
      unfold bytesToWords
      split <;> simp only [Nat.add_mul, Nat.add_zero, Nat.one_mul, Nat.mul_comm (n / (w/8))] <;> omega

/-- The same for `lbm_malloc_reserve`. -/
theorem C01_malloc_reserve_bytes {valid w size m m' live n p} (h0 : 0 < size) (hw : size < 2 ^ w)
    (hw8 : 8 ≤ w) (h : Reach valid w size m live) (ha : mallocReserve m n = some (m', some p)) :
    ∃ k, n ≤ k * (w / 8) ∧ k * (w / 8) < n + w / 8 ∧ p + k ≤ size ∧
      ∀ b ∈ live, Block.disjoint (p, k) b := by
  have hI := reach_inv h0 hw h
  have hmw : m.w = w := by obtain ⟨_, hh⟩ := hI; exact hh.hw
  have hI2 : Inv valid w size (if wsub m.w m.numFree (bytesToWords m.w n) < m.reserve
      then { m with gcReq := true } else m) live := by
    split
    · exact hI.congr rfl rfl rfl rfl
    · exact hI
  simp only [mallocReserve] at ha
  split at ha
  · cases ha
  · rw [hmw] at ha hI2
    rcases allocateInternal_inv hw hI2 (bytesToWords w n) with ⟨m2, p2, e, h1, h2, h3, _⟩ | ⟨e, h2⟩
    · rw [e] at ha; cases ha
      refine ⟨bytesToWords w n, ?_, ?_, (inv_inside h2 List.mem_cons_self).1, fun b hb => ?_⟩
      · have hp : 0 < w / 8 := by omega
        have := Nat.div_add_mod n (w / 8)
        have := Nat.mod_lt n hp
        unfold bytesToWords
        split <;> simp only [Nat.add_mul, Nat.add_zero, Nat.one_mul, Nat.mul_comm (n / (w/8))] <;> omega
      · have hp : 0 < w / 8 := by omega
        have := Nat.div_add_mod n (w / 8)
        have := Nat.mod_lt n hp
        unfold bytesToWords
        split <;> simp only [Nat.add_mul, Nat.add_zero, Nat.one_mul, Nat.mul_comm (n / (w/8))] <;> omega
      · have := inv_pairwise h2
        rw [List.pairwise_cons] at this
        exact this.1 b hb
    · rw [e] at ha; cases ha

example : ∃ m live, 0 < 64 ∧ 64 < 2 ^ 32 ∧ Reach true 32 64 m live ∧ live.length = 3 :=
  ⟨_, _, by decide, by decide, demo1_reach, rfl⟩
example : ∃ m, Reach false 32 64 m [] := ⟨_, demo3_reach⟩

/-! ### C02 -/

/-- C02: after any history in which only live blocks are freed, a request for `n ≥ 1` words
succeeds exactly when `n` consecutive words are free and granting it leaves the reserve
intact. -/
theorem C02_allocation_complete {w size m live n} (h0 : 0 < size) (hw : size < 2 ^ w)
    (h : Reach true w size m live) (hn : 1 ≤ n) (hnw : n < 2 ^ w) :
    (∃ m' p, allocate m n = some (m', some p)) ↔
    (n + m.reserve ≤ size - liveWords live ∧ ∃ p, freeRun size live p n) := by
  have hI := reach_inv h0 hw h
  have hnf := inv_numFree hI
  have hmw : m.w = w := by obtain ⟨_, hh⟩ := hI; exact hh.hw
  rcases allocate_inv hw hI n with ⟨m2, p2, e, h1, h2, h3, h4, _⟩ | ⟨m2, e, h1, _, h2⟩
  · refine ⟨fun _ => ⟨?_, p2, h3⟩, fun _ => ⟨m2, p2, e⟩⟩
    have := run_le_numFree hI hn h3
    rw [hmw, wsub_le this (by omega)] at h4
    omega
  · constructor
    · rintro ⟨m', p, e'⟩; rw [e] at e'; cases e'
    · rintro ⟨hr, p, hp⟩
      have := run_le_numFree hI hn hp
      exact absurd hp (h2 rfl hn (by rw [hmw, wsub_le this (by omega)]; omega) p)

/-- C02 for `lbm_malloc_reserve`, which may dip into the reserve: it succeeds exactly when
enough consecutive words are free. -/
theorem C02_malloc_reserve_complete {w size m live n} (h0 : 0 < size) (hw : size < 2 ^ w)
    (h : Reach true w size m live) (hn : 1 ≤ n) (hb : 1 ≤ bytesToWords w n) :
    (∃ m' p, mallocReserve m n = some (m', some p)) ↔
    ∃ p, freeRun size live p (bytesToWords w n) := by
  have hI := reach_inv h0 hw h
  have hmw : m.w = w := by obtain ⟨_, hh⟩ := hI; exact hh.hw
  have hI2 : Inv true w size (if wsub m.w m.numFree (bytesToWords m.w n) < m.reserve
      then { m with gcReq := true } else m) live := by
    split
    · exact hI.congr rfl rfl rfl rfl
    · exact hI
  have hn0 : ¬ n = 0 := by omega
  simp only [mallocReserve, hn0, if_false]
  rw [hmw] at hI2 ⊢
  rcases allocateInternal_inv hw hI2 (bytesToWords w n) with ⟨m2, p2, e, _, _, h3, _⟩ | ⟨e, h2⟩
  · exact ⟨fun _ => ⟨p2, h3⟩, fun _ => ⟨m2, p2, e⟩⟩
  · constructor
    · rintro ⟨m', p, e'⟩; rw [e] at e'; cases e'
    · rintro ⟨p, hp⟩; exact absurd hp (h2 rfl hb p)

example : ∃ m live n, Reach true 32 64 m live ∧ 1 ≤ n ∧ n < 2 ^ 32 ∧ 2 ≤ live.length ∧
    (∃ m' p, allocate m n = some (m', some p)) :=
  ⟨_, _, 54, demo2_reach, by decide, by decide, by decide,
    { init 32 64 6 with
      bm := [.freeOrUsed, .freeOrUsed, .freeOrUsed, .freeOrUsed, .startEnd, .start, .end_, .start] ++
            List.replicate 52 .freeOrUsed ++ [.end_] ++ List.replicate 3 .freeOrUsed
      off := 60, numFree := 7 }, 7, by decide +kernel⟩

/-- The completeness claim fails when the history contains a rejected free of a free word:
the scan then starts in the middle of a free run.  8 words of a 64 word arena are free and
consecutive, the reserve is 0, and the request for 8 words fails. -/
theorem C02_incomplete_after_rejected_free :
    ∃ m live, Reach false 32 64 m live ∧ freeRun 64 live 0 64 ∧ m.reserve = 0 ∧
      allocate m 64 = some (m, none) := by
  refine ⟨(free (init 32 64 0) 20).1, [], .badFree rfl (.init 0) (by simp) (by simp [strictlyInside]), ?_, rfl, ?_⟩
  · intro i hi; exact ⟨by omega, by simp⟩
  · rfl

/-! ### C03 -/

/-- C03: freeing a live block succeeds and returns exactly its words to the free count. -/
theorem C03_free_live {valid w size m live p k} (h0 : 0 < size) (hw : size < 2 ^ w)
    (h : Reach valid w size m live) (hb : (p, k) ∈ live) :
    (free m p).2 = true ∧ (free m p).1.numFree = m.numFree + k ∧
    (∀ i, isFree size (live.erase (p, k)) i ↔ isFree size live i ∨ Block.covers (p, k) i) ∧
    Reach valid w size (free m p).1 (live.erase (p, k)) := by
  have hI := reach_inv h0 hw h
  obtain ⟨h1, h2, h3, _⟩ := free_result hw hI hb
  refine ⟨h1, h3, fun i => ?_, .free h hb⟩
  have hperm := List.perm_cons_erase hb
  have hpw := inv_pairwise (hI.perm hperm.symm)
  rw [List.pairwise_cons] at hpw
  rw [isFree_perm (i := i) hperm]
  constructor
  · rintro ⟨hi, hf⟩
    by_cases hc : Block.covers (p, k) i
    · exact .inr hc
    · left
      refine ⟨hi, fun b hb' => ?_⟩
      rcases List.mem_cons.mp hb' with rfl | hb'
      · exact hc
      · exact hf b hb'
  · rintro (⟨hi, hf⟩ | hc)
    · exact ⟨hi, fun b hb' => hf b (by simp [hb'])⟩
    · refine ⟨?_, fun b hb' hbc => hpw.1 b hb' i ⟨hc, hbc⟩⟩
      have := inv_inside hI hb
      simp [Block.covers] at hc this; omega

/-- C03: the free counter is exact in every reachable state. -/
theorem C03_num_free_exact {valid w size m live} (h0 : 0 < size) (hw : size < 2 ^ w)
    (h : Reach valid w size m live) : m.numFree + liveWords live = size :=
  inv_numFree (reach_inv h0 hw h)

/-- C03: freeing a pointer that is not the start of a live block (anywhere, inside or outside
the arena) returns 0 and changes neither the bitmap nor the free counter. -/
theorem C03_free_other {valid w size m live p} (h0 : 0 < size) (hw : size < 2 ^ w)
    (h : Reach valid w size m live) (hb : ∀ k, (p, k) ∉ live) :
    (free m p).2 = false ∧ (free m p).1.bm = m.bm ∧ (free m p).1.numFree = m.numFree := by
  obtain ⟨h1, h2⟩ := not_start (reach_inv h0 hw h) hb
  obtain ⟨h3, h4, h5, _⟩ := free_reject h1 h2
  exact ⟨h3, h4, h5⟩

example : ∃ m live, Reach true 32 64 m live ∧ (0, 4) ∈ live ∧ (∀ k, (2, k) ∉ live) :=
  ⟨_, _, demo1_reach, by decide, by simp⟩

/-! ### C04 -/

/-- C04: shrinking a live block of `k` words to `1 ≤ n < k` words succeeds, keeps the first
`n` words as a live block at the same address, frees the others, and changes no other
block. -/
theorem C04_shrink {valid w size m live p k n} (h0 : 0 < size) (hw : size < 2 ^ w)
    (h : Reach valid w size m live) (hb : (p, k) ∈ live) (hn : 1 ≤ n) (hnk : n < k) :
    ∃ m', shrink m p n = (m', true) ∧ m'.numFree = m.numFree + (k - n) ∧
      Reach valid w size m' ((p, n) :: live.erase (p, k)) := by
  have hI := reach_inv h0 hw h
  rcases shrink_result hw hI n hb with ⟨e, h1⟩ | ⟨e, h1, h2⟩ | ⟨m2, e, h1, h2, h3, h4, _⟩
  · omega
  · omega
  · refine ⟨m2, e, h4, ?_⟩
    have := Reach.shrink h hb e
    rwa [show min n k = n by omega] at this

/-- C04: in the other cases nothing changes: a request for 0 words or for at least the
current size of a block of two or more words returns 0; a one word block accepts any
non-zero size and stays one word. -/
theorem C04_shrink_noop {valid w size m live p k n} (h0 : 0 < size) (hw : size < 2 ^ w)
    (h : Reach valid w size m live) (hb : (p, k) ∈ live) (hn : n = 0 ∨ k ≤ n) :
    shrink m p n = (m, decide (1 ≤ n ∧ k = 1)) := by
  have hI := reach_inv h0 hw h
  rcases shrink_result hw hI n hb with ⟨e, h1⟩ | ⟨e, h1, h2⟩ | ⟨m2, e, h1, h2, _⟩
  · have : ¬ (1 ≤ n ∧ k = 1) := by omega
    simp [e, this]
  · simp [e, h1, h2]
  · omega

/-- C04: a pointer that is not the start of a live block is rejected without any change. -/
theorem C04_shrink_other {valid w size m live p n} (h0 : 0 < size) (hw : size < 2 ^ w)
    (h : Reach valid w size m live) (hb : ∀ k, (p, k) ∉ live) :
    shrink m p n = (m, false) := by
  obtain ⟨h1, h2⟩ := not_start (reach_inv h0 hw h) hb
  simp only [shrink]
  split
  · rfl
  · rfl

example : ∃ m live, Reach true 32 64 m live ∧ (5, 3) ∈ live ∧ 1 ≤ 2 ∧ 2 < 3 :=
  ⟨_, _, demo1_reach, by decide, by decide, by decide⟩

/-! ### C05 -/

/-- C05 is violated: `free` of a pointer strictly inside a live block returns 0 but moves
the scan offset into the block; the next allocation hands out words of the live block.
Here the block (0,4) is live and (1,2) is returned. -/
theorem C05_violated : ∃ m m' live p q n, Reach true 32 64 m live ∧ (∀ k, (p, k) ∉ live) ∧
    (free m p).2 = false ∧ allocate (free m p).1 n = some (m', some q) ∧
    ∃ b ∈ live, ¬ Block.disjoint (q, n) b := by
  refine ⟨demo1, { demo1 with
      bm := [.start, .start, .end_, .end_, .startEnd, .start, .freeOrUsed, .end_] ++
            List.replicate 56 .freeOrUsed
      off := 2, numFree := 54 }, _, 1, 1, 2, demo1_reach, by simp, by decide +kernel,
    by decide +kernel, (0, 4), by decide, ?_⟩
  intro h; exact h 1 (by simp [Block.covers])

/-- C05, the part that holds: after any number of rejected frees of pointers that are not
strictly inside a live block, all later allocations return blocks disjoint from all live
blocks.  Missing: pointers strictly inside a live block (see `C05_violated`). -/
theorem C05_rejected_free_partial {w size m live p n m' q} (h0 : 0 < size) (hw : size < 2 ^ w)
    (h : Reach false w size m live) (hb : ∀ k, (p, k) ∉ live) (hs : ¬ strictlyInside live p)
    (ha : allocate (free m p).1 n = some (m', some q)) :
    (free m p).2 = false ∧ q + n ≤ size ∧ ∀ b ∈ live, Block.disjoint (q, n) b := by
  have h1 := C01_allocation_fresh h0 hw (.badFree rfl h hb hs) ha
  exact ⟨(C03_free_other h0 hw h hb).1, h1.2.1, h1.2.2.2⟩

example : ∃ m live p, Reach false 32 64 m live ∧ (∀ k, (p, k) ∉ live) ∧ ¬ strictlyInside live p :=
  ⟨_, _, 3, demo3_reach, by simp, by simp [strictlyInside]⟩

/-! ### C06 -/

/-- C06: as long as the reserve is not already exhausted, `lbm_memory_longest_free` is the
largest request that `lbm_memory_allocate` grants: exactly the sizes up to it succeed. -/
theorem C06_longest_free_partial {w size m live} (h0 : 0 < size) (hw : size < 2 ^ w)
    (h : Reach true w size m live) (hr : m.reserve ≤ size - liveWords live)
    (n : Nat) (hn : 1 ≤ n) (hnw : n < 2 ^ w) :
    (∃ m' p, allocate m n = some (m', some p)) ↔ n ≤ longestFree m := by
  rw [C02_allocation_complete h0 hw h hn hnw]
  have hI := reach_inv h0 hw h
  have hnf := inv_numFree hI
  have hmw : m.w = w := by obtain ⟨_, hh⟩ := hI; exact hh.hw
  rw [← longest_run hI n hn]
  have hmx : (m.bm.foldl longestStep (.init, 0, 0)).2.2 ≤ m.numFree := by
    by_cases h1 : 1 ≤ (m.bm.foldl longestStep (.init, 0, 0)).2.2
    · obtain ⟨p, hp⟩ := (longest_run hI _ h1).mp (Nat.le_refl _)
      exact run_le_numFree hI h1 hp
    · omega
  unfold longestFree
  generalize (m.bm.foldl longestStep (.init, 0, 0)).2.2 = mx at hmx ⊢
  simp only [hmw]
  rw [wsub_le hmx (by omega)]
  split
  · rename_i hlt
    rw [wsub_le (a := m.reserve) (by omega) (by omega)]
    by_cases hle : m.reserve - (m.numFree - mx) ≤ mx
    · rw [wsub_le hle (by omega)]; omega
    · omega
  · omega

example : ∃ m live, Reach true 32 64 m live ∧ m.reserve ≤ 64 - liveWords live ∧
    longestFree m = 55 :=
  ⟨_, _, demo2_reach, by decide, by decide +kernel⟩

/-- C06 is violated when the reserve is already exhausted (which `lbm_malloc_reserve` is
meant for): the correction wraps around and the reported length is about 2^32 although only
2 words are free and no request can be granted. -/
theorem C06_violated : ∃ m live, Reach true 32 64 m live ∧ m.numFree = 2 ∧
    longestFree m = 2 ^ 32 - 2 ∧ ∀ n, 1 ≤ n → n ≤ 2 → ∃ m', allocate m n = some (m', none) := by
  refine ⟨_, _, .mallocReserve (n := 4 * 62) (.init 4) (by decide) rfl, rfl, rfl, ?_⟩
  intro n h1 h2
  obtain rfl | rfl : n = 1 ∨ n = 2 := by omega
  · exact ⟨_, rfl⟩
  · exact ⟨_, rfl⟩

end Verif.Mem
