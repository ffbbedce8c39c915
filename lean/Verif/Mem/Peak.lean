import Verif.Mem.Props

/-!
# The report on the most memory in use (C132)
-/

namespace Verif.Mem

/-- One call of the client, and what it does to the state and to the client's list of live blocks (the cases of `Reach`). -/
inductive Call (valid : Bool) (w : Nat) : Mem → List Block → Mem → List Block → Prop
  | allocate {m m' live n p} : n < 2 ^ w → allocate m n = some (m', some p) → Call valid w m live m' ((p, n) :: live)
  | allocateFail {m m' live n} : n < 2 ^ w → allocate m n = some (m', none) → Call valid w m live m' live
  | malloc {m m' live n p} : n < 2 ^ w → malloc m n = some (m', some p) → Call valid w m live m' ((p, bytesToWords w n) :: live)
  | mallocFail {m m' live n} : n < 2 ^ w → malloc m n = some (m', none) → Call valid w m live m' live
  | mallocReserve {m m' live n p} : n < 2 ^ w → mallocReserve m n = some (m', some p) → Call valid w m live m' ((p, bytesToWords w n) :: live)
  | mallocReserveFail {m m' live n} : n < 2 ^ w → mallocReserve m n = some (m', none) → Call valid w m live m' live
  | free {m live p k} : (p, k) ∈ live → Call valid w m live (free m p).1 (live.erase (p, k))
  | badFree {m live p} : valid = false → (∀ k, (p, k) ∉ live) → ¬ strictlyInside live p → Call valid w m live (Mem.free m p).1 live
  | shrink {m m' live p k n} : (p, k) ∈ live → shrink m p n = (m', true) → Call valid w m live m' ((p, min n k) :: live.erase (p, k))
  | shrinkFail {m m' live p k n} : (p, k) ∈ live → shrink m p n = (m', false) → Call valid w m live m' live
  | setReserve {m live} (r : Nat) : Call valid w m live (setReserve m r) live

/-- Histories in which the statistics are updated now and then (`gc`, eval_cps.c:1640, is the only place); `ss` are the blocks that were live at these moments. -/
inductive Hist (valid : Bool) (w size : Nat) : Mem → List Block → List (List Block) → Prop
  | init (r : Nat) : Hist valid w size (init w size r) [] []
  | call {m live ss m' live'} : Hist valid w size m live ss → Call valid w m live m' live' → Hist valid w size m' live' ss
  | update {m live ss} : Hist valid w size m live ss → Hist valid w size (updateMinFree m) live (live :: ss)

/-- The most words in use at the moments `ss`. -/
def most (ss : List (List Block)) : Nat := (ss.map liveWords).foldr max 0

theorem hist_reach {valid w size m live ss} (h : Hist valid w size m live ss) : Reach valid w size m live := by
  induction h with
  | init r => exact .init r
  | call _ hc ih =>
    cases hc with
    | allocate h1 h2 => exact .allocate ih h1 h2
    | allocateFail h1 h2 => exact .allocateFail ih h1 h2
    | malloc h1 h2 => exact .malloc ih h1 h2
    | mallocFail h1 h2 => exact .mallocFail ih h1 h2
    | mallocReserve h1 h2 => exact .mallocReserve ih h1 h2
    | mallocReserveFail h1 h2 => exact .mallocReserveFail ih h1 h2
    | free h1 => exact .free ih h1
    | badFree h1 h2 h3 => exact .badFree h1 ih h2 h3
    | shrink h1 h2 => exact .shrink ih h1 h2
    | shrinkFail h1 h2 => exact .shrinkFail ih h1 h2
    | setReserve r => exact .setReserve r ih
  | update _ ih => exact .updateMinFree ih

/-- Every state that can be reached has such a history. -/
theorem reach_hist {valid w size m live} (h : Reach valid w size m live) : ∃ ss, Hist valid w size m live ss := by
  induction h with
  | init r => exact ⟨_, .init r⟩
  | allocate _ h1 h2 ih => exact ih.imp fun _ h => .call h (.allocate h1 h2)
  | allocateFail _ h1 h2 ih => exact ih.imp fun _ h => .call h (.allocateFail h1 h2)
  | malloc _ h1 h2 ih => exact ih.imp fun _ h => .call h (.malloc h1 h2)
  | mallocFail _ h1 h2 ih => exact ih.imp fun _ h => .call h (.mallocFail h1 h2)
  | mallocReserve _ h1 h2 ih => exact ih.imp fun _ h => .call h (.mallocReserve h1 h2)
  | mallocReserveFail _ h1 h2 ih => exact ih.imp fun _ h => .call h (.mallocReserveFail h1 h2)
  | free _ h1 ih => exact ih.imp fun _ h => .call h (.free h1)
  | badFree h1 _ h2 h3 ih => exact ih.imp fun _ h => .call h (.badFree h1 h2 h3)
  | shrink _ h1 h2 ih => exact ih.imp fun _ h => .call h (.shrink h1 h2)
  | shrinkFail _ h1 h2 ih => exact ih.imp fun _ h => .call h (.shrinkFail h1 h2)
  | setReserve r _ ih => exact ih.imp fun _ h => .call h (.setReserve r)
  | updateMinFree _ ih => obtain ⟨ss, h⟩ := ih; exact ⟨_, .update h⟩

theorem allocateInternal_min {m m' n p} (h : allocateInternal m n = some (m', p)) : m'.minFree = m.minFree := by
  unfold allocateInternal at h
  split at h
  · cases h
  · cases h; simp only; split <;> rfl
  · cases h; rfl

theorem allocate_min {m m' n p} (h : allocate m n = some (m', p)) : m'.minFree = m.minFree := by
  unfold allocate at h
  split at h
  · cases h; rfl
  · exact allocateInternal_min h

theorem malloc_min {m m' n p} (h : malloc m n = some (m', p)) : m'.minFree = m.minFree := by
  unfold malloc at h
  split at h
  · cases h; rfl
  · exact allocate_min h

theorem mallocReserve_min {m m' n p} (h : mallocReserve m n = some (m', p)) : m'.minFree = m.minFree := by
  unfold mallocReserve at h
  split at h
  · cases h; rfl
  · simp only at h
    rw [allocateInternal_min h]
    split <;> rfl

theorem free_min (m : Mem) (p : Nat) : (free m p).1.minFree = m.minFree := by
  unfold free
  split
  · simp only; split <;> rfl
  · rfl

theorem shrink_min (m : Mem) (p n : Nat) : (shrink m p n).1.minFree = m.minFree := by
  unfold shrink
  split
  · rfl
  · split
    · rfl
    · split
      · rfl
      · simp only; split <;> rfl
    · rfl

theorem call_min {valid w m live m' live'} (h : Call valid w m live m' live') : m'.minFree = m.minFree := by
  cases h with
  | allocate _ h | allocateFail _ h => exact allocate_min h
  | malloc _ h | mallocFail _ h => exact malloc_min h
  | mallocReserve _ h | mallocReserveFail _ h => exact mallocReserve_min h
  | free | badFree => exact free_min _ _
  | shrink _ h | shrinkFail _ h => exact (congrArg (fun r : Mem × Bool => r.1.minFree) h).symm.trans (shrink_min _ _ _)
  | setReserve => rfl

theorem hist_min {valid w size m live ss} (h0 : 0 < size) (hw : size < 2 ^ w) (h : Hist valid w size m live ss) : m.minFree + most ss = size := by
  induction h with
  | init r => rfl
  | call _ hc ih => rw [call_min hc]; exact ih
  | @update m live ss hh ih =>
    have hn := C03_num_free_exact h0 hw (hist_reach hh)
    simp only [most, List.map_cons, List.foldr_cons] at ih ⊢
    unfold updateMinFree
    split
    · simp only; omega
    · omega

/-- C132: the number reported is the most words that were in use at any of the moments when the statistics were updated. -/
theorem C132_maximum_used {valid w size m live ss} (h0 : 0 < size) (hw : size < 2 ^ w) (h : Hist valid w size m live ss) :
    maximumUsed m = most ss ∧ most ss ≤ size := by
  have hm := hist_min h0 hw h
  have hI := reach_inv h0 hw (hist_reach h)
  obtain ⟨segs, hI⟩ := hI
  have hl : m.bm.length = size := by rw [hI.hbm, encs_length, hI.hsize]
  refine ⟨?_, by omega⟩
  unfold maximumUsed
  rw [hl, hI.hw, wsub_le (by omega) hw]
  omega

/-- C132: what is in use now is in the report after an update, and the report never goes down. -/
theorem C132_update {valid w size m live ss} (h0 : 0 < size) (hw : size < 2 ^ w) (h : Hist valid w size m live ss) :
    liveWords live ≤ maximumUsed (updateMinFree m) ∧ maximumUsed m ≤ maximumUsed (updateMinFree m) := by
  rw [(C132_maximum_used h0 hw h).1, (C132_maximum_used h0 hw (.update h)).1]
  simp only [most, List.map_cons, List.foldr_cons]
  omega

/-- C132 fails between the updates: memory that is allocated and freed before the next garbage collection is not in the report. -/
theorem C132_between_violated : ∃ m, Hist true 32 64 m [(0, 40)] [] ∧ Hist true 32 64 (updateMinFree (free m 0).1) [] [[]] ∧
    maximumUsed (updateMinFree (free m 0).1) = 0 := by
  have ha : ∃ m1, allocate (init 32 64 0) 40 = some (m1, some 0) := by
    refine ⟨(match allocate (init 32 64 0) 40 with | some (m', _) => m' | none => init 32 64 0), ?_⟩
    decide +kernel
  obtain ⟨m1, h1⟩ := ha
  have hh : Hist true 32 64 m1 [(0, 40)] [] := .call (.init 0) (.allocate (by decide) h1)
  have hf : Hist true 32 64 (free m1 0).1 [] [] := .call hh (.free (k := 40) (by simp))
  exact ⟨m1, hh, .update hf, (C132_maximum_used (by decide) (by decide) (.update hf)).1⟩

/-- An update while the block is live: the report is 40. -/
example : ∃ m, Hist true 32 64 m [(0, 40)] [[(0, 40)]] ∧ maximumUsed m = 40 := by
  obtain ⟨m, h, -, -⟩ := C132_between_violated
  exact ⟨_, .update h, (C132_maximum_used (by decide) (by decide) (.update h)).1⟩

end Verif.Mem
