/-!
# Property C144: blocking from an extension and unblocking from other threads

An extension asks for its process to be blocked (`lbm_block_ctx_from_extension`) and gives the identifier of the process to other threads, which call `lbm_unblock_ctx_r` or
`lbm_unblock_ctx_unboxed`. The process is put into the queue of blocked processes only after the extension has returned; `blocking_extension_mutex` is there so that no
call in between is lost.

The model is the interleaving of the evaluator, which runs one process that blocks again and again, and any number of other threads. A step is an access to a shared variable
or a critical section under the mutex of the queues. Simplifications: the queues are reduced to the place of that process (C32 and C61 treat the queues); what `wake_up_ctxs_nm`, events
and `kill` do to a blocked process is one step, `Step.other`; a reset of the evaluator is left out.
-/

namespace Verif.Sched.Blocking

/-- Who holds `blocking_extension_mutex`. -/
inductive Owner
  | evaluator
  | thread (i : Nat)
deriving DecidableEq, Repr

/-- Where the process is. -/
inductive Place
  | running | blocked | ready | gone
deriving DecidableEq, Repr

/-- What the evaluator is doing for the process. -/
inductive EPc
  /-- It evaluates the process. -/
  | run
  /-- In `lbm_block_ctx_base`, with the mutex, `src/eval_cps.c:1440`. -/
  | locked
  /-- The flag is set, `src/eval_cps.c:1441`; the extension has not yet returned. -/
  | asked
  /-- In `lbm_undo_block_ctx_from_extension`, behind `src/eval_cps.c:1463`. -/
  | undoing
  /-- In an atomic block, behind `src/eval_cps.c:3078`. -/
  | atomic
  /-- Behind `src/eval_cps.c:3082`. -/
  | cleared
  /-- Behind `block_current_ctx`, `src/eval_cps.c:3084-3088`. -/
  | queued
  /-- It evaluates other processes. -/
  | out
  /-- The process has ended with an error. -/
  | dead
deriving DecidableEq, Repr

/-- A thread that calls `lbm_unblock_ctx_r`, `src/eval_cps.c:1399-1414`. `r` is not in the code: how often the process had asked to be blocked when the call began. -/
inductive UPc
  | idle
  /-- At `mutex_lock`, 1400. -/
  | waiting (r : Nat)
  /-- With the mutex. -/
  | holding (r : Nat)
  /-- Behind the unlocking of the queues, 1411, with the result. -/
  | did (r : Nat) (ok : Bool)
  /-- The call has returned. -/
  | finished (r : Nat) (ok : Bool)
deriving DecidableEq, Repr

/-- The shared state. `round` counts how often the process asked to be blocked, `wakes` which of these blocks were ended and by which thread (`none`: by something else), newest
first; `victim` says that some other process, which did not ask for it, was blocked. These three are not in the code. -/
structure S where
  owner : Option Owner := none
  flag : Bool := false
  place : Place := .running
  pc : EPc := .run
  u : Nat → UPc := fun _ => .idle
  round : Nat := 0
  wakes : List (Option Nat × Nat) := []
  victim : Bool := false

/-- Changes what thread `i` does. -/
def S.set (s : S) (i : Nat) (p : UPc) : S := { s with u := fun j => if j = i then p else s.u j }

/-- One step. `errs`: the extension may return an error after it asked to be blocked. -/
inductive Step (errs : Bool) : S → S → Prop
  /-- `mutex_lock`, `src/eval_cps.c:1440`. -/
  | lock {s} : s.pc = .run → s.owner = none → Step errs s { s with owner := some .evaluator, pc := .locked }
  /-- `blocking_extension = true`, 1441. -/
  | ask {s} : s.pc = .locked → Step errs s { s with flag := true, pc := .asked, round := s.round + 1 }
  /-- `lbm_undo_block_ctx_from_extension`, 1463. -/
  | undo {s} : s.pc = .asked → Step errs s { s with flag := false, pc := .undoing }
  /-- 1466. -/
  | undone {s} : s.pc = .undoing → Step errs s { s with owner := none, pc := .run }
  /-- The extension has returned, 3074; in an atomic block, 3075-3078. -/
  | inAtomic {s} : s.pc = .asked → s.flag = true → Step errs s { s with flag := false, pc := .atomic }
  /-- 3079-3080. -/
  | atomicError {s} : s.pc = .atomic → Step errs s { s with owner := none, pc := .dead, place := .gone }
  /-- The extension has returned, 3074 and 3082. -/
  | clear {s} : s.pc = .asked → s.flag = true → Step errs s { s with flag := false, pc := .cleared }
  /-- `block_current_ctx`, 3084-3088 and 698-706. -/
  | block {s} : s.pc = .cleared → Step errs s { s with place := .blocked, pc := .queued }
  /-- 3089. -/
  | unlock {s} : s.pc = .queued → Step errs s { s with owner := none, pc := .out }
  /-- A timeout, an event or `kill`: the evaluator makes the process ready itself. -/
  | other {s} : s.pc = .out → s.place = .blocked → Step errs s { s with place := .ready, wakes := (none, s.round) :: s.wakes }
  /-- The process is taken from the queue of ready processes. -/
  | resume {s} : s.pc = .out → s.place = .ready → Step errs s { s with place := .running, pc := .run }
  /-- The extension returns an error after it asked, 3066-3067: `error_at_ctx` does not come back. -/
  | error {s} : errs = true → s.pc = .asked → Step errs s { s with place := .gone, pc := .dead }
  /-- The extension returns a memory error after it asked, 3065: after a collection `WITH_GC` calls it again. -/
  | retry {s} : errs = true → s.pc = .asked → Step errs s { s with pc := .run }
  /-- Another process calls an extension that does not ask to be blocked; behind it the flag is tested, 3074-3090. -/
  | plain {s} : s.pc = .out ∨ s.pc = .dead →
      Step errs s (if s.flag then { s with flag := false, victim := true, owner := none } else s)
  /-- A thread calls `lbm_unblock_ctx_r`. -/
  | call {s} (i : Nat) : (∀ r, s.u i ≠ .waiting r ∧ s.u i ≠ .holding r ∧ ∀ b, s.u i ≠ .did r b) → Step errs s (s.set i (.waiting s.round))
  /-- `mutex_lock`, 1400. -/
  | enter {s} {i r : Nat} : s.u i = .waiting r → s.owner = none → Step errs s ({ s with owner := some (.thread i) }.set i (.holding r))
  /-- 1403-1411, the process is found among the blocked ones. -/
  | wake {s} {i r : Nat} : s.u i = .holding r → s.place = .blocked →
      Step errs s ({ s with place := .ready, wakes := (some i, s.round) :: s.wakes }.set i (.did r true))
  /-- 1403-1411, it is not. -/
  | miss {s} {i r : Nat} : s.u i = .holding r → s.place ≠ .blocked → Step errs s (s.set i (.did r false))
  /-- 1412-1413. -/
  | leave {s} {i r : Nat} {b : Bool} : s.u i = .did r b → Step errs s ({ s with owner := none }.set i (.finished r b))

/-- Executions. -/
inductive Run (errs : Bool) : S → S → Prop
  | refl (s) : Run errs s s
  | tail {a b c} : Run errs a b → Step errs b c → Run errs a c

/-! ### Specification -/

/-- The process has asked to be blocked for the last time, and this has not come to an end: it is on its way to the blocked processes or one of them. -/
def Pending (s : S) : Prop :=
  s.pc = .asked ∨ s.pc = .undoing ∨ s.pc = .atomic ∨ s.pc = .cleared ∨ s.pc = .queued ∨ s.place = .blocked

/-! ### Proofs -/

/-- The evaluator has the mutex. -/
def EPc.holds : EPc → Bool
  | .run => false
  | .out => false
  | .dead => false
  | _ => true

/-- Where the process can be. -/
def EPc.fits : EPc → Place → Bool
  | .queued, .blocked => true
  | .out, .blocked => true
  | .out, .ready => true
  | .dead, .gone => true
  | .queued, _ => false
  | .out, _ => false
  | .dead, _ => false
  | _, .running => true
  | _, _ => false

/-- What holds of a thread. -/
def ThreadOK (s : S) (i : Nat) : UPc → Prop
  | .idle => True
  | .waiting r => r ≤ s.round
  | .holding r => r ≤ s.round ∧ s.owner = some (.thread i)
  | .did r b => r ≤ s.round ∧ s.owner = some (.thread i) ∧ (r = s.round → ¬ Pending s) ∧ (b = true → ∃ k, (some i, k) ∈ s.wakes)
  | .finished r b => r ≤ s.round ∧ (r = s.round → ¬ Pending s) ∧ (b = true → ∃ k, (some i, k) ∈ s.wakes)

structure Inv (s : S) : Prop where
  owner : s.owner = some .evaluator ↔ s.pc.holds = true
  flag : s.flag = true ↔ s.pc = .asked
  place : s.pc.fits s.place = true
  victim : s.victim = false
  wakes : (s.wakes.map Prod.snd).Nodup
  rounds : ∀ k ∈ s.wakes.map Prod.snd, k ≤ s.round ∧ (Pending s → k < s.round)
  held : ∀ i, s.owner = some (.thread i) → ∃ r, s.u i = .holding r ∨ ∃ b, s.u i = .did r b
  threads : ∀ i, ThreadOK s i (s.u i)

theorem inv_start : Inv {} := by
  refine ⟨by simp [EPc.holds], by simp, rfl, rfl, by simp, by simp, by simp, fun i => trivial⟩

/-- Steps of the evaluator leave what holds of the threads. -/
theorem threads_keep {s s' : S} (hu : s'.u = s.u) (hr : s.round ≤ s'.round) (ho : ∀ i, s.owner = some (.thread i) → s'.owner = some (.thread i))
    (hp : s'.round = s.round → Pending s' → Pending s) (hw : ∀ x ∈ s.wakes, x ∈ s'.wakes) (h : ∀ i, ThreadOK s i (s.u i)) : ∀ i, ThreadOK s' i (s'.u i) := by
  intro i
  have hi := h i
  rw [hu]
  cases hc : s.u i with
  | idle => trivial
  | waiting r => rw [hc] at hi; simp only [ThreadOK] at hi ⊢; omega
  | holding r => rw [hc] at hi; simp only [ThreadOK] at hi ⊢; exact ⟨by omega, ho i hi.2⟩
  | did r b =>
    rw [hc] at hi; simp only [ThreadOK] at hi ⊢
    obtain ⟨h1, h2, h3, h4⟩ := hi
    refine ⟨by omega, ho i h2, fun e hP => ?_, fun hb => ?_⟩
    · exact h3 (by omega) (hp (by omega) hP)
    · obtain ⟨k, hk⟩ := h4 hb; exact ⟨k, hw _ hk⟩
  | finished r b =>
    rw [hc] at hi; simp only [ThreadOK] at hi ⊢
    obtain ⟨h1, h3, h4⟩ := hi
    refine ⟨by omega, fun e hP => ?_, fun hb => ?_⟩
    · exact h3 (by omega) (hp (by omega) hP)
    · obtain ⟨k, hk⟩ := h4 hb; exact ⟨k, hw _ hk⟩

theorem inv_step {s s' : S} (h : Inv s) (st : Step false s s') : Inv s' := by
  obtain ⟨ow, fl, pl, vi, wk, rd, he, th⟩ := h
  cases st with
  | lock hpc ho =>
    rw [hpc] at pl
    refine ⟨by simp [EPc.holds], by simpa [hpc] using fl, by revert pl; cases s.place <;> simp [EPc.fits], vi, wk, ?_, by simp, threads_keep (s := s) rfl (Nat.le_refl _) ?_ ?_ (fun _ hx => hx) th⟩
    · intro k hk; refine ⟨(rd k hk).1, fun hP => (rd k hk).2 ?_⟩
      simpa [Pending, hpc] using hP
    · intro i hi; rw [ho] at hi; cases hi
    · intro _ hP; simpa [Pending, hpc] using hP
  | ask hpc =>
    rw [hpc] at pl ow
    have ho : s.owner = some .evaluator := ow.mpr rfl
    refine ⟨by simp [EPc.holds, ho], by simp, by revert pl; cases s.place <;> simp [EPc.fits], vi, wk, ?_, by simp [ho], threads_keep (s := s) rfl (Nat.le_succ _) (fun _ hi => hi) ?_ (fun _ hx => hx) th⟩
    · intro k hk; have := (rd k hk).1; exact ⟨by simp only; omega, fun _ => by simp only; omega⟩
    · intro e; simp at e
  | undo hpc =>
    rw [hpc] at pl ow
    have ho : s.owner = some .evaluator := ow.mpr rfl
    refine ⟨by simp [EPc.holds, ho], by simp, by revert pl; cases s.place <;> simp [EPc.fits], vi, wk, ?_, by simp [ho], threads_keep (s := s) rfl (Nat.le_refl _) (fun _ hi => hi) ?_ (fun _ hx => hx) th⟩
    · intro k hk; exact ⟨(rd k hk).1, fun _ => (rd k hk).2 (.inl hpc)⟩
    · intro _ _; exact .inl hpc
  | undone hpc =>
    rw [hpc] at pl ow fl
    have ho : s.owner = some .evaluator := ow.mpr rfl
    refine ⟨by simp [EPc.holds], by simpa using fl, by revert pl; cases s.place <;> simp [EPc.fits], vi, wk, ?_, by simp, threads_keep (s := s) rfl (Nat.le_refl _) ?_ ?_ (fun _ hx => hx) th⟩
    · intro k hk; exact ⟨(rd k hk).1, fun _ => (rd k hk).2 (.inr (.inl hpc))⟩
    · intro i hi; rw [ho] at hi; cases hi
    · intro _ _; exact .inr (.inl hpc)
  | inAtomic hpc hf =>
    rw [hpc] at pl ow
    have ho : s.owner = some .evaluator := ow.mpr rfl
    refine ⟨by simp [EPc.holds, ho], by simp, by revert pl; cases s.place <;> simp [EPc.fits], vi, wk, ?_, by simp [ho], threads_keep (s := s) rfl (Nat.le_refl _) (fun _ hi => hi) ?_ (fun _ hx => hx) th⟩
    · intro k hk; exact ⟨(rd k hk).1, fun _ => (rd k hk).2 (.inl hpc)⟩
    · intro _ _; exact .inl hpc
  | atomicError hpc =>
    rw [hpc] at pl ow fl
    have ho : s.owner = some .evaluator := ow.mpr rfl
    refine ⟨by simp [EPc.holds], by simpa using fl, by simp [EPc.fits], vi, wk, ?_, by simp, threads_keep (s := s) rfl (Nat.le_refl _) ?_ ?_ (fun _ hx => hx) th⟩
    · intro k hk; exact ⟨(rd k hk).1, fun _ => (rd k hk).2 (.inr (.inr (.inl hpc)))⟩
    · intro i hi; rw [ho] at hi; cases hi
    · intro _ _; exact .inr (.inr (.inl hpc))
  | clear hpc hf =>
    rw [hpc] at pl ow
    have ho : s.owner = some .evaluator := ow.mpr rfl
    refine ⟨by simp [EPc.holds, ho], by simp, by revert pl; cases s.place <;> simp [EPc.fits], vi, wk, ?_, by simp [ho], threads_keep (s := s) rfl (Nat.le_refl _) (fun _ hi => hi) ?_ (fun _ hx => hx) th⟩
    · intro k hk; exact ⟨(rd k hk).1, fun _ => (rd k hk).2 (.inl hpc)⟩
    · intro _ _; exact .inl hpc
  | block hpc =>
    rw [hpc] at pl ow fl
    have ho : s.owner = some .evaluator := ow.mpr rfl
    have hP0 : Pending s := .inr (.inr (.inr (.inl hpc)))
    refine ⟨by simp [EPc.holds, ho], by simpa using fl, by simp [EPc.fits], vi, wk, ?_, by simp [ho], threads_keep (s := s) rfl (Nat.le_refl _) (fun _ hi => hi) ?_ (fun _ hx => hx) th⟩
    · intro k hk; exact ⟨(rd k hk).1, fun _ => (rd k hk).2 hP0⟩
    · intro _ _; exact hP0
  | unlock hpc =>
    rw [hpc] at pl ow fl
    have ho : s.owner = some .evaluator := ow.mpr rfl
    have hP0 : Pending s := .inr (.inr (.inr (.inr (.inl hpc))))
    have hb : s.place = .blocked := by revert pl; cases s.place <;> simp [EPc.fits]
    refine ⟨by simp [EPc.holds], by simpa using fl, by simp [EPc.fits, hb], vi, wk, ?_, by simp, threads_keep (s := s) rfl (Nat.le_refl _) ?_ ?_ (fun _ hx => hx) th⟩
    · intro k hk; exact ⟨(rd k hk).1, fun _ => (rd k hk).2 hP0⟩
    · intro i hi; rw [ho] at hi; cases hi
    · intro _ _; exact hP0
  | other hpc hb =>
    have hP0 : Pending s := .inr (.inr (.inr (.inr (.inr hb))))
    have hnP : ¬ Pending { s with place := Place.ready, wakes := (none, s.round) :: s.wakes } := by simp [Pending, hpc]
    refine ⟨ow, fl, by simp [EPc.fits, hpc], vi, ?_, ?_, he, threads_keep (s := s) rfl (Nat.le_refl _) (fun _ hi => hi) (fun _ hP => absurd hP hnP) (fun _ hx => List.mem_cons_of_mem _ hx) th⟩
    · rw [List.map_cons, List.nodup_cons]
      exact ⟨fun hm => Nat.lt_irrefl _ ((rd _ hm).2 hP0), wk⟩
    · intro k hk
      refine ⟨?_, fun hP => absurd hP hnP⟩
      rw [List.map_cons, List.mem_cons] at hk
      rcases hk with rfl | hk
      · exact Nat.le_refl _
      · exact (rd k hk).1
  | resume hpc hb =>
    have hnP : ¬ Pending { s with place := Place.running, pc := EPc.run } := by simp [Pending]
    rw [hpc] at ow fl
    refine ⟨by simpa [EPc.holds] using ow, by simpa using fl, by simp [EPc.fits], vi, wk, fun k hk => ⟨(rd k hk).1, fun hP => absurd hP hnP⟩, he,
      threads_keep (s := s) rfl (Nat.le_refl _) (fun _ hi => hi) (fun _ hP => absurd hP hnP) (fun _ hx => hx) th⟩
  | error he' => cases he'
  | retry he' => cases he'
  | plain hpc =>
    have hf : s.flag = false := by
      cases hf : s.flag with
      | false => rfl
      | true => have := fl.mp hf; rcases hpc with h | h <;> rw [h] at this <;> cases this
    rw [hf]
    exact ⟨ow, fl, pl, vi, wk, rd, he, th⟩
  | call i hi =>
    refine ⟨ow, fl, pl, vi, wk, rd, ?_, ?_⟩
    · intro j hj
      obtain ⟨r, hr⟩ := he j hj
      refine ⟨r, ?_⟩
      have hne : j ≠ i := by
        rintro rfl
        rcases hr with hr | ⟨b, hr⟩
        · exact (hi r).2.1 hr
        · exact (hi r).2.2 b hr
      simpa [S.set, hne] using hr
    · intro j
      by_cases hj : j = i
      · subst hj; simp [S.set, ThreadOK]
      · have := th j
        simp only [S.set, if_neg hj]
        cases hc : s.u j <;> rw [hc] at this <;> exact this
  | @enter i r hi ho =>
    have hnh : s.pc.holds = false := by
      cases hh : s.pc.holds with
      | false => rfl
      | true => have := ow.mpr hh; rw [ho] at this; cases this
    refine ⟨by simp [S.set, hnh], fl, pl, vi, wk, rd, ?_, ?_⟩
    · intro j hj
      simp only [S.set, Option.some.injEq, Owner.thread.injEq] at hj
      subst hj
      exact ⟨r, .inl (by simp [S.set])⟩
    · intro j
      by_cases hj : j = i
      · subst hj
        have := th j; rw [hi] at this
        simp only [S.set, if_true, ThreadOK] at this ⊢
        exact ⟨this, by simp⟩
      · have := th j
        simp only [S.set, if_neg hj]
        cases hc : s.u j with
        | idle => trivial
        | waiting r' => rw [hc] at this; exact this
        | holding r' => rw [hc] at this; have h2 := this.2; rw [ho] at h2; cases h2
        | did r' b => rw [hc] at this; have h2 := this.2.1; rw [ho] at h2; cases h2
        | finished r' b => rw [hc] at this; exact this
  | @wake i r hi hb =>
    have hti := th i
    rw [hi] at hti
    obtain ⟨hr, ho⟩ := hti
    have hnh : s.pc.holds = false := by
      cases hh : s.pc.holds with
      | false => rfl
      | true => have := ow.mpr hh; rw [ho] at this; cases this
    have hpc : s.pc = .out := by
      rw [hb] at pl; revert pl hnh; cases s.pc <;> simp [EPc.fits, EPc.holds]
    have hP0 : Pending s := .inr (.inr (.inr (.inr (.inr hb))))
    have hnP : ¬ Pending ({ s with place := Place.ready, wakes := (some i, s.round) :: s.wakes }.set i (.did r true)) := by simp [Pending, hpc, S.set]
    refine ⟨ow, fl, by simp [S.set, EPc.fits, hpc], vi, ?_, ?_, ?_, ?_⟩
    · simp only [S.set]
      rw [List.map_cons, List.nodup_cons]
      exact ⟨fun hm => Nat.lt_irrefl _ ((rd _ hm).2 hP0), wk⟩
    · intro k hk
      refine ⟨?_, fun hP => absurd hP hnP⟩
      simp only [S.set] at hk ⊢
      rw [List.map_cons, List.mem_cons] at hk
      rcases hk with rfl | hk
      · exact Nat.le_refl _
      · exact (rd k hk).1
    · intro j hj
      have : j = i := by simp only [S.set] at hj; rw [ho] at hj; simpa using hj.symm
      subst this
      exact ⟨r, .inr ⟨true, by simp [S.set]⟩⟩
    · intro j
      by_cases hj : j = i
      · subst hj
        simp only [S.set, if_true, ThreadOK]
        exact ⟨hr, ho, fun _ => hnP, fun _ => ⟨s.round, List.mem_cons_self⟩⟩
      · have hjo := th j
        have : ThreadOK ({ s with place := Place.ready, wakes := (some i, s.round) :: s.wakes }.set i (.did r true)) j (s.u j) := by
          cases hc : s.u j with
          | idle => trivial
          | waiting r' => rw [hc] at hjo; exact hjo
          | holding r' => rw [hc] at hjo; exact hjo
          | did r' b =>
            rw [hc] at hjo
            exact ⟨hjo.1, hjo.2.1, fun _ => hnP, fun h => (hjo.2.2.2 h).imp (fun _ hk => List.mem_cons_of_mem _ hk)⟩
          | finished r' b =>
            rw [hc] at hjo
            exact ⟨hjo.1, fun _ => hnP, fun h => (hjo.2.2 h).imp (fun _ hk => List.mem_cons_of_mem _ hk)⟩
        simpa [S.set, hj] using this
  | @miss i r hi hb =>
    have hti := th i
    rw [hi] at hti
    obtain ⟨hr, ho⟩ := hti
    have hnh : s.pc.holds = false := by
      cases hh : s.pc.holds with
      | false => rfl
      | true => have := ow.mpr hh; rw [ho] at this; cases this
    have hnP : ¬ Pending s := by
      intro hP
      rcases hP with h | h | h | h | h | h
      · rw [h] at hnh; cases hnh
      · rw [h] at hnh; cases hnh
      · rw [h] at hnh; cases hnh
      · rw [h] at hnh; cases hnh
      · rw [h] at hnh; cases hnh
      · exact hb h
    refine ⟨ow, fl, pl, vi, wk, rd, ?_, ?_⟩
    · intro j hj
      have : j = i := by simp only [S.set] at hj; rw [ho] at hj; simpa using hj.symm
      subst this
      exact ⟨r, .inr ⟨false, by simp [S.set]⟩⟩
    · intro j
      by_cases hj : j = i
      · subst hj
        simp only [S.set, if_true, ThreadOK]
        exact ⟨hr, ho, fun _ => hnP, fun h => by cases h⟩
      · have hjo := th j
        simp only [S.set, if_neg hj]
        cases hc : s.u j <;> rw [hc] at hjo <;> exact hjo
  | @leave i r b hi =>
    have hti := th i
    rw [hi] at hti
    obtain ⟨hr, ho, hnp, hw⟩ := hti
    have hnh : s.pc.holds = false := by
      cases hh : s.pc.holds with
      | false => rfl
      | true => have := ow.mpr hh; rw [ho] at this; cases this
    refine ⟨by simp [S.set, hnh], fl, pl, vi, wk, rd, by simp [S.set], ?_⟩
    intro j
    by_cases hj : j = i
    · subst hj
      simp only [S.set, if_true, ThreadOK]
      exact ⟨hr, hnp, hw⟩
    · have hjo := th j
      simp only [S.set, if_neg hj]
      cases hc : s.u j with
      | idle => trivial
      | waiting r' => rw [hc] at hjo; exact hjo
      | holding r' => rw [hc] at hjo; have h2 := hjo.2; rw [ho] at h2; simp at h2; exact absurd h2.symm hj
      | did r' b' => rw [hc] at hjo; have h2 := hjo.2.1; rw [ho] at h2; simp at h2; exact absurd h2.symm hj
      | finished r' b' => rw [hc] at hjo; exact hjo

theorem inv_run {s : S} (h : Run false {} s) : Inv s := by
  generalize ha : ({} : S) = a at h
  induction h with
  | refl => rw [← ha]; exact inv_start
  | tail _ st ih => exact inv_step ih st

/-- **C144**, no call is lost: when a call of `lbm_unblock_ctx_r` that began after the process asked to be blocked for the `r`th time has returned, this block has come to
an end, however the steps of the evaluator and of all threads were interleaved. -/
theorem C144_not_lost_partial {s : S} (h : Run false {} s) {i r : Nat} {b : Bool} (hf : s.u i = .finished r b) : r < s.round ∨ (r = s.round ∧ ¬ Pending s) := by
  have := (inv_run h).threads i
  rw [hf] at this
  obtain ⟨h1, h2, _⟩ := this
  rcases Nat.lt_or_eq_of_le h1 with h | h
  · exact .inl h
  · exact .inr ⟨h, h2 h⟩

/-- **C144**, each time that the process asks to be blocked it is woken at most once, and a call that reports success has woken it. -/
theorem C144_once_partial {s : S} (h : Run false {} s) :
    (s.wakes.map Prod.snd).Nodup ∧ ∀ i r, s.u i = .finished r true → ∃ k, (some i, k) ∈ s.wakes := by
  have hi := inv_run h
  refine ⟨hi.wakes, fun i r hf => ?_⟩
  have := hi.threads i
  rw [hf] at this
  exact this.2.2 rfl

/-- **C144**, a process that did not ask for it is not blocked. -/
theorem C144_no_victim_partial {s : S} (h : Run false {} s) : s.victim = false := (inv_run h).victim

/-- **C144**, the mutex is not kept: from every state that can be reached its owner can give it back by steps of its own, while all others stand still. -/
theorem C144_released_partial {s : S} (h : Run false {} s) (ho : s.owner ≠ none) :
    ∃ s', Run false s s' ∧ s'.owner = none ∧ (∀ j, s.owner ≠ some (.thread j) → s'.u j = s.u j) ∧ (s.owner ≠ some .evaluator → s'.pc = s.pc) := by
  have hi := inv_run h
  cases hw : s.owner with
  | none => exact absurd hw ho
  | some o =>
    cases o with
    | thread i =>
      have hne : ∀ j, some (Owner.thread i) ≠ some (Owner.thread j) → j ≠ i := by rintro j hj rfl; exact hj rfl
      obtain ⟨r, hr | ⟨b, hr⟩⟩ := hi.held i hw
      · by_cases hb : s.place = .blocked
        · exact ⟨_, .tail (.tail (.refl _) (.wake hr hb)) (.leave (i := i) (r := r) (b := true) (by simp [S.set])), rfl,
            fun j hj => by simp [S.set, hne j hj], fun _ => rfl⟩
        · exact ⟨_, .tail (.tail (.refl _) (.miss hr hb)) (.leave (i := i) (r := r) (b := false) (by simp [S.set])), rfl,
            fun j hj => by simp [S.set, hne j hj], fun _ => rfl⟩
      · exact ⟨_, .tail (.refl _) (.leave hr), rfl, fun j hj => by simp [S.set, hne j hj], fun _ => rfl⟩
    | evaluator =>
      have hh := hi.owner.mp hw
      cases hpc : s.pc with
      | run => rw [hpc] at hh; cases hh
      | out => rw [hpc] at hh; cases hh
      | dead => rw [hpc] at hh; cases hh
      | locked => exact ⟨_, .tail (.tail (.tail (.refl _) (.ask hpc)) (.undo rfl)) (.undone rfl), rfl, fun _ _ => rfl, fun hn => absurd rfl hn⟩
      | asked => exact ⟨_, .tail (.tail (.tail (.refl _) (.clear hpc (hi.flag.mpr hpc))) (.block rfl)) (.unlock rfl), rfl, fun _ _ => rfl, fun hn => absurd rfl hn⟩
      | undoing => exact ⟨_, .tail (.refl _) (.undone hpc), rfl, fun _ _ => rfl, fun hn => absurd rfl hn⟩
      | atomic => exact ⟨_, .tail (.refl _) (.atomicError hpc), rfl, fun _ _ => rfl, fun hn => absurd rfl hn⟩
      | cleared => exact ⟨_, .tail (.tail (.refl _) (.block hpc)) (.unlock rfl), rfl, fun _ _ => rfl, fun hn => absurd rfl hn⟩
      | queued => exact ⟨_, .tail (.refl _) (.unlock hpc), rfl, fun _ _ => rfl, fun hn => absurd rfl hn⟩

/-- The case the mutex is for: thread 5 calls before the extension has returned, waits, and wakes the process. -/
example : ∃ s, Run false {} s ∧ s.u 5 = .finished 1 true ∧ s.place = .ready ∧ s.wakes = [(some 5, 1)] := by
  refine ⟨_, .tail (.tail (.tail (.tail (.tail (.tail (.tail (.tail (.tail (.refl _) (.lock rfl rfl)) (.ask rfl)) (.call 5 (by simp))) (.clear rfl rfl)) (.block rfl)) (.unlock rfl))
    (.enter (i := 5) (r := 1) (by simp [S.set]) rfl)) (.wake (i := 5) (r := 1) (by simp [S.set]) rfl)) (.leave (i := 5) (r := 1) (b := true) (by simp [S.set])), ?_, rfl, rfl⟩
  simp [S.set]

/-- **C144 fails** for an extension that returns an error after it asked to be blocked and does not undo this: the flag stays set and the mutex stays locked, so that a thread that wants
to unblock any process waits, and the next process that calls any extension is blocked instead. -/
theorem C144_error_violated : ∃ s t, Run true {} s ∧ s.pc = .dead ∧ s.owner = some .evaluator ∧ Run true s t ∧ t.victim = true := by
  refine ⟨_, _, .tail (.tail (.tail (.refl _) (.lock rfl rfl)) (.ask rfl)) (.error rfl rfl), rfl, rfl, .tail (.refl _) (.plain (.inr rfl)), rfl⟩

/-- The evaluator waits for the mutex that it holds itself. -/
structure Stuck (s : S) : Prop where
  pc : s.pc = .run
  owner : s.owner = some .evaluator
  place : s.place = .running
  threads : ∀ i, s.u i = .idle ∨ ∃ r, s.u i = .waiting r

theorem stuck_step {s t : S} (h : Stuck s) (st : Step true s t) : Stuck t := by
  obtain ⟨hp, ho, hl, ht⟩ := h
  cases st with
  | lock _ h2 => rw [ho] at h2; cases h2
  | ask h1 => rw [hp] at h1; cases h1
  | undo h1 => rw [hp] at h1; cases h1
  | undone h1 => rw [hp] at h1; cases h1
  | inAtomic h1 _ => rw [hp] at h1; cases h1
  | atomicError h1 => rw [hp] at h1; cases h1
  | clear h1 _ => rw [hp] at h1; cases h1
  | block h1 => rw [hp] at h1; cases h1
  | unlock h1 => rw [hp] at h1; cases h1
  | other h1 _ => rw [hp] at h1; cases h1
  | resume h1 _ => rw [hp] at h1; cases h1
  | error _ h1 => rw [hp] at h1; cases h1
  | retry _ h1 => rw [hp] at h1; cases h1
  | plain h1 => rcases h1 with h1 | h1 <;> (rw [hp] at h1; cases h1)
  | call i _ =>
    refine ⟨hp, ho, hl, fun j => ?_⟩
    by_cases hj : j = i
    · subst hj; exact .inr ⟨s.round, by simp [S.set]⟩
    · simpa [S.set, hj] using ht j
  | enter _ h2 => rw [ho] at h2; cases h2
  | @wake i r h1 _ => rcases ht i with h | ⟨_, h⟩ <;> (rw [h] at h1; cases h1)
  | @miss i r h1 _ => rcases ht i with h | ⟨_, h⟩ <;> (rw [h] at h1; cases h1)
  | @leave i r b h1 => rcases ht i with h | ⟨_, h⟩ <;> (rw [h] at h1; cases h1)

/-- **C144 fails** for an extension that returns a memory error after it asked to be blocked: it is called again, asks again, and the evaluator waits for ever for a mutex that it
holds; so does every thread that wants to unblock a process. -/
theorem C144_retry_violated : ∃ s, Run true {} s ∧ ∀ t, Run true s t → t.pc = .run ∧ t.owner = some .evaluator ∧ ∀ i r b, t.u i ≠ .finished r b := by
  refine ⟨_, .tail (.tail (.tail (.refl _) (.lock rfl rfl)) (.ask rfl)) (.retry rfl rfl), fun t ht => ?_⟩
  have hs : Stuck t := by
    induction ht with
    | refl => exact ⟨rfl, rfl, rfl, fun _ => .inl rfl⟩
    | tail _ st ih => exact stuck_step ih st
  refine ⟨hs.pc, hs.owner, fun i r b hf => ?_⟩
  rcases hs.threads i with h | ⟨_, h⟩ <;> (rw [h] at hf; cases hf)

end Verif.Sched.Blocking
