import Verif.Heap.Mark2

/- When the GC stack is large enough, no push fails. -/

namespace Verif.Heap

theorem weight_le_work {h0 h : Heap} (hs : Same h0 h) : ∀ n, weightTo h.cells n ≤ workTo h0 n := by
  intro n
  induction n with
  | zero => exact Nat.le_refl _
  | succ n ih =>
    simp only [weightTo, workTo, cellWeight]
    rw [hs.content]
    cases (h0.cells n).content <;> simp only <;> split <;> omega

theorem weight_pos {cells : Nat → Cell} : ∀ n i, i < n → (cells i).mark = false → 1 ≤ weightTo cells n := by
  intro n
  induction n with
  | zero => intro i hi; omega
  | succ n ih =>
    intro i hi hm
    simp only [weightTo]
    rcases Nat.lt_or_eq_of_le (Nat.lt_succ_iff.mp hi) with h | rfl
    · have := ih i h hm; omega
    · simp only [cellWeight, hm, Bool.false_eq_true, if_false]; split <;> omega

/-- Room that a step may still need. -/
def slack (rank : Nat → Nat) (K : Nat) (m : MSt) (b : Nat) : Prop :=
  match m.ctl with
  | none => b ≤ 1
  | some v =>
    match liveRank rank m.h v with
    | none => b ≤ 1
    | some r => b + r ≤ K

/-- The stack length is paid for by work done. -/
def LenInv (rank : Nat → Nat) (K C : Nat) (m : MSt) : Prop :=
  ∃ b : Nat, m.stack.length + (K + 1) * weightTo m.h.cells m.h.size ≤ C + b ∧ slack rank K m b

/-- Ranks of live arrays are bounded. -/
structure Ranks (h0 : Heap) (rank : Nat → Nat) (K : Nat) : Prop where
  lt : ∀ i < h0.size, ∀ hd da es, (h0.cells i).content = .lispArr hd da es → rank i < K
  dec : ∀ i < h0.size, ∀ hd da es j, (h0.cells i).content = .lispArr hd da es →
      Val.ptr .lispArray false j ∈ es → rank j < rank i

theorem slack_of {h0 : Heap} {rank : Nat → Nat} {K : Nat} (hr : Ranks h0 rank K) {m : MSt}
    (hok : ∀ v, m.ctl = some v → OkRef h0 v) : slack rank K m 0 := by
  unfold slack
  split
  · omega
  · next v hv =>
    split
    · omega
    · next r hl =>
      have := hok v hv
      unfold liveRank at hl
      split at hl
      · next t i =>
        split at hl
        · cases hl
        · simp only [Option.some.injEq] at hl
          split at hl
          · next ht =>
            subst ht
            obtain ⟨hi, hd, da, es, hc⟩ := this
            have := hr.lt i hi _ _ _ hc
            omega
          · omega
      · cases hl

theorem step_len {h0 : Heap} {R : Nat → Prop} {rank : Nat → Nat} {K C : Nat} (hr : Ranks h0 rank K)
    {m m' : MSt} (safe : MSafe h0 R m) (safe' : MSafe h0 R m') (hs : Step m m')
    (inv : LenInv rank K C m) (hcap : C ≤ m.h.gcCap) :
    LenInv rank K C m' ∧ (m.h.dropped = false → m'.h.dropped = false) := by
  have hok : ∀ v, m'.ctl = some v → OkRef h0 v := by
    intro v hv; exact (safe'.pend v (by simp [MSt.pending, hv])).1
  have hzero := slack_of hr hok
  -- enough that the step does one unit of work and pushes at most one word
  have key : ∀ r, (∃ v, m.ctl = some v ∧ liveRank rank m.h v = some r) →
      weightTo m'.h.cells m'.h.size < weightTo m.h.cells m.h.size →
      m'.stack.length ≤ m.stack.length + 1 → LenInv rank K C m' := by
    rintro r ⟨v, hv, hl⟩ hlt hlen
    obtain ⟨b, h1, h2⟩ := inv
    refine ⟨0, ?_, hzero⟩
    have := Nat.mul_le_mul_left (K + 1) (Nat.succ_le_of_lt hlt)
    simp only [slack, hv, hl] at h2
    rw [Nat.mul_succ] at this
    omega
  have room : ∀ v r i, m.ctl = some v → liveRank rank m.h v = some r → i < m.h.size →
      (m.h.cells i).mark = false → m.stack.length < m.h.gcCap := by
    intro v r i hv hl hi hm
    obtain ⟨b, h1, h2⟩ := inv
    simp only [slack, hv, hl] at h2
    have := Nat.mul_le_mul_left (K + 1) (weight_pos (cells := m.h.cells) _ i hi hm)
    omega
  have hmark : ∀ i, i < m.h.size → (m.h.cells i).mark = false →
      weightTo (markCell m.h i).cells m.h.size < weightTo m.h.cells m.h.size := by
    intro i hi hm
    refine weightTo_lt _ ?_ i hi ?_
    · intro j _
      rw [markCell_cells]
      split
      · next h => subst h; simp [cellWeight]
      · exact Nat.le_refl _
    · rw [markCell_cells]; simp only [if_true, cellWeight, hm]
      simp only [Bool.false_eq_true, if_false]
      split <;> omega
  obtain ⟨same, mono, sound, pend, arr⟩ := safe
  have live : ∀ t i, m.ctl = some (.ptr t false i) → (m.h.cells i).mark = false →
      ∃ r, ∃ v, m.ctl = some v ∧ liveRank rank m.h v = some r := by
    intro t i hctl hm
    exact ⟨_, _, hctl, by simp only [liveRank, hm, Bool.false_eq_true, if_false]; rfl⟩
  have pushOk : ∀ i h' s', m.ctl = some (.ptr .lispArray false i) → i < m.h.size →
      (m.h.cells i).mark = false → PushRes m (.ptr .lispArray false i) h' s' →
      h' = m.h ∧ s' = .ptr .lispArray false i :: m.stack := by
    intro i h' s' hctl hi hm hp
    obtain ⟨r, v, hv, hl⟩ := live _ _ hctl hm
    have := room v r i hv hl hi hm
    rcases hp with h | ⟨h, _⟩
    · exact h
    · omega
  cases hs with
  | @pop curr s hctl hst =>
    refine ⟨?_, id⟩
    obtain ⟨b, h1, h2⟩ := inv
    simp only [slack, hctl] at h2
    refine ⟨0, ?_, hzero⟩
    simp only [hst, List.length_cons] at h1
    show s.length + (K + 1) * weightTo m.h.cells m.h.size ≤ _
    omega
  | @skip curr hctl hsk =>
    refine ⟨?_, id⟩
    obtain ⟨b, h1, h2⟩ := inv
    have : liveRank rank m.h curr = none := by
      unfold liveRank
      split
      · next t i => simp [hsk t i rfl]
      · rfl
    simp only [slack, hctl, this] at h2
    exact ⟨b, h1, h2⟩
  | leaf hctl hi hm _ =>
    obtain ⟨r, hv⟩ := live _ _ hctl hm
    exact ⟨key r hv (hmark _ hi hm) (by simp), id⟩
  | chan hctl hi hm _ =>
    obtain ⟨r, hv⟩ := live _ _ hctl hm
    exact ⟨key r hv (hmark _ hi hm) (by simp), id⟩
  | consPush hctl hi hm _ _ =>
    obtain ⟨r, hv⟩ := live _ _ hctl hm
    exact ⟨key r hv (hmark _ hi hm) (by simp), id⟩
  | consNo hctl hi hm _ _ =>
    obtain ⟨r, hv⟩ := live _ _ hctl hm
    exact ⟨key r hv (hmark _ hi hm) (by simp), id⟩
  | @descend i hd da es t j h' s' hctl hi hm hc hp he hj =>
    obtain ⟨rfl, rfl⟩ := pushOk _ _ _ hctl hi hm hp
    refine ⟨?_, id⟩
    obtain ⟨b, h1, h2⟩ := inv
    simp only [slack, hctl, liveRank, hm, Bool.false_eq_true, if_false, if_true] at h2
    refine ⟨b + 1, by simp only [List.length_cons]; omega, ?_⟩
    simp only [slack, liveRank, hj, Bool.false_eq_true, if_false]
    split
    · next ht =>
      subst ht
      rw [same.content] at hc
      have := hr.dec i (by rw [← same.size]; exact hi) _ _ _ j hc (List.mem_of_getElem? he)
      omega
    · omega
  | @advance i hd da es e h' s' hctl hi hm hc hp he hall hlt =>
    obtain ⟨rfl, rfl⟩ := pushOk _ _ _ hctl hi hm hp
    obtain ⟨r, hv⟩ := live _ _ hctl hm
    refine ⟨key r hv ?_ (by simp), id⟩
    simp only [setCell_size]
    refine weightTo_lt _ ?_ i hi ?_
    · intro k _
      simp only [setCell_cells]
      split
      · next h => subst h; simp only [cellWeight, hm, hc]; simp; omega
      · exact Nat.le_refl _
    · simp only [setCell_cells, if_true, cellWeight, hm, hc]; simp; omega
  | @finish i hd da es e h' x s' hctl hi hm hc hp he hall hlt =>
    obtain ⟨rfl, hx⟩ := pushOk _ _ _ hctl hi hm hp
    obtain ⟨r, hv⟩ := live _ _ hctl hm
    cases hx
    refine ⟨key r hv ?_ (by simp), id⟩
    simp only [setCell_size]
    refine weightTo_lt _ ?_ i hi ?_
    · intro k _
      simp only [setCell_cells]
      split
      · simp [cellWeight]
      · exact Nat.le_refl _
    · simp only [setCell_cells, if_true, cellWeight, hm, hc]; simp; omega

theorem markStep_critical {m : MSt} (h : markStep m = .critical) :
    m.h.gcCap ≤ m.stack.length ∧ ∃ i, m.ctl = some (.ptr .cons false i) ∧ i < m.h.size ∧
      (m.h.cells i).mark = false := by
  unfold markStep markArray push at h
  cases hc : m.ctl with
  | none => rw [hc] at h; simp only at h; split at h <;> simp at h
  | some v =>
    rw [hc] at h
    simp only at h
    (repeat' split at h) <;> simp_all

theorem markRun_fits {h0 : Heap} {R : Nat → Prop} {rank : Nat → Nat} {K C : Nat} (hw : Typed h0)
    (hR : RClosed h0 R) (hr : Ranks h0 rank K) (hcap : C ≤ h0.gcCap) :
    ∀ n (m : MSt), MSafe h0 R m → LenInv rank K C m → m.h.dropped = false →
    markRun n m ≠ some .critical ∧ ∀ h', markRun n m = some (.ok h') → h'.dropped = false := by
  intro n
  induction n with
  | zero => intro m _ _ _; simp [markRun]
  | succ n ih =>
    intro m safe inv hd
    unfold markRun
    split
    · next m' hs =>
      have st := step_of_markStep hs
      have safe' := step_safe hw hR safe st
      obtain ⟨i1, i2⟩ := step_len hr safe safe' st inv (by rw [safe.same.gcCap]; exact hcap)
      exact ih m' safe' i1 (i2 hd)
    · next h hs =>
      refine ⟨by simp, ?_⟩
      intro h' he
      simp only [Option.some.injEq, Out.ok.injEq] at he
      subst he
      rw [← markStep_inr hs]; exact hd
    · next hs =>
      exfalso
      obtain ⟨hfull, i, hctl, hi, hm⟩ := markStep_critical hs
      obtain ⟨b, h1, h2⟩ := inv
      simp only [slack, hctl, liveRank, hm, Bool.false_eq_true, if_false] at h2
      have := Nat.mul_le_mul_left (K + 1) (weight_pos (cells := m.h.cells) _ i hi hm)
      have := safe.same.gcCap
      simp at h2
      omega
    · simp

/-- Without lisp arrays no push goes unchecked. -/
theorem markRun_noArrays {h0 : Heap} {R : Nat → Prop} (hw : Typed h0)
    (hR : RClosed h0 R) (hn : NoArrays h0) :
    ∀ n (m : MSt), MSafe h0 R m → m.h.dropped = false →
    ∀ h', markRun n m = some (.ok h') → h'.dropped = false := by
  intro n
  induction n with
  | zero => intro m _ _; simp [markRun]
  | succ n ih =>
    intro m safe hd h' hh
    unfold markRun at hh
    split at hh
    · next m' hs =>
      have st := step_of_markStep hs
      refine ih m' (step_safe hw hR safe st) ?_ h' hh
      have no : ∀ i, i < m.h.size → ∀ hd da es, (m.h.cells i).content ≠ .lispArr hd da es := by
        intro i hi; rw [safe.same.content]; exact hn i (by rw [← safe.same.size]; exact hi)
      cases st with
      | descend _ hi _ hc _ _ _ => exact absurd hc (no _ hi _ _ _)
      | advance _ hi _ hc _ _ _ => exact absurd hc (no _ hi _ _ _)
      | finish _ hi _ hc _ _ _ => exact absurd hc (no _ hi _ _ _)
      | _ => simpa [markCell] using hd
    · next h hs =>
      simp only [Option.some.injEq, Out.ok.injEq] at hh
      subst hh
      rw [← markStep_inr hs]; exact hd
    · simp at hh
    · simp at hh

end Verif.Heap
