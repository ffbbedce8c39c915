import Verif.Heap.Props
import Verif.Heap.SetProps

/-!
# Property C139: what the collector reports about itself

The counters that `lbm-heap-state` (`src/extensions/runtime_extensions.c:83-121`) hands out:
`gc_num`, `gc_last_free`, `gc_least_free`, `gc_recovered_arrays` and `gc_marked`. The model has them as
natural numbers: the wrap at 2^32 of the two that only grow is left out.
-/

namespace Verif.Heap

/-- The four counters that marking leaves alone. -/
def stats (h : Heap) : Nat × Nat × Nat × Nat :=
  (h.gcNum, h.gcLastFree, h.gcLeastFree, h.gcRecoveredArrays)

theorem markRun_stats : ∀ n (m : MSt) h', markRun n m = some (.ok h') → stats h' = stats m.h := by
  intro n
  induction n with
  | zero => intro m h' h; simp [markRun] at h
  | succ n ih =>
    intro m h' h
    unfold markRun at h
    split at h
    · next m' hs =>
      rw [ih m' h' h]
      have hp : ∀ {v h2 s2}, PushRes m v h2 s2 → stats h2 = stats m.h := by
        rintro v h2 s2 (⟨rfl, _⟩ | ⟨_, rfl, _⟩) <;> rfl
      cases step_of_markStep hs with
      | descend _ _ _ _ h1 _ _ => exact hp h1
      | advance _ _ _ _ h1 _ _ _ => have := hp h1; exact this
      | finish _ _ _ _ h1 _ _ _ => have := hp h1; exact this
      | _ => rfl
    · next h2 hs =>
      simp only [Option.some.injEq, Out.ok.injEq] at h
      rw [← h, ← markStep_inr hs]
    · simp at h
    · simp at h

theorem markPhase_stats {n : Nat} {h h' : Heap} {v : Val} (e : markPhase n h v = some (.ok h')) :
    stats h' = stats h := by
  unfold markPhase at e
  split at e
  · simp at e
  · exact markRun_stats n _ h' e

theorem setMark_stats (h : Heap) (v : Val) : stats (setMark h v) = stats h := by
  unfold setMark; split <;> rfl

theorem markEnv_stats : ∀ n fuel (h h' : Heap) (v : Val), markEnv fuel n h v = some (.ok h') →
    stats h' = stats h := by
  intro n
  induction n with
  | zero => intro _ h h' v e; simp [markEnv] at e
  | succ n ih =>
    intro fuel h h' v e
    unfold markEnv at e
    split at e
    · split at e
      · simp at e
      · simp only at e
        split at e
        · split at e
          · simp at e
          · split at e
            · split at e
              · next h3 hp =>
                rw [ih _ _ _ _ e]
                show stats h3 = _
                rw [markPhase_stats hp, setMark_stats, setMark_stats]
              · next hne => exact absurd e (hne h')
            · simp at e
        · simp at e
    · simp at e; rw [e]

theorem markRoots_stats {n : Nat} : ∀ (vs : List Val) (h h' : Heap), markRoots n h vs = some (.ok h') →
    stats h' = stats h := by
  intro vs
  induction vs with
  | nil => intro h h' e; simp [markRoots] at e; rw [e]
  | cons v vs ih =>
    intro h h' e
    rw [markRoots_cons] at e
    obtain ⟨h1, e1, e2⟩ := andThen_ok e
    rw [ih h1 h' e2, markPhase_stats e1]

theorem markGlobals_stats {n : Nat} : ∀ (vs : List Val) (h h' : Heap), markGlobals n h vs = some (.ok h') →
    stats h' = stats h := by
  intro vs
  induction vs with
  | nil => intro h h' e; simp [markGlobals] at e; rw [e]
  | cons v vs ih =>
    intro h h' e
    unfold markGlobals at e
    obtain ⟨h1, e1, e2⟩ := andThen_ok e
    rw [ih h1 h' e2, markEnv_stats _ _ _ _ _ e1]

theorem markContexts_stats {n : Nat} : ∀ (cs : List CtxRoots) (h h' : Heap), markContexts n h cs = some (.ok h') →
    stats h' = stats h := by
  intro cs
  induction cs with
  | nil => intro h h' e; simp [markContexts] at e; rw [e]
  | cons c cs ih =>
    intro h h' e
    unfold markContexts at e
    obtain ⟨h1, e1, e2⟩ := andThen_ok e
    rw [ih h1 h' e2]
    unfold markContext at e1
    obtain ⟨h2, f1, e1⟩ := andThen_ok e1
    obtain ⟨h3, f2, e1⟩ := andThen_ok e1
    obtain ⟨h4, f3, e1⟩ := andThen_ok e1
    rw [markRoots_stats _ _ _ e1, markRoots_stats _ _ _ f3, markRoots_stats _ _ _ f2, markEnv_stats _ _ _ _ _ f1]

theorem markAll_stats {n : Nat} {h h' : Heap} {pre glob : List Val} {ctxs : List CtxRoots}
    (e : markAll n h pre glob ctxs = some (.ok h')) :
    stats h' = (h.gcNum + 1, h.gcLastFree, h.gcLeastFree, h.gcRecoveredArrays) := by
  unfold markAll at e
  obtain ⟨h1, f1, e⟩ := andThen_ok e
  obtain ⟨h2, f2, e⟩ := andThen_ok e
  have e1 := markRoots_stats _ _ _ f1
  rw [markContexts_stats _ _ _ e, markGlobals_stats _ _ _ f2]
  simp only [stats, Prod.mk.injEq] at e1 ⊢
  simp only [gcStart]
  exact ⟨by rw [e1.1], e1.2⟩

/-- Byte arrays and lisp arrays: what `gc_recovered_arrays` counts. -/
def Content.isArr : Content → Bool
  | .byteArr _ _ => true
  | .lispArr _ _ _ => true
  | _ => false

theorem releaseOf_isArr {c : Content} {rel : List Release} {b : Bool} (h : releaseOf c = some (rel, b)) :
    b = c.isArr := by
  cases c with
  | pair a d =>
    cases d with
    | sym s =>
      simp only [releaseOf] at h
      split at h
      · simp at h; simp [Content.isArr, h.2]
      · split at h
        · simp at h
        · simp at h; simp [Content.isArr, h.2]
    | _ => simp [releaseOf] at h; simp [Content.isArr, h.2]
  | channel ch dep =>
    cases ch with
    | none => simp [releaseOf] at h
    | some x => obtain ⟨a, b⟩ := x; simp [releaseOf] at h; simp [Content.isArr, h.2]
  | _ => simp [releaseOf] at h; simp [Content.isArr, h.2]

/-- The arrays among the cells below `n` that are not marked. -/
def deadArrays (h : Heap) (n : Nat) : Nat :=
  ((List.range n).filter (fun i => !(h.cells i).mark && (h.cells i).content.isArr)).length

theorem sweepTo_stats : ∀ n (h h' : Heap) rel, sweepTo n h = some (h', rel) →
    (∀ i, n ≤ i → h'.cells i = h.cells i) ∧
    stats h' = (h.gcNum, h.gcLastFree, h.gcLeastFree, h.gcRecoveredArrays + deadArrays h n) := by
  intro n
  induction n with
  | zero =>
    intro h h' rel e
    simp only [sweepTo, Option.some.injEq, Prod.mk.injEq] at e
    obtain ⟨rfl, rfl⟩ := e
    exact ⟨fun _ _ => rfl, rfl⟩
  | succ n ih =>
    intro h h' rel e
    simp only [sweepTo] at e
    cases hs : sweepTo n h with
    | none => rw [hs] at e; simp at e
    | some p =>
      obtain ⟨h1, r1⟩ := p
      rw [hs] at e
      simp only at e
      obtain ⟨ic, is⟩ := ih h h1 r1 hs
      have hcell := ic n (Nat.le_refl _)
      have hd : deadArrays h (n + 1) = deadArrays h n +
          (if !(h.cells n).mark && (h.cells n).content.isArr then 1 else 0) := by
        simp only [deadArrays, List.range_succ, List.filter_append, List.length_append]
        congr 1
        by_cases hb : (!(h.cells n).mark && (h.cells n).content.isArr) = true
        · simp [hb]
        · simp [hb]
      cases hw : sweepStep h1 n with
      | none => rw [hw] at e; simp at e
      | some q =>
        obtain ⟨h2, r2⟩ := q
        rw [hw] at e
        simp only [Option.some.injEq, Prod.mk.injEq] at e
        obtain ⟨rfl, _⟩ := e
        unfold sweepStep at hw
        simp only [hcell] at hw
        by_cases hm : (h.cells n).mark = true
        · rw [if_pos hm] at hw
          simp only [Option.some.injEq, Prod.mk.injEq] at hw
          obtain ⟨rfl, _⟩ := hw
          refine ⟨fun i hi => ?_, ?_⟩
          · simp only [Heap.setCell]
            rw [if_neg (by omega)]; exact ic i (by omega)
          · rw [hd]; simp only [hm, Bool.not_true, Bool.false_and]
            exact is
        · rw [if_neg hm] at hw
          cases hr : releaseOf (h.cells n).content with
          | none => rw [hr] at hw; simp at hw
          | some q =>
            obtain ⟨r3, b⟩ := q
            rw [hr] at hw
            simp only [Option.some.injEq, Prod.mk.injEq] at hw
            obtain ⟨rfl, _⟩ := hw
            have hb := releaseOf_isArr hr
            refine ⟨fun i hi => ?_, ?_⟩
            · simp only [Heap.setCell]
              rw [if_neg (by omega)]; exact ic i (by omega)
            · rw [hd, ← hb]
              simp only [stats, Prod.mk.injEq] at is
              have hm' : (h.cells n).mark = false := by simpa using hm
              simp only [stats, Heap.setCell, hm', Bool.not_false, Bool.true_and]
              obtain ⟨i1, i2, i3, i4⟩ := is
              rw [i1, i2, i3, i4, Nat.add_assoc]

theorem gc_stats {h h' : Heap} {n : Nat} {pre glob : List Val} {ctxs : List CtxRoots} {rel : List Release}
    (hgc : gc n h pre glob ctxs = some (.ok (h', rel))) :
    h'.gcNum = h.gcNum + 1 ∧ h'.gcLastFree = numFree h' ∧ h'.gcLeastFree = min h.gcLeastFree (numFree h') ∧
    ∃ hm, markAll n h pre glob ctxs = some (.ok hm) ∧ h'.gcRecoveredArrays = h.gcRecoveredArrays + deadArrays hm hm.size := by
  rw [gc_eq] at hgc
  cases hma : markAll n h pre glob ctxs with
  | none => rw [hma] at hgc; simp at hgc
  | some o =>
    rw [hma] at hgc
    cases o with
    | ub => simp at hgc
    | critical => simp at hgc
    | ok hm =>
      simp only at hgc
      cases hs : sweep hm with
      | none => rw [hs] at hgc; simp at hgc
      | some p =>
        obtain ⟨h1, r⟩ := p
        rw [hs] at hgc
        simp only [Option.some.injEq, Out.ok.injEq, Prod.mk.injEq] at hgc
        obtain ⟨rfl, _⟩ := hgc
        have e1 := markAll_stats hma
        have e2 := (sweepTo_stats _ _ _ _ hs).2
        simp only [stats, Prod.mk.injEq] at e1 e2
        refine ⟨?_, rfl, ?_, hm, rfl, ?_⟩
        · show h1.gcNum = _
          rw [e2.1, e1.1]
        · show (if h1.size - h1.numAlloc < h1.gcLeastFree then h1.size - h1.numAlloc else h1.gcLeastFree) =
            min h.gcLeastFree (h1.size - h1.numAlloc)
          rw [e2.2.2.1, e1.2.2.1]
          split <;> omega
        · show h1.gcRecoveredArrays = _
          rw [e2.2.2.2, e1.2.2.2]

open Classical in
/-- **C139 (one collection).**  A collection counts itself; it reports as the last free count exactly the number
of cells that are not reachable, as the least free count the smaller of this and the one before,
and it adds the number of unreachable arrays to the recovered ones. -/
theorem C139_collection {h h' : Heap} {n : Nat} {pre glob : List Val} {ctxs : List CtxRoots} {rel : List Release}
    (hw : WF h) (hcap : 0 < h.gcCap) (ho : RootsOK h pre glob ctxs)
    (hplain : ∀ i < h.size, ¬ Reachable h (rootsOf h pre glob ctxs) i → PlainContent (h.cells i).content)
    (hgc : gc n h pre glob ctxs = some (.ok (h', rel))) (hd : h'.dropped = false) :
    h'.gcNum = h.gcNum + 1 ∧
    h'.gcLastFree = ((List.range h.size).filter (fun i => ¬ Reachable h (rootsOf h pre glob ctxs) i)).length ∧
    h'.gcLeastFree = min h.gcLeastFree h'.gcLastFree ∧
    h'.gcRecoveredArrays = h.gcRecoveredArrays +
      ((List.range h.size).filter
        (fun i => ¬ Reachable h (rootsOf h pre glob ctxs) i ∧ (h.cells i).content.isArr = true)).length := by
  obtain ⟨s1, s2, s3, hm, s4, s5⟩ := gc_stats hgc
  obtain ⟨hm', h1, e0, e1, e2, e3, e4, e5, e6, e7, e8, inv, rfl⟩ := gc_ok hw hcap ho hplain hgc hd
  rw [s4] at e0
  simp only [Option.some.injEq, Out.ok.injEq] at e0
  subst e0
  refine ⟨s1, ?_, by rw [s3, s2], ?_⟩
  · rw [s2, freeOK_len (freeOK_gc inv), e1]
    have key : ∀ k, (unmarkedTo hm k).length =
        ((List.range k).filter (fun i => ¬ Reachable h (rootsOf h pre glob ctxs) i)).length := by
      intro k
      induction k with
      | zero => rfl
      | succ k ih =>
        simp only [unmarkedTo, List.range_succ, List.filter_append, List.length_append]
        by_cases hk : (hm.cells k).mark = true
        · rw [if_pos hk, ih]
          simp [(e6 k).1 hk]
        · rw [if_neg hk, List.length_cons, ih]
          have := mt (e6 k).2 hk
          simp [this]
    exact key h.size
  · rw [s5, e1, deadArrays]
    congr 2
    apply List.filter_congr
    intro i _
    rw [e3]
    by_cases hk : (hm.cells i).mark = true
    · simp [hk, (e6 i).1 hk]
    · have := mt (e6 i).2 hk
      simp [this, hk]

/-- The collection of `demo` meets the hypotheses: it is counted. -/
example : ∃ n h' rel, gc n demo demoPre demoGlob demoCtx = some (.ok (h', rel)) ∧ h'.gcNum = demo.gcNum + 1 := by
  obtain ⟨n0, h', rel, hgc, _⟩ := C07_gc_preserves demo_wf (by decide) demo_roots demo_fits rfl
    (fun i hi _ => demo_plain i hi)
  have hgc0 := hgc n0 (Nat.le_refl _)
  exact ⟨n0, h', rel, hgc0, (C139_collection demo_wf (by decide) demo_roots (fun i hi _ => demo_plain i hi) hgc0
    (gc_nodrop (b := true) demo_wf (by decide) demo_roots (Or.inl demo_fits) rfl hgc0)).1⟩

/-- Histories of the heap with the number of free cells after each collection. -/
inductive Logged (n cap : Nat) : Heap → List Nat → Prop
  | init : Logged n cap (init n cap) []
  | alloc {h : Heap} {fs : List Nat} (t : PTy) (c : Content) : Logged n cap h fs →
      Logged n cap (allocateCell h t c).1 fs
  | allocList {h h' : Heap} {fs : List Nat} {vs : List Val} {v : Val} : Logged n cap h fs →
      allocateListInit h vs = some (h', v) → Logged n cap h' fs
  | write {h : Heap} {fs : List Nat} (o : SetOp) : Logged n cap h fs → Logged n cap (setOp h o).1 fs
  | gc {h h' : Heap} {fs : List Nat} {fuel : Nat} {pre glob : List Val} {ctxs : List CtxRoots} {rel : List Release} :
      Logged n cap h fs → gc fuel h pre glob ctxs = some (.ok (h', rel)) → Logged n cap h' (fs ++ [numFree h'])

theorem fillLoop_stats : ∀ (vs : List Val) (h : Heap) (c : Val) (k : Nat) (h' : Heap) (c' : Val) (k' : Nat),
    fillLoop h c k vs = some (h', c', k') → stats h' = stats h := by
  intro vs
  induction vs with
  | nil => intro h c k h' c' k' e; simp [fillLoop] at e; rw [e.1]
  | cons v vs ih =>
    intro h c k h' c' k' e
    simp only [fillLoop] at e
    split at e
    · rw [ih _ _ _ _ _ _ e]; rfl
    · simp at e

theorem allocateListInit_stats {h h' : Heap} {vs : List Val} {v : Val} (e : allocateListInit h vs = some (h', v)) :
    stats h' = stats h := by
  unfold allocateListInit at e
  split at e
  · simp at e; rw [e.1]
  · split at e
    · simp at e; rw [e.1]
    · split at e
      · split at e
        · simp at e
        · next h1 rest last hf =>
          split at e
          · simp only [Option.some.injEq, Prod.mk.injEq] at e
            rw [← e.1]
            show stats h1 = _
            exact fillLoop_stats _ _ _ _ _ _ _ hf
          · simp at e
      · simp at e; rw [e.1]

theorem allocateCell_stats (h : Heap) (t : PTy) (c : Content) : stats (allocateCell h t c).1 = stats h := by
  unfold allocateCell; split <;> rfl

theorem setOp_stats (h : Heap) (o : SetOp) : stats (setOp h o).1 = stats h := by
  cases o <;> simp only [setOp, setCar, setCdr, setCarAndCdr] <;> (repeat' split) <;> rfl

/-- **C139 (history).**  After any history of allocations, writes and collections the number of collections
is right, the last free count is the number of free cells right after the last collection (the size of the
heap before the first), and the least free count is the smallest of all these and of the size of
the heap. -/
theorem C139_history {n cap : Nat} {h : Heap} {fs : List Nat} (hh : Logged n cap h fs) :
    h.gcNum = fs.length ∧ h.gcLastFree = fs.getLastD n ∧
    h.gcLeastFree ∈ n :: fs ∧ ∀ f ∈ n :: fs, h.gcLeastFree ≤ f := by
  have carry : ∀ {h h' : Heap} {fs : List Nat}, stats h' = stats h →
      (h.gcNum = fs.length ∧ h.gcLastFree = fs.getLastD n ∧
        h.gcLeastFree ∈ n :: fs ∧ ∀ f ∈ n :: fs, h.gcLeastFree ≤ f) →
      (h'.gcNum = fs.length ∧ h'.gcLastFree = fs.getLastD n ∧
        h'.gcLeastFree ∈ n :: fs ∧ ∀ f ∈ n :: fs, h'.gcLeastFree ≤ f) := by
    intro h h' fs e i
    simp only [stats, Prod.mk.injEq] at e
    rw [e.1, e.2.1, e.2.2.1]; exact i
  induction hh with
  | init => simp [init]
  | alloc t c _ ih => exact carry (allocateCell_stats _ _ _) ih
  | allocList _ e ih => exact carry (allocateListInit_stats e) ih
  | write o _ ih => exact carry (setOp_stats _ _) ih
  | @gc h h' fs fuel pre glob ctxs rel _ e ih =>
    obtain ⟨s1, s2, s3, _⟩ := gc_stats e
    obtain ⟨i1, i2, i3, i4⟩ := ih
    refine ⟨by rw [s1, i1]; simp, by rw [s2]; simp, ?_, ?_⟩
    · rw [s3]
      rcases Nat.le_total h.gcLeastFree (numFree h') with hl | hl
      · rw [Nat.min_eq_left hl]
        simp only [List.mem_cons, List.mem_append] at i3 ⊢
        rcases i3 with i3 | i3
        · exact .inl i3
        · exact .inr (.inl i3)
      · rw [Nat.min_eq_right hl]; simp
    · intro f hf
      rw [s3]
      simp only [List.mem_cons, List.mem_append, List.not_mem_nil, or_false] at hf
      rcases hf with hf | hf | hf
      · have := i4 f (by simp [hf]); omega
      · have := i4 f (by simp [hf]); omega
      · omega

/-- An allocation and two collections: first the pair is a root, then it is not. -/
example : ∃ h, Logged 3 20 h [2, 3] ∧ h.gcNum = 2 ∧ h.gcLastFree = 3 ∧ h.gcLeastFree = 2 := by
  have l1 : Logged 3 20 (allocateCell (init 3 20) .cons (.pair (.imm 8 1) nil)).1 [] := .alloc _ _ .init
  have e1 : (match gc 20 hist1 [.ptr .cons false 0] [] [] with
      | some (.ok (h1, _)) => (match gc 20 h1 [] [] [] with
        | some (.ok (h2, _)) => decide (numFree h1 = 2 ∧ numFree h2 = 3)
        | _ => false)
      | _ => false) = true := by decide +kernel
  split at e1
  · next h1 r1 g1 =>
    split at e1
    · next h2 r2 g2 =>
      have e := of_decide_eq_true e1
      have l3 := Logged.gc (Logged.gc l1 g1) g2
      rw [e.1, e.2] at l3
      have hc := C139_history l3
      refine ⟨h2, l3, hc.1, hc.2.1, ?_⟩
      have h1' := hc.2.2.1
      have h2' := hc.2.2.2 2 (by simp)
      simp at h1'
      omega
    · cases e1
  · cases e1

/-- **C139 fails** for the number of marked cells: the values that an allocation protects are marked
before the counter is set to zero, so a collection that keeps a pair reports that it marked none. -/
theorem C139_marked_violated : ∃ h' rel, gc 20 hist1 [.ptr .cons false 0] [] [] = some (.ok (h', rel)) ∧
    (h'.cells 0).content = .pair (.imm 8 1) nil ∧ numFree h' = 2 ∧ h'.gcMarked = 0 := by
  have hv : (match gc 20 hist1 [.ptr .cons false 0] [] [] with
      | some (.ok (h', _)) => decide ((h'.cells 0).content = .pair (.imm 8 1) nil ∧ numFree h' = 2 ∧ h'.gcMarked = 0)
      | _ => false) = true := by decide +kernel
  split at hv
  · next h' rel hg => exact ⟨h', rel, hg, of_decide_eq_true hv⟩
  · cases hv

end Verif.Heap
