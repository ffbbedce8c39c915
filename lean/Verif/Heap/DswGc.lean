import Verif.Heap.Dsw
import Verif.Heap.Alloc

/- The whole collection in a build with the pointer reversal marker: `Verif.Heap.Model.gc` with `dswPhase` for `markPhase`. -/

namespace Verif.Heap

/-- `lbm_gc_mark_env`, `src/heap.c:848-861`, as `markEnv`. -/
def markEnvRev (null : Nat) : Nat → Nat → Heap → Val → Option (Out Heap)
  | _, 0, _, _ => none
  | fuel, n + 1, h, curr =>
    if curr.isPtr then
      if badRef h curr then some .ub
      else
        let h1 := setMark h curr
        match contentOf h1 curr with
        | some (.pair b rest) =>
          if badRef h1 b then some .ub
          else
            let h2 := setMark h1 b
            match contentOf h2 b with
            | some (.pair _ v) =>
              match dswPhase null fuel h2 v with
              | some (.ok h3) => markEnvRev null fuel n { h3 with gcMarked := h3.gcMarked + 2 } rest
              | r => r
            | _ => some .ub
        | _ => some .ub
    else some (.ok h)

/-- `lbm_gc_mark_roots`, `src/heap.c:878-882`, as `markRoots`. -/
def markRootsRev (null fuel : Nat) : Heap → List Val → Option (Out Heap)
  | h, [] => some (.ok h)
  | h, v :: vs => andThen (dswPhase null fuel h v) fun h => markRootsRev null fuel h vs

/-- `mark_context`, `src/eval_cps.c:1598-1606`, as `markContext`, with `lbm_gc_mark_aux`, `src/heap.c:864-876`, on the stack. -/
def markContextRev (null fuel : Nat) (h : Heap) (c : CtxRoots) : Option (Out Heap) :=
  andThen (markEnvRev null fuel fuel h c.env) fun h =>
  andThen (markRootsRev null fuel h [c.exp, c.program, c.r]) fun h =>
  andThen (markRootsRev null fuel h c.mailbox) fun h =>
  markRootsRev null fuel h (c.stack.filter (auxOk h))

/-- `queue_iterator_nm` over the contexts, `src/eval_cps.c:1626-1631`. -/
def markContextsRev (null fuel : Nat) : Heap → List CtxRoots → Option (Out Heap)
  | h, [] => some (.ok h)
  | h, c :: cs => andThen (markContextRev null fuel h c) fun h => markContextsRev null fuel h cs

/-- The loop over the global environment, `src/eval_cps.c:1618-1621`. -/
def markGlobalsRev (null fuel : Nat) : Heap → List Val → Option (Out Heap)
  | h, [] => some (.ok h)
  | h, v :: vs => andThen (markEnvRev null fuel fuel h v) fun h => markGlobalsRev null fuel h vs

/-- `gc`, `src/eval_cps.c:1608-1636`, as `Verif.Heap.gc`, in a build with `USE_GC_PTR_REV`. -/
def gcRev (null fuel : Nat) (h : Heap) (pre glob : List Val) (ctxs : List CtxRoots) : Option (Out (Heap × List Release)) :=
  let r := andThen (markRootsRev null fuel h pre) fun h =>
    let h1 := { h with gcNum := h.gcNum + 1, gcRecovered := 0, gcMarked := 0 }
    let h2 := { h1 with freelist := nil, numAlloc := h1.size }
    andThen (markGlobalsRev null fuel h2 glob) fun h => markContextsRev null fuel h ctxs
  match r with
  | none => none
  | some .critical => some .critical
  | some .ub => some .ub
  | some (.ok h) =>
    match sweep h with
    | none => some .ub
    | some (h1, rel) => some (.ok (newFreelistLength h1, rel))

/-! ### Proof -/

/-- The dependency of an open channel is not in the heap. -/
def NoChanRefs (h : Heap) : Prop := ∀ i < h.size, ∀ c dep, (h.cells i).content = .channel (some c) dep → ∀ t j, dep ≠ .ptr t false j

/-- State between mark phases. -/
structure RInv (h0 : Heap) (R P : Nat → Prop) (h : Heap) : Prop where
  same : Same h0 h
  index : ∀ i, (h.cells i).index = (h0.cells i).index
  recov : h.gcRecovered = h0.gcRecovered
  sound : ∀ i, (h.cells i).mark = true → R i
  comp : ∀ i < h0.size, (h.cells i).mark = true → ∀ t j, Val.ptr t false j ∈ (h0.cells i).content.refs → (h.cells j).mark = true ∨ P j

theorem refsD_refs {h0 : Heap} (hch : NoChanRefs h0) {i : Nat} (hi : i < h0.size) {t : PTy} {j : Nat} (hj : Val.ptr t false j ∈ (h0.cells i).content.refs) :
    Val.ptr t false j ∈ (h0.cells i).content.refsD := by
  have hn := hch i hi
  generalize (h0.cells i).content = c at hj hn
  cases c with
  | channel ch dep =>
    cases ch with
    | none => cases hj
    | some x =>
      simp only [Content.refs, List.mem_cons, List.not_mem_nil, or_false] at hj
      exact absurd hj.symm (hn x dep rfl t j)
  | pair a d => exact hj
  | lispArr _ _ es => exact hj
  | _ => cases hj

theorem refs_refsD {c : Content} {v : Val} (hv : v ∈ c.refsD) : v ∈ c.refs := by
  cases c with
  | pair a d => exact hv
  | lispArr _ _ es => exact hv
  | _ => cases hv

theorem rev_phase {null : Nat} {h0 h : Heap} {R P : Nat → Prop} {root : Val} (hw : DTyped h0) (hch : NoChanRefs h0) (hnull : h0.size ≤ null) (hR : RClosed h0 R)
    (hok : OkRef h0 root) (hRr : ∀ j, PointsTo root j → R j) (g : RInv h0 R (fun j => P j ∨ PointsTo root j) h) :
    ∃ n0 h', (∀ n, n0 ≤ n → dswPhase null n h root = some (.ok h')) ∧ RInv h0 R P h' ∧ (∀ i, (h.cells i).mark = true → (h'.cells i).mark = true) ∧
      Reached h' root := by
  by_cases hp : root.isPtr = true
  · obtain ⟨h', f', ⟨k, hk⟩, p⟩ := dsw_good hw hnull (unmarked h + 1) h (fun _ => false) root (nullPtr null) [] (Nat.lt_succ_self _)
      ⟨g.same.size, fun i _ => g.same.content i, fun _ _ => rfl⟩ hok
    have hroot := p.reached root List.mem_cons_self
    refine ⟨k + 1, h', fun n hn => ?_, ⟨?_, fun i => ?_, ?_, fun i hi => ?_, fun i hi hm t j hj => ?_⟩, p.mono, hroot⟩
    · obtain ⟨m, rfl⟩ : ∃ m, n = (m + 1) + k := ⟨n - 1 - k, by omega⟩
      unfold dswPhase
      rw [if_pos hp, hk]
      simp only [dswRun, dswStep, dswRet, nullPtr, if_true]
    · refine g.same.trans ⟨?_, fun i => ?_, ?_, ?_, ?_, ?_, p.bound⟩
      · rw [p.eq]
      · rw [p.cell i]
      · rw [p.eq]
      · rw [p.eq]
      · rw [p.eq]
      · rw [p.eq]
    · rw [p.cell i]; exact g.index i
    · rw [p.eq]; exact g.recov
    · by_cases hx : (h.cells i).mark = true
      · exact g.sound i hx
      · refine p.path R (fun v hv t j e _ => ?_) (fun j hj v hv t l e _ => ?_) i (by simpa using hx) hi
        · simp only [List.mem_cons, List.not_mem_nil, or_false] at hv
          subst hv
          exact hRr j ⟨t, e⟩
        · subst e
          exact hR j hj t l (refs_refsD hv)
    · by_cases hx : (h.cells i).mark = true
      · rcases g.comp i hi hx t j hj with h1 | h1 | ⟨t', h1⟩
        · exact .inl (p.mono j h1)
        · exact .inr h1
        · exact .inl (hroot t' j h1)
      · exact .inl (p.closed i (by simpa using hx) hm _ (refsD_refs hch hi hj) t j rfl)
  · have hp' : root.isPtr = false := by simpa using hp
    refine ⟨0, h, fun n _ => ?_, ⟨g.same, g.index, g.recov, g.sound, fun i hi hm t j hj => ?_⟩, fun _ h => h, fun t j e => ?_⟩
    · unfold dswPhase
      rw [if_neg hp]
    · rcases g.comp i hi hm t j hj with h1 | h1 | h1
      · exact .inl h1
      · exact .inr h1
      · exact absurd h1 (not_points hp' j)
    · exact absurd ⟨t, e⟩ (not_points hp' j)

/-- A collector function that marks the values `V` (and what they reach). -/
def RMarks (h0 : Heap) (R : Nat → Prop) (F : Nat → Heap → Option (Out Heap)) (V : Val → Prop) : Prop :=
  ∀ h, RInv h0 R none' h → ∃ n0 h', (∀ n, n0 ≤ n → F n h = some (.ok h')) ∧ RInv h0 R none' h' ∧ (∀ i, (h.cells i).mark = true → (h'.cells i).mark = true) ∧
    ∀ v, V v → Reached h' v

theorem RMarks.pure {h0 : Heap} {R : Nat → Prop} : RMarks h0 R (fun _ h => some (.ok h)) (fun _ => False) :=
  fun h g => ⟨0, h, fun _ _ => rfl, g, fun _ h => h, fun _ h => h.elim⟩

theorem RMarks.weaken {h0 : Heap} {R : Nat → Prop} {F : Nat → Heap → Option (Out Heap)} {V W : Val → Prop} (hF : RMarks h0 R F V) (hVW : ∀ v, W v → V v) :
    RMarks h0 R F W := fun h g => by
  obtain ⟨n0, h', h1, h2, h3, h4⟩ := hF h g
  exact ⟨n0, h', h1, h2, h3, fun v hv => h4 v (hVW v hv)⟩

theorem RMarks.seq {h0 : Heap} {R : Nat → Prop} {F G : Nat → Heap → Option (Out Heap)} {V W : Val → Prop} (hF : RMarks h0 R F V) (hG : RMarks h0 R G W) :
    RMarks h0 R (fun n h => andThen (F n h) (G n)) (fun v => V v ∨ W v) := fun h g => by
  obtain ⟨n1, h1, a1, a2, a3, a4⟩ := hF h g
  obtain ⟨n2, h2, b1, b2, b3, b4⟩ := hG h1 a2
  refine ⟨max n1 n2, h2, fun n hn => ?_, b2, fun i hi => b3 i (a3 i hi), fun v hv t i e => ?_⟩
  · simp only [a1 n (by omega), andThen]
    exact b1 n (by omega)
  · rcases hv with hv | hv
    · exact b3 i (a4 v hv t i e)
    · exact b4 v hv t i e

section
variable {null : Nat} {h0 : Heap} {R : Nat → Prop} (hw : DTyped h0) (hch : NoChanRefs h0) (hnull : h0.size ≤ null) (hR : RClosed h0 R)
include hw hch hnull hR

theorem rmarks_phase {root : Val} (hok : OkRef h0 root) (hRr : ∀ j, PointsTo root j → R j) : RMarks h0 R (fun n h => dswPhase null n h root) (fun v => v = root) :=
  fun h g => by
    obtain ⟨n0, h', h1, h2, h3, h4⟩ := rev_phase (P := none') hw hch hnull hR hok hRr
      (h := h) ⟨g.same, g.index, g.recov, g.sound, fun i hi hm t j hj => (g.comp i hi hm t j hj).imp id (fun h => h.elim)⟩
    exact ⟨n0, h', h1, h2, h3, fun v e => by subst e; exact h4⟩

theorem rmarks_roots {vs : List Val} (hok : ∀ v ∈ vs, OkRef h0 v) (hRr : ∀ v ∈ vs, ∀ j, PointsTo v j → R j) :
    RMarks h0 R (fun n h => markRootsRev null n h vs) (fun v => v ∈ vs) := by
  induction vs with
  | nil => exact RMarks.pure.weaken (by simp)
  | cons x xs ih =>
    exact ((rmarks_phase hw hch hnull hR (hok x (by simp)) (hRr x (by simp))).seq (ih (fun v hv => hok v (by simp [hv])) (fun v hv => hRr v (by simp [hv])))).weaken
      (by simp)

omit hw hch hnull hR in
theorem rinv_setMark {h : Heap} {P P' : Nat → Prop} {i : Nat} {a d : Val} {t : PTy} (g : RInv h0 R P h) (hi : i < h0.size) (hRi : R i)
    (hc : (h0.cells i).content = .pair a d) (hP : ∀ j, P j → j = i ∨ P' j) (hrefs : ∀ j, PointsTo a j ∨ PointsTo d j → P' j) :
    RInv h0 R P' (setMark h (.ptr t false i)) ∧ ((setMark h (.ptr t false i)).cells i).mark = true ∧
      ∀ j, (h.cells j).mark = true → ((setMark h (.ptr t false i)).cells j).mark = true := by
  have hmk : ∀ j, ((setMark h (.ptr t false i)).cells j).mark = true ↔ j = i ∨ (h.cells j).mark = true := by
    intro j; simp only [setMark, setCell_cells]; split <;> simp_all
  have hix : ∀ j, ((setMark h (.ptr t false i)).cells j).index = (h.cells j).index := by
    intro j; simp only [setMark, setCell_cells]; split <;> simp_all
  refine ⟨⟨same_setCell g.same (by rw [g.same.size]; exact hi) rfl, fun j => (hix j).trans (g.index j), g.recov, ?_, ?_⟩, (hmk i).2 (.inl rfl), fun j hj => (hmk j).2 (.inr hj)⟩
  · intro j hj; rw [hmk] at hj
    rcases hj with rfl | hj
    · exact hRi
    · exact g.sound j hj
  · intro k hk hkm t' j hj
    rw [hmk] at hkm
    by_cases hki : k = i
    · subst hki
      rw [hc] at hj
      simp only [Content.refs, List.mem_cons, List.not_mem_nil, or_false] at hj
      exact .inr (hrefs j (hj.imp (fun h => ⟨t', h.symm⟩) (fun h => ⟨t', h.symm⟩)))
    · rcases g.comp k hk (hkm.resolve_left hki) t' j hj with h | h
      · exact .inl ((hmk j).2 (.inr h))
      · rcases hP j h with rfl | h
        · exact .inl ((hmk j).2 (.inl rfl))
        · exact .inr h

theorem rev_env {env : Val} (he : EnvOK h0 env) : ∀ (h : Heap), (∀ j, PointsTo env j → R j) → RInv h0 R (PointsTo env) h →
    ∃ k h', (∀ fuel n, k ≤ fuel → k ≤ n → markEnvRev null fuel n h env = some (.ok h')) ∧ RInv h0 R none' h' ∧
      (∀ i, (h.cells i).mark = true → (h'.cells i).mark = true) ∧ Reached h' env := by
  induction he with
  | @done v hv =>
    intro h hRe g
    refine ⟨1, h, fun fuel n _ hn => ?_, ⟨g.same, g.index, g.recov, g.sound, fun i hi hm t j hj => ?_⟩, fun _ h => h, fun t j e => absurd ⟨t, e⟩ (not_points hv j)⟩
    · obtain ⟨m, rfl⟩ : ∃ m, n = m + 1 := ⟨n - 1, by omega⟩
      simp only [markEnvRev, hv, Bool.false_eq_true, if_false]
    · exact (g.comp i hi hm t j hj).imp id fun h => absurd h (not_points hv j)
  | @bind i b key val rest hi hb hci hcb hkey hrest ih =>
    intro h hRe g
    have hRi : R i := hRe i ⟨_, rfl⟩
    have hRb : R b := hR i hRi .cons b (by rw [hci]; simp [Content.refs])
    have hRrest : ∀ j, PointsTo rest j → R j := by
      rintro j ⟨t, rfl⟩; exact hR i hRi t j (by rw [hci]; simp [Content.refs])
    have hRval : ∀ j, PointsTo val j → R j := by
      rintro j ⟨t, rfl⟩; exact hR b hRb t j (by rw [hcb]; simp [Content.refs])
    obtain ⟨g1, mi, mono1⟩ := rinv_setMark (P' := fun j => j = b ∨ PointsTo rest j) (t := .cons) g hi hRi hci
      (by rintro j ⟨t, h⟩; cases h; exact Or.inl rfl)
      (by
        rintro j (⟨t, h⟩ | h)
        · cases h; exact Or.inl rfl
        · exact Or.inr h)
    obtain ⟨g2, _, mono2⟩ := rinv_setMark (P' := fun j => PointsTo rest j ∨ PointsTo val j) (t := .cons) g1 hb hRb hcb
      (by
        rintro j (h | h)
        · exact Or.inl h
        · exact Or.inr (Or.inl h))
      (by
        rintro j (h | h)
        · exact absurd h (not_points hkey j)
        · exact Or.inr h)
    obtain ⟨n1, h3, e3, g3, mono3, _⟩ := rev_phase hw hch hnull hR (hw.pair b hb _ _ hcb).2 hRval g2
    obtain ⟨n2, h4, e4, g4, mono4, _⟩ := ih { h3 with gcMarked := h3.gcMarked + 2 } hRrest ⟨same_marked g3.same _, g3.index, g3.recov, g3.sound, g3.comp⟩
    have hb1 : badRef h (.ptr .cons false i) = false := by
      have := g.same.size; simp [badRef]; omega
    have hb2 : badRef (setMark h (.ptr .cons false i)) (.ptr .cons false b) = false := by
      have := g1.same.size; simp [badRef]; omega
    have hc1 : contentOf (setMark h (.ptr .cons false i)) (.ptr .cons false i) = some (.pair (.ptr .cons false b) rest) := by
      simp only [contentOf, cellOf, Option.map_some]; rw [g1.same.content, hci]
    have hc2 : contentOf (setMark (setMark h (.ptr .cons false i)) (.ptr .cons false b)) (.ptr .cons false b) = some (.pair key val) := by
      simp only [contentOf, cellOf, Option.map_some]; rw [g2.same.content, hcb]
    refine ⟨max n1 n2 + 1, h4, fun fuel n hf hn => ?_, g4, fun j hj => mono4 j (mono3 j (mono2 j (mono1 j hj))), fun t j e => ?_⟩
    · obtain ⟨m, rfl⟩ : ∃ m, n = m + 1 := ⟨n - 1, by omega⟩
      unfold markEnvRev
      simp only [Val.isPtr, if_true, hb1, Bool.false_eq_true, if_false, hc1, hb2, hc2, e3 fuel (by omega)]
      exact e4 fuel m (by omega) (by omega)
    · cases e
      exact mono4 i (mono3 i (mono2 i mi))

theorem rmarks_env {env : Val} (hok : EnvOK h0 env) (hRr : ∀ j, PointsTo env j → R j) : RMarks h0 R (fun n h => markEnvRev null n n h env) (fun v => v = env) :=
  fun h g => by
    obtain ⟨k, h', h1, h2, h3, h4⟩ := rev_env hw hch hnull hR hok h hRr
      ⟨g.same, g.index, g.recov, g.sound, fun i hi hm t j hj => (g.comp i hi hm t j hj).imp id (fun h => h.elim)⟩
    exact ⟨k, h', fun n hn => h1 n n hn hn, h2, h3, fun v e => by subst e; exact h4⟩

theorem rmarks_context {c : CtxRoots} (he : EnvOK h0 c.env) (hregs : OkRef h0 c.exp ∧ OkRef h0 c.program ∧ OkRef h0 c.r)
    (hmail : ∀ v ∈ c.mailbox, OkRef h0 v) (hst : ∀ v ∈ c.stack, inHeap h0 v = true → OkRef h0 v)
    (hRr : ∀ v ∈ c.env :: c.exp :: c.program :: c.r :: (c.mailbox ++ c.stack.filter (inHeap h0)), ∀ j, PointsTo v j → R j) :
    RMarks h0 R (fun n h => markContextRev null n h c) (fun v => v ∈ c.env :: c.exp :: c.program :: c.r :: (c.mailbox ++ c.stack.filter (inHeap h0))) := by
  have m1 := rmarks_env hw hch hnull hR he (hRr _ List.mem_cons_self)
  have m2 := rmarks_roots hw hch hnull hR (vs := [c.exp, c.program, c.r]) (by simp; exact hregs) (fun v hv => hRr v (by simp at hv ⊢; rcases hv with h | h | h <;> simp [h]))
  have m3 := rmarks_roots hw hch hnull hR (vs := c.mailbox) hmail (fun v hv => hRr v (by simp [hv]))
  have m4 := rmarks_roots hw hch hnull hR (vs := c.stack.filter (inHeap h0)) (fun v hv => hst v (List.mem_filter.1 hv).1 (List.mem_filter.1 hv).2)
    (fun v hv => hRr v (by simp [List.mem_filter.1 hv]))
  have m4' : RMarks h0 R (fun n h => markRootsRev null n h (c.stack.filter (auxOk h))) (fun v => v ∈ c.stack.filter (inHeap h0)) := by
    intro h g
    simp only [aux_same g.same]
    exact m4 h g
  refine (m1.seq (m2.seq (m3.seq m4'))).weaken fun v hv => ?_
  simp only [List.mem_cons, List.mem_append, List.not_mem_nil, or_false] at hv ⊢
  rcases hv with h | h | h | h | h | h
  · exact .inl h
  · exact .inr (.inl (.inl h))
  · exact .inr (.inl (.inr (.inl h)))
  · exact .inr (.inl (.inr (.inr h)))
  · exact .inr (.inr (.inl h))
  · exact .inr (.inr (.inr h))

theorem rmarks_globals {vs : List Val} (hok : ∀ v ∈ vs, EnvOK h0 v) (hRr : ∀ v ∈ vs, ∀ j, PointsTo v j → R j) :
    RMarks h0 R (fun n h => markGlobalsRev null n h vs) (fun v => v ∈ vs) := by
  induction vs with
  | nil => exact RMarks.pure.weaken (by simp)
  | cons x xs ih =>
    exact ((rmarks_env hw hch hnull hR (hok x (by simp)) (hRr x (by simp))).seq (ih (fun v hv => hok v (by simp [hv])) (fun v hv => hRr v (by simp [hv])))).weaken
      (by simp)

theorem rmarks_contexts {cs : List CtxRoots} (he : ∀ c ∈ cs, EnvOK h0 c.env) (hregs : ∀ c ∈ cs, OkRef h0 c.exp ∧ OkRef h0 c.program ∧ OkRef h0 c.r)
    (hmail : ∀ c ∈ cs, ∀ v ∈ c.mailbox, OkRef h0 v) (hst : ∀ c ∈ cs, ∀ v ∈ c.stack, inHeap h0 v = true → OkRef h0 v)
    (hRr : ∀ v ∈ cs.flatMap fun c => c.env :: c.exp :: c.program :: c.r :: (c.mailbox ++ c.stack.filter (inHeap h0)), ∀ j, PointsTo v j → R j) :
    RMarks h0 R (fun n h => markContextsRev null n h cs)
      (fun v => v ∈ cs.flatMap fun c => c.env :: c.exp :: c.program :: c.r :: (c.mailbox ++ c.stack.filter (inHeap h0))) := by
  induction cs with
  | nil => exact RMarks.pure.weaken (by simp)
  | cons x xs ih =>
    have m1 := rmarks_context hw hch hnull hR (he x List.mem_cons_self) (hregs x List.mem_cons_self) (hmail x List.mem_cons_self) (hst x List.mem_cons_self)
      (fun v hv => hRr v (by rw [List.flatMap_cons]; exact List.mem_append_left _ hv))
    have m2 := ih (fun c hc => he c (List.mem_cons_of_mem _ hc)) (fun c hc => hregs c (List.mem_cons_of_mem _ hc)) (fun c hc => hmail c (List.mem_cons_of_mem _ hc))
      (fun c hc => hst c (List.mem_cons_of_mem _ hc)) (fun v hv => hRr v (by rw [List.flatMap_cons]; exact List.mem_append_right _ hv))
    refine (m1.seq m2).weaken fun v hv => ?_
    rw [List.flatMap_cons] at hv
    exact List.mem_append.1 hv

end

theorem rev_reachable_lt {h : Heap} {roots : List Val} (hw : DTyped h) (hch : NoChanRefs h) (hr : ∀ v ∈ roots, OkRef h v) {i : Nat} (hi : Reachable h roots i) : i < h.size := by
  induction hi with
  | root hm => exact (hr _ hm).1
  | @step i t j _ hj ih =>
    have hj' := refsD_refs hch ih hj
    cases hc : (h.cells i).content with
    | pair a d =>
      rw [hc] at hj'
      obtain ⟨o1, o2⟩ := hw.pair i ih a d hc
      simp only [Content.refsD, List.mem_cons, List.not_mem_nil, or_false] at hj'
      rcases hj' with e | e
      · rw [← e] at o1; exact o1.1
      · rw [← e] at o2; exact o2.1
    | lispArr hd da es =>
      rw [hc] at hj'
      exact (hw.arr i ih hd da es hc _ hj').1
    | _ => rw [hc] at hj'; cases hj'

/-- The mark phases of a whole collection: the marked cells are the reachable ones. -/
theorem rev_markAll {null : Nat} {h : Heap} {pre glob : List Val} {ctxs : List CtxRoots} (hw : DTyped h) (hclean : ∀ i, (h.cells i).mark = false ∧ (h.cells i).index = 0)
    (hch : NoChanRefs h) (hnull : h.size ≤ null) (ho : RootsOK h pre glob ctxs) :
    ∃ n0 hm, (∀ n, n0 ≤ n → (andThen (markRootsRev null n h pre) fun h => andThen (markGlobalsRev null n (gcStart h) glob) fun h => markContextsRev null n h ctxs) =
        some (.ok hm)) ∧
      Same (gcStart h) hm ∧ (∀ i, (hm.cells i).index = 0) ∧ hm.gcRecovered = 0 ∧
      ∀ i, (hm.cells i).mark = true ↔ Reachable h (rootsOf h pre glob ctxs) i := by
  have hRcl := rclosed_reachable h (rootsOf h pre glob ctxs)
  have hroot : ∀ v ∈ rootsOf h pre glob ctxs, ∀ j, PointsTo v j → Reachable h (rootsOf h pre glob ctxs) j := by
    rintro v hv j ⟨t, rfl⟩
    exact .root hv
  have mem1 : ∀ v ∈ pre, v ∈ rootsOf h pre glob ctxs := fun v hv => by unfold rootsOf; simp [hv]
  have mem2 : ∀ v ∈ glob, v ∈ rootsOf h pre glob ctxs := fun v hv => by unfold rootsOf; simp [hv]
  have mem3 : ∀ v ∈ ctxs.flatMap fun c => c.env :: c.exp :: c.program :: c.r :: (c.mailbox ++ c.stack.filter (inHeap h)), v ∈ rootsOf h pre glob ctxs :=
    fun v hv => by unfold rootsOf; exact List.mem_append_right _ hv
  have g0 : RInv h (Reachable h (rootsOf h pre glob ctxs)) none' h :=
    ⟨Same.refl h, fun _ => rfl, rfl, fun i hi => (by rw [(hclean i).1] at hi; cases hi), fun i _ hi => (by rw [(hclean i).1] at hi; cases hi)⟩
  obtain ⟨n1, h1, e1, g1, mo1, r1⟩ := rmarks_roots (vs := pre) hw hch hnull hRcl ho.pre (fun v hv => hroot v (mem1 v hv)) h g0
  -- the start of the collection
  have hw' : DTyped (gcStart h) := ⟨fun i hi a d hc => by
      obtain ⟨o1, o2⟩ := hw.pair i hi a d hc
      exact ⟨okRef_congr (h := h) (h' := gcStart h) rfl rfl o1, okRef_congr (h := h) (h' := gcStart h) rfl rfl o2⟩, fun i hi hd da es hc e he => okRef_congr (h := h) (h' := gcStart h) rfl rfl (hw.arr i hi hd da es hc e he)⟩
  have hch' : NoChanRefs (gcStart h) := hch
  have hR' : RClosed (gcStart h) (Reachable h (rootsOf h pre glob ctxs)) := hRcl
  have g1' : RInv (gcStart h) (Reachable h (rootsOf h pre glob ctxs)) none' (gcStart h1) :=
    ⟨⟨g1.same.size, g1.same.content, g1.same.consts, rfl, g1.same.size, g1.same.gcCap, g1.same.outside⟩, g1.index, rfl, g1.sound, g1.comp⟩
  have hih : inHeap (gcStart h) = inHeap h := inHeap_congr rfl
  have m2 := rmarks_globals (null := null) hw' hch' hnull hR' (vs := glob) (fun v hv => envOK_congr (h := h) (h' := gcStart h) rfl rfl (ho.glob v hv)) (fun v hv => hroot v (mem2 v hv))
  have m3 := rmarks_contexts (null := null) hw' hch' hnull hR' (cs := ctxs) (fun c hc => envOK_congr (h := h) (h' := gcStart h) rfl rfl (ho.env c hc))
    (fun c hc => by
      obtain ⟨o1, o2, o3⟩ := ho.regs c hc
      exact ⟨okRef_congr (h := h) (h' := gcStart h) rfl rfl o1, okRef_congr (h := h) (h' := gcStart h) rfl rfl o2, okRef_congr (h := h) (h' := gcStart h) rfl rfl o3⟩)
    (fun c hc v hv => okRef_congr (h := h) (h' := gcStart h) rfl rfl (ho.mail c hc v hv))
    (fun c hc v hv hi => okRef_congr (h := h) (h' := gcStart h) rfl rfl (ho.stack c hc v hv (by rw [← hih]; exact hi)))
    (by rw [hih]; exact fun v hv => hroot v (mem3 v hv))
  rw [hih] at m3
  obtain ⟨n2, hm, e2, g2, mo2, r2⟩ := (m2.seq m3) (gcStart h1) g1'
  refine ⟨max n1 n2, hm, fun n hn => ?_, g2.same, fun i => (g2.index i).trans (hclean i).2, g2.recov, fun i => ⟨g2.sound i, fun hi => ?_⟩⟩
  · rw [show markRootsRev null n h pre = some (.ok h1) from e1 n (by omega)]
    exact e2 n (by omega)
  · have hlt : ∀ {i}, Reachable h (rootsOf h pre glob ctxs) i → i < h.size := fun hi => rev_reachable_lt hw hch (roots_okRef ho) hi
    induction hi with
    | @root t i hmem =>
      have hmem' := hmem
      unfold rootsOf at hmem'
      rcases List.mem_append.1 hmem' with hx | hx
      · rcases List.mem_append.1 hx with hx | hx
        · exact mo2 i (r1 _ hx t i rfl)
        · exact r2 _ (.inl hx) t i rfl
      · exact r2 _ (.inr hx) t i rfl
    | step hi hj ih =>
      rcases g2.comp _ (hlt hi) ih _ _ hj with h1 | h1
      · exact h1
      · exact h1.elim

theorem gcRev_eq (null n : Nat) (h : Heap) (pre glob : List Val) (ctxs : List CtxRoots) : gcRev null n h pre glob ctxs =
    match (andThen (markRootsRev null n h pre) fun h => andThen (markGlobalsRev null n (gcStart h) glob) fun h => markContextsRev null n h ctxs) with
    | none => none
    | some .critical => some .critical
    | some .ub => some .ub
    | some (.ok h) =>
      match sweep h with
      | none => some .ub
      | some (h1, rel) => some (.ok (newFreelistLength h1, rel)) := rfl

end Verif.Heap
