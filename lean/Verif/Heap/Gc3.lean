import Verif.Heap.Gc2

/- The whole collection. -/

namespace Verif.Heap

/-- `lbm_gc_state_inc` and `lbm_nil_freelist` at the start of `gc()`. -/
def gcStart (h : Heap) : Heap :=
  { h with gcNum := h.gcNum + 1, gcRecovered := 0, gcMarked := 0, freelist := nil, numAlloc := h.size }

theorem okRef_congr {h h' : Heap} (hs : h'.size = h.size) (hc : h'.cells = h.cells) {v : Val} :
    OkRef h v → OkRef h' v := by
  cases v with
  | ptr t k i => cases k <;> simp [OkRef, hs, hc]
  | _ => simp [OkRef]

theorem okElem_congr {h h' : Heap} (hs : h'.size = h.size) (hc : h'.cells = h.cells) {v : Val} :
    OkElem h v → OkElem h' v := by
  cases v with
  | ptr t k i => exact okRef_congr hs hc
  | _ => simp [OkElem, OkRef]

theorem typed_congr {h h' : Heap} (hs : h'.size = h.size) (hc : h'.cells = h.cells) (w : Typed h) :
    Typed h' := by
  refine ⟨?_, ?_, ?_⟩
  · intro i hi a d h1
    rw [hc] at h1; rw [hs] at hi
    exact ⟨okRef_congr hs hc (w.pair i hi a d h1).1, okRef_congr hs hc (w.pair i hi a d h1).2⟩
  · intro i hi a d h1
    rw [hc] at h1; rw [hs] at hi
    exact okRef_congr hs hc (w.chan i hi a d h1)
  · intro i hi a d es h1
    rw [hc] at h1; rw [hs] at hi
    exact ⟨(w.arr i hi a d es h1).1, fun e he => okElem_congr hs hc ((w.arr i hi a d es h1).2 e he)⟩

theorem envOK_congr {h h' : Heap} (hs : h'.size = h.size) (hc : h'.cells = h.cells) {v : Val}
    (he : EnvOK h v) : EnvOK h' v := by
  induction he with
  | done hv => exact .done hv
  | bind hi hb h1 h2 hk _ ih =>
    exact .bind (by rw [hs]; exact hi) (by rw [hs]; exact hb) (by rw [hc]; exact h1) (by rw [hc]; exact h2) hk ih

theorem ranked_congr {h h' : Heap} (hs : h'.size = h.size) (hc : h'.cells = h.cells)
    (hr : ArraysRanked h) : ArraysRanked h' := by
  obtain ⟨rank, hrank⟩ := hr
  exact ⟨rank, by rw [hs, hc]; exact hrank⟩

theorem inHeap_congr {h h' : Heap} (hs : h'.size = h.size) : inHeap h' = inHeap h := by
  funext v; cases v <;> simp [inHeap, hs]

theorem ginv_start {h0 h : Heap} {R P : Nat → Prop} {D : Val → Prop} (g : GInv h0 R P D h) :
    GInv { h0 with freelist := nil, numAlloc := h0.size } R P D (gcStart h) :=
  ⟨⟨g.same.size, g.same.content, g.same.consts, rfl, g.same.size, g.same.gcCap, g.same.outside⟩,
    g.sound, g.arr, g.comp⟩

/-- The marking half of `gc()`. -/
def markAll (n : Nat) (h : Heap) (pre glob : List Val) (ctxs : List CtxRoots) : Option (Out Heap) :=
  andThen (markRoots n h pre) fun h =>
  andThen (markGlobals n (gcStart h) glob) fun h => markContexts n h ctxs

theorem gc_eq (n : Nat) (h : Heap) (pre glob : List Val) (ctxs : List CtxRoots) :
    gc n h pre glob ctxs =
      match markAll n h pre glob ctxs with
      | none => none
      | some .critical => some .critical
      | some .ub => some .ub
      | some (.ok h) =>
        match sweep h with
        | none => some .ub
        | some (h1, rel) => some (.ok (newFreelistLength h1, rel)) := rfl

theorem reachable_lt {h : Heap} {roots : List Val} (hw : Typed h)
    (hr : ∀ t i, Val.ptr t false i ∈ roots → i < h.size) {i : Nat} (hi : Reachable h roots i) :
    i < h.size := by
  induction hi with
  | root hm => exact hr _ _ hm
  | @step i t j _ hj ih =>
    have ho : OkElem h (.ptr t false j) := by
      cases hc : (h.cells i).content with
      | pair a d =>
        rw [hc] at hj; simp only [Content.refs, List.mem_cons, List.not_mem_nil, or_false] at hj
        rcases hj with rfl | rfl
        · exact (hw.pair i ih _ _ hc).1
        · exact (hw.pair i ih _ _ hc).2
      | lispArr hd da es => rw [hc] at hj; exact (hw.arr i ih _ _ _ hc).2 _ hj
      | channel ch dep =>
        rw [hc] at hj
        cases ch with
        | none => cases hj
        | some c =>
          simp only [Content.refs, List.mem_cons, List.not_mem_nil, or_false] at hj
          subst hj; exact hw.chan i ih _ _ hc
      | _ => rw [hc] at hj; cases hj
    exact ho.1

theorem roots_okRef {h : Heap} {pre glob : List Val} {ctxs : List CtxRoots}
    (ho : RootsOK h pre glob ctxs) : ∀ v ∈ rootsOf h pre glob ctxs, OkRef h v := by
  intro v hv
  simp only [rootsOf, List.mem_append, List.mem_flatMap, List.mem_cons, List.mem_filter] at hv
  rcases hv with (hv | hv) | ⟨c, hc, hv⟩
  · exact ho.pre v hv
  · exact OkRef.env (ho.glob v hv)
  · rcases hv with rfl | rfl | rfl | rfl | hv | ⟨hv, ha⟩
    · exact OkRef.env (ho.env c hc)
    · exact (ho.regs c hc).1
    · exact (ho.regs c hc).2.1
    · exact (ho.regs c hc).2.2
    · exact ho.mail c hc v hv
    · exact ho.stack c hc v hv ha

theorem rclosed_reachable (h : Heap) (roots : List Val) : RClosed h (Reachable h roots) :=
  fun _ hi _ _ hj => .step hi hj

/-! The counter of recovered cells is not touched while marking. -/

theorem markRun_rec : ∀ n (m : MSt) h', markRun n m = some (.ok h') → h'.gcRecovered = m.h.gcRecovered := by
  intro n
  induction n with
  | zero => intro m h' h; simp [markRun] at h
  | succ n ih =>
    intro m h' h
    unfold markRun at h
    split at h
    · next m' hs =>
      rw [ih m' h' h]
      have hp : ∀ {v h2 s2}, PushRes m v h2 s2 → h2.gcRecovered = m.h.gcRecovered := by
        rintro v h2 s2 (⟨rfl, _⟩ | ⟨_, rfl, _⟩) <;> rfl
      cases step_of_markStep hs with
      | descend _ _ _ _ h1 _ _ => exact hp h1
      | advance _ _ _ _ h1 _ _ _ => have := hp h1; exact this
      | finish _ _ _ _ h1 _ _ _ => have := hp h1; exact this
      | _ => rfl
    · next h2 hs =>
      simp only [Option.some.injEq, Out.ok.injEq] at h
      rw [← h, ← markStep_inr hs]
    · simp at h
    · simp at h

theorem markPhase_rec {n : Nat} {h h' : Heap} {v : Val} (e : markPhase n h v = some (.ok h')) :
    h'.gcRecovered = h.gcRecovered := by
  unfold markPhase at e
  split at e
  · simp at e
  · exact markRun_rec n _ h' e

theorem setMark_rec (h : Heap) (v : Val) : (setMark h v).gcRecovered = h.gcRecovered := by
  unfold setMark; split <;> rfl

theorem markEnv_rec : ∀ n fuel (h h' : Heap) (v : Val), markEnv fuel n h v = some (.ok h') →
    h'.gcRecovered = h.gcRecovered := by
  intro n
  induction n with
  | zero => intro _ h h' v e; simp [markEnv] at e
  | succ n ih =>
    intro fuel h h' v e
    unfold markEnv at e
    split at e
    · split at e
      · simp at e
      · simp only at e
        split at e
        · split at e
          · simp at e
          · split at e
            · split at e
              · next h3 hp =>
                rw [ih _ _ _ _ e]
                show h3.gcRecovered = _
                rw [markPhase_rec hp, setMark_rec, setMark_rec]
              · next hne => exact absurd e (hne h')
            · simp at e
        · simp at e
    · simp at e; rw [e]

theorem andThen_ok {r : Option (Out Heap)} {f : Heap → Option (Out Heap)} {h' : Heap}
    (e : andThen r f = some (.ok h')) : ∃ h1, r = some (.ok h1) ∧ f h1 = some (.ok h') := by
  unfold andThen at e
  split at e
  · next h1 => exact ⟨h1, rfl, e⟩
  · next hne => exact absurd e (hne h')

theorem markRoots_rec {n : Nat} : ∀ (vs : List Val) (h h' : Heap), markRoots n h vs = some (.ok h') →
    h'.gcRecovered = h.gcRecovered := by
  intro vs
  induction vs with
  | nil => intro h h' e; simp [markRoots] at e; rw [e]
  | cons v vs ih =>
    intro h h' e
    rw [markRoots_cons] at e
    obtain ⟨h1, e1, e2⟩ := andThen_ok e
    rw [ih h1 h' e2, markPhase_rec e1]

theorem markGlobals_rec {n : Nat} : ∀ (vs : List Val) (h h' : Heap), markGlobals n h vs = some (.ok h') →
    h'.gcRecovered = h.gcRecovered := by
  intro vs
  induction vs with
  | nil => intro h h' e; simp [markGlobals] at e; rw [e]
  | cons v vs ih =>
    intro h h' e
    unfold markGlobals at e
    obtain ⟨h1, e1, e2⟩ := andThen_ok e
    rw [ih h1 h' e2, markEnv_rec _ _ _ _ _ e1]

theorem markContexts_rec {n : Nat} : ∀ (cs : List CtxRoots) (h h' : Heap), markContexts n h cs = some (.ok h') →
    h'.gcRecovered = h.gcRecovered := by
  intro cs
  induction cs with
  | nil => intro h h' e; simp [markContexts] at e; rw [e]
  | cons c cs ih =>
    intro h h' e
    unfold markContexts at e
    obtain ⟨h1, e1, e2⟩ := andThen_ok e
    rw [ih h1 h' e2]
    unfold markContext at e1
    obtain ⟨h2, f1, e1⟩ := andThen_ok e1
    obtain ⟨h3, f2, e1⟩ := andThen_ok e1
    obtain ⟨h4, f3, e1⟩ := andThen_ok e1
    rw [markRoots_rec _ _ _ e1, markRoots_rec _ _ _ f3, markRoots_rec _ _ _ f2, markEnv_rec _ _ _ _ _ f1]

theorem markAll_rec {n : Nat} {h h' : Heap} {pre glob : List Val} {ctxs : List CtxRoots}
    (e : markAll n h pre glob ctxs = some (.ok h')) : h'.gcRecovered = 0 := by
  unfold markAll at e
  obtain ⟨h1, f1, e⟩ := andThen_ok e
  obtain ⟨h2, f2, e⟩ := andThen_ok e
  rw [markContexts_rec _ _ _ e, markGlobals_rec _ _ _ f2]; rfl

/-- What the marking half establishes. -/
theorem markAll_spec {h : Heap} {pre glob : List Val} {ctxs : List CtxRoots} (hw : WF h)
    (hcap : 0 < h.gcCap) (ho : RootsOK h pre glob ctxs) :
    (∀ n, markAll n h pre glob ctxs ≠ some .ub ∧ ∀ h', markAll n h pre glob ctxs = some (.ok h') →
      (h.dropped = true → h'.dropped = true) ∧
      GInv { h with freelist := nil, numAlloc := h.size } (Reachable h (rootsOf h pre glob ctxs)) none'
        (fun v => v ∈ rootsOf h pre glob ctxs) h') ∧
    (ArraysRanked h → Settles (fun n => markAll n h pre glob ctxs)) ∧
    (∀ b, Roomy h b → h.dropped = false → ∀ n, (b = true → markAll n h pre glob ctxs ≠ some .critical) ∧
      ∀ h', markAll n h pre glob ctxs = some (.ok h') → h'.dropped = false) := by
  let R := Reachable h (rootsOf h pre glob ctxs)
  have hR : RClosed h R := rclosed_reachable _ _
  have hRr : ∀ v ∈ rootsOf h pre glob ctxs, ∀ j, PointsTo v j → R j := by
    rintro v hv j ⟨t, rfl⟩; exact .root hv
  let h1 : Heap := { h with freelist := nil, numAlloc := h.size }
  have hwT := hw.typed
  have hw1 : Typed h1 := typed_congr (h := h) (h' := h1) rfl rfl hwT
  have haux : inHeap h1 = inHeap h := inHeap_congr rfl
  have g0 : GInv h R none' (fun _ => False) h := by
    refine ⟨Same.refl _, ?_, ?_, ?_⟩
    · intro i hi
      rw [(hw.clean i).1] at hi; cases hi
    · intro i hi _ hd da es hc
      rw [(hw.clean i).2]
      refine ⟨List.length_pos_iff.mpr (hw.arr i hi _ _ _ hc).1, fun k hk => absurd hk (by omega)⟩
    · intro _
      refine ⟨?_, fun v hv => hv.elim, fun i hi => (hw.clean i).2⟩
      intro i hi hm; rw [(hw.clean i).1] at hm; cases hm
  have m1 : Marks h R (fun n h => markRoots n h pre) (fun v => v ∈ pre) :=
    marks_roots hwT hR hcap ho.pre (fun v hv => hRr v (by simp [rootsOf, hv]))
  have m2 : Marks h1 R (fun n h => markGlobals n h glob) (fun v => v ∈ glob) :=
    marks_globals hw1 hR hcap (fun v hv => envOK_congr (h := h) (h' := h1) rfl rfl (ho.glob v hv))
      (fun v hv => hRr v (by simp [rootsOf, hv]))
  have m3 := marks_contexts (h0 := h1) (R := R) (cs := ctxs) hw1 hR hcap
    (fun c hc => envOK_congr (h := h) (h' := h1) rfl rfl (ho.env c hc))
    (fun c hc => ⟨okRef_congr (h := h) (h' := h1) rfl rfl (ho.regs c hc).1, okRef_congr (h := h) (h' := h1) rfl rfl (ho.regs c hc).2.1,
      okRef_congr (h := h) (h' := h1) rfl rfl (ho.regs c hc).2.2⟩)
    (fun c hc v hv => okRef_congr (h := h) (h' := h1) rfl rfl (ho.mail c hc v hv))
    (fun c hc v hv ha => okRef_congr (h := h) (h' := h1) rfl rfl (ho.stack c hc v hv (by rw [← haux]; exact ha)))
    (fun c hc v hv => by
      refine hRr v ?_
      rw [haux] at hv
      simp only [rootsOf, List.mem_append, List.mem_flatMap]
      exact Or.inr ⟨c, hc, hv⟩)
  rw [haux] at m3
  have m23 := m2.seq m3
  refine ⟨?_, ?_, ?_⟩
  · intro n
    obtain ⟨a1, a2⟩ := m1.ok h _ g0 n
    unfold markAll
    cases hf : markRoots n h pre with
    | none => simp [andThen]
    | some o =>
      cases o with
      | ub => exact absurd hf a1
      | critical => simp [andThen]
      | ok hh =>
        obtain ⟨g1, d1⟩ := a2 hh hf
        obtain ⟨b1, b2⟩ := m23.ok (gcStart hh) _ (ginv_start g1) n
        refine ⟨b1, fun h' hh' => ?_⟩
        obtain ⟨g2, d2⟩ := b2 h' hh'
        refine ⟨fun hd => d2 (d1 hd), g2.mapD ?_⟩
        intro v hv
        simp only [rootsOf, List.mem_append] at hv
        rcases hv with (hv | hv) | hv
        · exact Or.inl (Or.inr hv)
        · exact Or.inr (Or.inl hv)
        · exact Or.inr (Or.inr hv)
  · intro hr
    unfold markAll
    refine settles_andThen (m1.settles hr h _ g0) (fun n hh hf => ?_)
    obtain ⟨g1, _⟩ := (m1.ok h _ g0 n).2 hh hf
    exact m23.settles (ranked_congr (h := h) (h' := h1) rfl rfl hr) (gcStart hh) _ (ginv_start g1)
  · intro b hb hd n
    obtain ⟨a1, a2⟩ := m1.ok h _ g0 n
    obtain ⟨r1, r2⟩ := m1.room b hb h _ g0 hd n
    have hb1 : Roomy h1 b := by
      rcases hb with ⟨rank, K, hr, hc⟩ | ⟨hb, hn⟩
      · exact Or.inl ⟨rank, K, hr, by rw [workTo_congr (h := h) (h' := h1) (fun _ => rfl)]; exact hc⟩
      · exact Or.inr ⟨hb, hn⟩
    unfold markAll
    cases hf : markRoots n h pre with
    | none => simp [andThen]
    | some o =>
      cases o with
      | ub => exact absurd hf a1
      | critical => rw [hf] at r1; simp [andThen] at r1 ⊢; exact r1
      | ok hh =>
        exact m23.room b hb1 (gcStart hh) _ (ginv_start (a2 hh hf).1) (r2 hh hf) n

/-- Marked exactly when reachable, if no push was dropped. -/
theorem marked_iff_reachable {h h' : Heap} {pre glob : List Val} {ctxs : List CtxRoots} (hw : WF h)
    (ho : RootsOK h pre glob ctxs)
    (g : GInv { h with freelist := nil, numAlloc := h.size } (Reachable h (rootsOf h pre glob ctxs)) none'
        (fun v => v ∈ rootsOf h pre glob ctxs) h') (hd : h'.dropped = false) (i : Nat) :
    (h'.cells i).mark = true ↔ Reachable h (rootsOf h pre glob ctxs) i := by
  constructor
  · exact g.sound i
  · intro hi
    obtain ⟨c1, c2, _⟩ := g.comp hd
    have hlt : ∀ t i, Val.ptr t false i ∈ rootsOf h pre glob ctxs → i < h.size :=
      fun t i hm => (roots_okRef ho _ hm).1
    induction hi with
    | root hm => exact c2 _ hm _ _ rfl
    | step hi hj ih =>
      rcases c1 _ (reachable_lt hw.typed hlt hi) ih _ _ hj with h | h
      · exact h
      · exact h.elim

theorem sweepTo_dropped : ∀ k (hm h1 : Heap) r, sweepTo k hm = some (h1, r) → h1.dropped = hm.dropped := by
  intro k
  induction k with
  | zero => intro hm h1 r h; simp [sweepTo] at h; rw [h.1]
  | succ k ih =>
    intro hm h1 r h
    simp only [sweepTo] at h
    split at h
    · simp at h
    · next h2 r2 e2 =>
      split at h
      · simp at h
      · next h3 r3 e3 =>
        simp only [Option.some.injEq, Prod.mk.injEq] at h
        rw [← h.1, ← ih hm h2 r2 e2]
        unfold sweepStep at e3
        simp only at e3
        split at e3
        · simp at e3; rw [← e3.1]; rfl
        · split at e3
          · simp at e3
          · simp at e3; rw [← e3.1]

/-- With enough room, or without arrays, the flag stays down. -/
theorem gc_nodrop {h h' : Heap} {n : Nat} {pre glob : List Val} {ctxs : List CtxRoots} {rel : List Release}
    {b : Bool} (hw : WF h) (hcap : 0 < h.gcCap) (ho : RootsOK h pre glob ctxs) (hb : Roomy h b)
    (hd : h.dropped = false) (hgc : gc n h pre glob ctxs = some (.ok (h', rel))) : h'.dropped = false := by
  rw [gc_eq] at hgc
  cases hma : markAll n h pre glob ctxs with
  | none => rw [hma] at hgc; simp at hgc
  | some o =>
    rw [hma] at hgc
    cases o with
    | ub => simp at hgc
    | critical => simp at hgc
    | ok hm =>
      have := ((markAll_spec hw hcap ho).2.2 b hb hd n).2 hm hma
      simp only at hgc
      cases hs : sweep hm with
      | none => rw [hs] at hgc; simp at hgc
      | some p =>
        obtain ⟨h1, r⟩ := p
        rw [hs] at hgc
        simp only [Option.some.injEq, Out.ok.injEq, Prod.mk.injEq] at hgc
        rw [← hgc.1, ← this]
        exact sweepTo_dropped _ hm h1 r hs

/-- The collection finishes. -/
theorem gc_settles {h : Heap} {pre glob : List Val} {ctxs : List CtxRoots} (hw : WF h)
    (hcap : 0 < h.gcCap) (ho : RootsOK h pre glob ctxs) (hr : ArraysRanked h) :
    ∃ n0 r, ∀ n, n0 ≤ n → gc n h pre glob ctxs = some r := by
  obtain ⟨n0, r, hn⟩ := (markAll_spec hw hcap ho).2.1 hr
  cases r with
  | ub => exact ⟨n0, .ub, fun n h => by rw [gc_eq]; simp only [hn n h]⟩
  | critical => exact ⟨n0, .critical, fun n h => by rw [gc_eq]; simp only [hn n h]⟩
  | ok hm =>
    cases hs : sweep hm with
    | none => exact ⟨n0, .ub, fun n h => by rw [gc_eq]; simp only [hn n h, hs]⟩
    | some p => exact ⟨n0, .ok (newFreelistLength p.1, p.2), fun n h => by rw [gc_eq]; simp only [hn n h, hs]⟩

/-- Undefined behaviour cannot come out when the sweep recognises every dead cell. -/
theorem gc_no_ub {h : Heap} {n : Nat} {pre glob : List Val} {ctxs : List CtxRoots} (hw : WF h)
    (hcap : 0 < h.gcCap) (ho : RootsOK h pre glob ctxs)
    (hplain : ∀ i < h.size, PlainContent (h.cells i).content) : gc n h pre glob ctxs ≠ some .ub := by
  rw [gc_eq]
  obtain ⟨h1, h2⟩ := (markAll_spec hw hcap ho).1 n
  cases hma : markAll n h pre glob ctxs with
  | none => simp
  | some o =>
    cases o with
    | ub => exact absurd hma h1
    | critical => simp
    | ok hm =>
      obtain ⟨_, g⟩ := h2 hm hma
      have hsz : hm.size = h.size := g.same.size
      obtain ⟨h1, r, hs, inv⟩ := sweep_spec (h := hm) g.same.freelist (by rw [g.same.numAlloc, hsz]) (by
        intro i hi _
        rw [g.same.content]
        exact hplain i (by rw [← hsz]; exact hi))
      simp [hs]

theorem gc_ok {h h' : Heap} {n : Nat} {pre glob : List Val} {ctxs : List CtxRoots} {rel : List Release}
    (hw : WF h) (hcap : 0 < h.gcCap) (ho : RootsOK h pre glob ctxs)
    (hplain : ∀ i < h.size, ¬ Reachable h (rootsOf h pre glob ctxs) i → PlainContent (h.cells i).content)
    (hgc : gc n h pre glob ctxs = some (.ok (h', rel))) (hd : h'.dropped = false) :
    ∃ hm h1, markAll n h pre glob ctxs = some (.ok hm) ∧ hm.size = h.size ∧ hm.consts = h.consts ∧
      (∀ i, (hm.cells i).content = (h.cells i).content) ∧ (∀ i < h.size, (hm.cells i).index = 0) ∧
      (∀ i, h.size ≤ i → hm.cells i = h.cells i) ∧
      (∀ i, (hm.cells i).mark = true ↔ Reachable h (rootsOf h pre glob ctxs) i) ∧
      hm.dropped = false ∧ hm.gcCap = h.gcCap ∧
      SweepInv hm hm.size h1 rel ∧ h' = newFreelistLength h1 := by
  rw [gc_eq] at hgc
  cases hma : markAll n h pre glob ctxs with
  | none => rw [hma] at hgc; simp at hgc
  | some o =>
    rw [hma] at hgc
    cases o with
    | ub => simp at hgc
    | critical => simp at hgc
    | ok hm =>
      simp only at hgc
      obtain ⟨_, g⟩ := (((markAll_spec hw hcap ho).1 n).2 hm hma)
      -- the sweep keeps the ghost flag
      have hdm : hm.dropped = false := by
        cases hs : sweep hm with
        | none => rw [hs] at hgc; simp at hgc
        | some p =>
          obtain ⟨h1, r⟩ := p
          rw [hs] at hgc
          simp only [Option.some.injEq, Out.ok.injEq, Prod.mk.injEq] at hgc
          rw [← sweepTo_dropped _ hm h1 r hs, ← hd, ← hgc.1]; rfl
      have hmark := marked_iff_reachable hw ho g hdm
      have hfl : hm.freelist = nil := g.same.freelist
      have hsz : hm.size = h.size := g.same.size
      have hna : hm.numAlloc = hm.size := by rw [g.same.numAlloc, hsz]
      have hcont : ∀ i, (hm.cells i).content = (h.cells i).content := g.same.content
      obtain ⟨h1, r, hs, inv⟩ := sweep_spec hfl hna (by
        intro i hi hmi
        rw [hcont]
        refine hplain i (by rw [← hsz]; exact hi) ?_
        rw [← hmark]; simp [hmi])
      rw [hs] at hgc
      simp only [Option.some.injEq, Out.ok.injEq, Prod.mk.injEq] at hgc
      obtain ⟨rfl, rfl⟩ := hgc
      exact ⟨hm, h1, rfl, hsz, g.same.consts, hcont, (g.comp hdm).2.2, g.same.outside, hmark, hdm,
        g.same.gcCap, inv, rfl⟩

end Verif.Heap
