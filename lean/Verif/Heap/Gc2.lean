import Verif.Heap.Gc

/- Composition of mark functions, the sweep, and the whole collection. -/

namespace Verif.Heap

def none' : Nat → Prop := fun _ => False

/-- A collector function that marks the values `V` (and what they reach). -/
structure Marks (h0 : Heap) (R : Nat → Prop) (F : Nat → Heap → Option (Out Heap)) (V : Val → Prop) :
    Prop where
  ok : ∀ h D, GInv h0 R none' D h → ∀ n, F n h ≠ some .ub ∧ ∀ h', F n h = some (.ok h') →
    GInv h0 R none' (fun v => D v ∨ V v) h' ∧ (h.dropped = true → h'.dropped = true)
  settles : ArraysRanked h0 → ∀ h D, GInv h0 R none' D h → Settles (fun n => F n h)
  room : ∀ b, Roomy h0 b → ∀ h D, GInv h0 R none' D h → h.dropped = false → ∀ n,
    (b = true → F n h ≠ some .critical) ∧ ∀ h', F n h = some (.ok h') → h'.dropped = false

theorem Marks.pure {h0 : Heap} {R : Nat → Prop} :
    Marks h0 R (fun _ h => some (.ok h)) (fun _ => False) := by
  refine ⟨fun h D g n => ⟨by simp, ?_⟩, fun _ h D _ => ⟨0, .ok h, fun _ _ => rfl⟩,
    fun b _ h D _ hd n => ⟨by simp, by rintro h' hh; simp at hh; rw [← hh]; exact hd⟩⟩
  intro h' hh
  simp only [Option.some.injEq, Out.ok.injEq] at hh
  subst hh
  exact ⟨g.mapD (by rintro v (h | h); exact h; exact h.elim), id⟩

theorem Marks.seq {h0 : Heap} {R : Nat → Prop} {F G : Nat → Heap → Option (Out Heap)}
    {V W : Val → Prop} (hF : Marks h0 R F V) (hG : Marks h0 R G W) :
    Marks h0 R (fun n h => andThen (F n h) (G n)) (fun v => V v ∨ W v) := by
  refine ⟨fun h D g n => ?_, fun hr h D g => ?_, fun b hb h D g hd n => ?_⟩
  · obtain ⟨f1, f2⟩ := hF.ok h D g n
    cases hf : F n h with
    | none => simp [andThen]
    | some o =>
      cases o with
      | ub => exact absurd hf f1
      | critical => simp [andThen]
      | ok h1 =>
        obtain ⟨g1, d1⟩ := f2 h1 hf
        obtain ⟨e1, e2⟩ := hG.ok h1 _ g1 n
        refine ⟨e1, fun h' hh => ?_⟩
        obtain ⟨g2, d2⟩ := e2 h' hh
        refine ⟨g2.mapD ?_, fun hd => d2 (d1 hd)⟩
        rintro v (h | h | h)
        · exact Or.inl (Or.inl h)
        · exact Or.inl (Or.inr h)
        · exact Or.inr h
  · refine settles_andThen (hF.settles hr h D g) (fun n h1 h1e => ?_)
    obtain ⟨g1, _⟩ := (hF.ok h D g n).2 h1 h1e
    exact hG.settles hr h1 _ g1
  · obtain ⟨f1, f2⟩ := hF.ok h D g n
    obtain ⟨r1, r2⟩ := hF.room b hb h D g hd n
    cases hf : F n h with
    | none => simp [andThen]
    | some o =>
      cases o with
      | ub => exact absurd hf f1
      | critical =>
        rw [hf] at r1
        simp [andThen] at r1 ⊢
        exact r1
      | ok h1 =>
        exact hG.room b hb h1 _ (f2 h1 hf).1 (r2 h1 hf) n

theorem Marks.weaken {h0 : Heap} {R : Nat → Prop} {F : Nat → Heap → Option (Out Heap)}
    {V W : Val → Prop} (hF : Marks h0 R F V) (hVW : ∀ v, W v → V v) : Marks h0 R F W := by
  refine ⟨fun h D g n => ⟨(hF.ok h D g n).1, fun h' hh => ?_⟩, hF.settles, hF.room⟩
  obtain ⟨g1, d1⟩ := (hF.ok h D g n).2 h' hh
  exact ⟨g1.mapD (fun v hv => hv.imp id (hVW v)), d1⟩

theorem marks_phase {h0 : Heap} {R : Nat → Prop} (hw : Typed h0) (hR : RClosed h0 R)
    (hcap : 0 < h0.gcCap) {root : Val} (hok : OkRef h0 root) (hRr : ∀ j, PointsTo root j → R j) :
    Marks h0 R (fun n h => markPhase n h root) (fun v => v = root) := by
  refine ⟨fun h D g n => ?_, fun hr h D g => markPhase_settles hw hR hr g hok hRr,
    fun b hb h D g hd n => markPhase_room hw hR hb g hd hok hRr n⟩
  obtain ⟨p1, p2⟩ := markPhase_inv (P := none') hw hR hcap (g.weaken (fun j hj => hj.elim)) hok hRr n
  exact ⟨p1, fun h' hh => ⟨(p2 h' hh).1, (p2 h' hh).2.1⟩⟩

theorem marks_env {h0 : Heap} {R : Nat → Prop} (hw : Typed h0) (hR : RClosed h0 R)
    (hcap : 0 < h0.gcCap) {env : Val} (hok : EnvOK h0 env) (hRr : ∀ j, PointsTo env j → R j) :
    Marks h0 R (fun n h => markEnv n n h env) (fun v => v = env) := by
  refine ⟨fun h D g n => ?_, fun hr h D g => ?_, fun b hb h D g hd n =>
    markEnv_room hw hR hcap hb hok n n h D hRr (g.weaken (fun j hj => hj.elim)) hd⟩
  · exact markEnv_inv hw hR hcap hok n n h D hRr (g.weaken (fun j hj => hj.elim))
  · obtain ⟨k, r, hk⟩ := markEnv_settles hw hR hcap hr hok h D hRr (g.weaken (fun j hj => hj.elim))
    exact ⟨k, r, fun n hn => hk n n hn hn⟩

theorem markRoots_cons (n : Nat) (h : Heap) (v : Val) (vs : List Val) :
    markRoots n h (v :: vs) = andThen (markPhase n h v) (fun h => markRoots n h vs) := by
  unfold andThen; conv => lhs; unfold markRoots

theorem marks_roots {h0 : Heap} {R : Nat → Prop} (hw : Typed h0) (hR : RClosed h0 R)
    (hcap : 0 < h0.gcCap) {vs : List Val} (hok : ∀ v ∈ vs, OkRef h0 v)
    (hRr : ∀ v ∈ vs, ∀ j, PointsTo v j → R j) :
    Marks h0 R (fun n h => markRoots n h vs) (fun v => v ∈ vs) := by
  induction vs with
  | nil => exact Marks.pure.weaken (by simp)
  | cons x xs ih =>
    have h1 := marks_phase hw hR hcap (hok x (by simp)) (hRr x (by simp))
    have h2 := ih (fun v hv => hok v (by simp [hv])) (fun v hv => hRr v (by simp [hv]))
    simp only [markRoots_cons]
    exact (h1.seq h2).weaken (by simp)

theorem aux_same {h0 h : Heap} (hs : Same h0 h) : auxOk h = inHeap h0 := by
  funext v; cases v <;> simp [auxOk, inHeap, hs.size]

theorem marks_aux {h0 : Heap} {R : Nat → Prop} (hw : Typed h0) (hR : RClosed h0 R)
    (hcap : 0 < h0.gcCap) {vs : List Val} (hok : ∀ v ∈ vs.filter (inHeap h0), OkRef h0 v)
    (hRr : ∀ v ∈ vs.filter (inHeap h0), ∀ j, PointsTo v j → R j) :
    Marks h0 R (fun n h => markAux n h vs) (fun v => v ∈ vs.filter (inHeap h0)) := by
  have hm := marks_roots hw hR hcap hok hRr
  refine ⟨fun h D g n => ?_, fun hr h D g => ?_, fun b hb h D g hd n => ?_⟩
  · unfold markAux; rw [aux_same g.same]; exact hm.ok h D g n
  · unfold markAux; rw [aux_same g.same]; exact hm.settles hr h D g
  · unfold markAux; rw [aux_same g.same]; exact hm.room b hb h D g hd n

theorem marks_context {h0 : Heap} {R : Nat → Prop} (hw : Typed h0) (hR : RClosed h0 R)
    (hcap : 0 < h0.gcCap) {c : CtxRoots} (he : EnvOK h0 c.env)
    (hregs : OkRef h0 c.exp ∧ OkRef h0 c.program ∧ OkRef h0 c.r)
    (hmail : ∀ v ∈ c.mailbox, OkRef h0 v) (hst : ∀ v ∈ c.stack, inHeap h0 v = true → OkRef h0 v)
    (hRr : ∀ v ∈ c.env :: c.exp :: c.program :: c.r :: (c.mailbox ++ c.stack.filter (inHeap h0)),
      ∀ j, PointsTo v j → R j) :
    Marks h0 R (fun n h => markContext n h c)
      (fun v => v ∈ c.env :: c.exp :: c.program :: c.r :: (c.mailbox ++ c.stack.filter (inHeap h0))) := by
  have h1 := marks_env hw hR hcap he (hRr c.env (by simp))
  have h2 : Marks h0 R (fun n h => markRoots n h [c.exp, c.program, c.r])
      (fun v => v ∈ [c.exp, c.program, c.r]) := by
    refine marks_roots hw hR hcap ?_ (fun v hv => hRr v ?_)
    · intro v hv
      simp only [List.mem_cons, List.not_mem_nil, or_false] at hv
      rcases hv with rfl | rfl | rfl
      · exact hregs.1
      · exact hregs.2.1
      · exact hregs.2.2
    · simp only [List.mem_cons, List.not_mem_nil, or_false] at hv ⊢; grind
  have h3 := marks_roots hw hR hcap hmail (fun v hv => hRr v (by simp [hv]))
  have h4 : Marks h0 R (fun n h => markAux n h c.stack) (fun v => v ∈ c.stack.filter (inHeap h0)) := by
    refine marks_aux hw hR hcap ?_ (fun v hv => hRr v (by simp at hv ⊢; simp [hv]))
    intro v hv; rw [List.mem_filter] at hv; exact hst v hv.1 hv.2
  have := h1.seq (h2.seq (h3.seq h4))
  refine Marks.weaken this ?_
  intro v hv
  simp only [List.mem_cons, List.mem_append, List.not_mem_nil, or_false] at hv ⊢
  grind

theorem marks_contexts {h0 : Heap} {R : Nat → Prop} (hw : Typed h0) (hR : RClosed h0 R)
    (hcap : 0 < h0.gcCap) {cs : List CtxRoots} (he : ∀ c ∈ cs, EnvOK h0 c.env)
    (hregs : ∀ c ∈ cs, OkRef h0 c.exp ∧ OkRef h0 c.program ∧ OkRef h0 c.r)
    (hmail : ∀ c ∈ cs, ∀ v ∈ c.mailbox, OkRef h0 v)
    (hst : ∀ c ∈ cs, ∀ v ∈ c.stack, inHeap h0 v = true → OkRef h0 v)
    (hRr : ∀ c ∈ cs, ∀ v ∈ c.env :: c.exp :: c.program :: c.r :: (c.mailbox ++ c.stack.filter (inHeap h0)),
      ∀ j, PointsTo v j → R j) :
    Marks h0 R (fun n h => markContexts n h cs)
      (fun v => v ∈ cs.flatMap fun c =>
        c.env :: c.exp :: c.program :: c.r :: (c.mailbox ++ c.stack.filter (inHeap h0))) := by
  induction cs with
  | nil => exact Marks.pure.weaken (by simp)
  | cons c cs ih =>
    have h1 := marks_context hw hR hcap (he c (by simp)) (hregs c (by simp)) (hmail c (by simp))
      (hst c (by simp)) (hRr c (by simp))
    have h2 := ih (fun c h => he c (by simp [h])) (fun c h => hregs c (by simp [h]))
      (fun c h => hmail c (by simp [h])) (fun c h => hst c (by simp [h])) (fun c h => hRr c (by simp [h]))
    exact (h1.seq h2).weaken (fun v hv => by rw [List.flatMap_cons, List.mem_append] at hv; exact hv)

theorem marks_globals {h0 : Heap} {R : Nat → Prop} (hw : Typed h0) (hR : RClosed h0 R)
    (hcap : 0 < h0.gcCap) {vs : List Val} (hok : ∀ v ∈ vs, EnvOK h0 v)
    (hRr : ∀ v ∈ vs, ∀ j, PointsTo v j → R j) :
    Marks h0 R (fun n h => markGlobals n h vs) (fun v => v ∈ vs) := by
  induction vs with
  | nil => exact Marks.pure.weaken (by simp)
  | cons x xs ih =>
    have h1 := marks_env hw hR hcap (hok x (by simp)) (hRr x (by simp))
    have h2 := ih (fun v hv => hok v (by simp [hv])) (fun v hv => hRr v (by simp [hv]))
    exact (h1.seq h2).weaken (by simp)

/-! ### Sweep -/

/-- The cells below `n` that are not marked, highest index first: the order of the free list. -/
def unmarkedTo (h : Heap) : Nat → List Nat
  | 0 => []
  | n + 1 => if (h.cells n).mark then unmarkedTo h n else n :: unmarkedTo h n

/-- The free list pointer for a list of cells. -/
def headOf : List Nat → Val
  | [] => nil
  | i :: _ => .ptr .cons false i

theorem mem_unmarkedTo {h : Heap} {n i : Nat} :
    i ∈ unmarkedTo h n ↔ i < n ∧ (h.cells i).mark = false := by
  induction n with
  | zero => simp [unmarkedTo]
  | succ n ih =>
    simp only [unmarkedTo]
    split
    · next hm =>
      rw [ih]
      constructor
      · rintro ⟨a, b⟩; exact ⟨by omega, b⟩
      · rintro ⟨a, b⟩
        refine ⟨?_, b⟩
        rcases Nat.lt_or_eq_of_le (Nat.lt_succ_iff.mp a) with h | rfl
        · exact h
        · rw [hm] at b; cases b
    · next hm =>
      rw [List.mem_cons, ih]
      constructor
      · rintro (rfl | ⟨a, b⟩)
        · exact ⟨by omega, by simpa using hm⟩
        · exact ⟨by omega, b⟩
      · rintro ⟨a, b⟩
        rcases Nat.lt_or_eq_of_le (Nat.lt_succ_iff.mp a) with h | rfl
        · exact Or.inr ⟨h, b⟩
        · exact Or.inl rfl

theorem nodup_unmarkedTo (h : Heap) (n : Nat) : (unmarkedTo h n).Nodup := by
  induction n with
  | zero => simp [unmarkedTo]
  | succ n ih =>
    simp only [unmarkedTo]
    split
    · exact ih
    · rw [List.nodup_cons]
      refine ⟨fun hm => ?_, ih⟩
      rw [mem_unmarkedTo] at hm; omega

theorem length_unmarkedTo_le (h : Heap) (n : Nat) : (unmarkedTo h n).length ≤ n := by
  induction n with
  | zero => simp [unmarkedTo]
  | succ n ih =>
    simp only [unmarkedTo]
    split
    · omega
    · simp only [List.length_cons]; omega

/-- The objects that sweeping up to `n` destroys, in index order. -/
def releasesTo (h : Heap) : Nat → List Release
  | 0 => []
  | n + 1 => releasesTo h n ++ (if (h.cells n).mark then [] else (h.cells n).content.owned)

theorem releaseOf_owned {c : Content} (hp : PlainContent c) :
    ∃ b, releaseOf c = some (c.owned, b) := by
  cases c with
  | pair a d =>
    cases d with
    | sym s =>
      simp only [PlainContent] at hp
      refine ⟨false, ?_⟩
      simp only [releaseOf, Content.owned]
      rw [if_neg (fun h => hp (by grind)), if_neg (fun h => hp (by grind))]
    | _ => exact ⟨false, rfl⟩
  | channel ch dep =>
    cases ch with
    | none => exact absurd rfl hp
    | some x => obtain ⟨a, b⟩ := x; exact ⟨_, rfl⟩
  | _ => exact ⟨_, rfl⟩

/-- State of the sweep after `n` cells. -/
structure SweepInv (h : Heap) (n : Nat) (h' : Heap) (rel : List Release) : Prop where
  size : h'.size = h.size
  consts : h'.consts = h.consts
  above : ∀ i, n ≤ i → h'.cells i = h.cells i
  kept : ∀ i < n, (h.cells i).mark = true → h'.cells i = { h.cells i with mark := false }
  freed : ∀ i < n, (h.cells i).mark = false → (∃ d, h'.cells i = { content := .pair recovered d })
  chain : FreeChain h' h'.freelist (unmarkedTo h n)
  count : h'.numAlloc + (unmarkedTo h n).length = h.size
  recov : h'.gcRecovered = h.gcRecovered + (unmarkedTo h n).length
  rels : rel = releasesTo h n
  drop : h'.dropped = h.dropped
  cap : h'.gcCap = h.gcCap

theorem freeChain_congr {h h' : Heap} (hs : h'.size = h.size) : ∀ {l : List Nat} {v : Val},
    (∀ i ∈ l, (h'.cells i).content = (h.cells i).content) → FreeChain h v l → FreeChain h' v l := by
  intro l
  induction l with
  | nil => intro v _ h; exact h
  | cons x xs ih =>
    rintro v hc ⟨hv, hx, a, d, hcx, hrest⟩
    exact ⟨hv, by rw [hs]; exact hx, a, d, by rw [hc x (by simp)]; exact hcx,
      ih (fun i hi => hc i (by simp [hi])) hrest⟩

theorem sweepTo_spec {h : Heap} (hfl : h.freelist = nil) (hna : h.numAlloc = h.size)
    (hp : ∀ i < h.size, (h.cells i).mark = false → PlainContent (h.cells i).content) :
    ∀ n, n ≤ h.size → ∃ h' rel, sweepTo n h = some (h', rel) ∧ SweepInv h n h' rel := by
  intro n
  induction n with
  | zero =>
    intro _
    exact ⟨h, [], rfl, rfl, rfl, fun _ _ => rfl, fun i hi => absurd hi (by omega),
      fun i hi => absurd hi (by omega), hfl, by simp [unmarkedTo, hna], by simp [unmarkedTo], rfl, rfl, rfl⟩
  | succ n ih =>
    intro hn
    obtain ⟨h1, rel, he, inv⟩ := ih (by omega)
    simp only [sweepTo, he]
    have hcell := inv.above n (Nat.le_refl _)
    cases hm : (h.cells n).mark with
    | true =>
      refine ⟨h1.setCell n { h.cells n with mark := false }, rel, ?_, ?_⟩
      · simp [sweepStep, hcell, hm]
      · refine ⟨inv.size, inv.consts, ?_, ?_, ?_, ?_, ?_, ?_, ?_, inv.drop, inv.cap⟩
        · intro i hi
          rw [setCell_cells, if_neg (by omega)]; exact inv.above i (by omega)
        · intro i hi him
          rw [setCell_cells]
          split
          · next h => subst h; rfl
          · exact inv.kept i (by omega) him
        · intro i hi him
          have : i ≠ n := by rintro rfl; rw [hm] at him; cases him
          rw [setCell_cells, if_neg this]; exact inv.freed i (by omega) him
        · simp only [unmarkedTo, hm, if_true]
          refine freeChain_congr (h := h1) (by rfl) ?_ inv.chain
          intro i hi
          rw [mem_unmarkedTo] at hi
          have hin : i ≠ n := by omega
          simp only [setCell_cells, if_neg hin]
        · simpa [unmarkedTo, hm] using inv.count
        · simpa [unmarkedTo, hm, Heap.setCell] using inv.recov
        · simp [releasesTo, hm, inv.rels]
    | false =>
      obtain ⟨b, hb⟩ := releaseOf_owned (hp n (by omega) hm)
      have hc := inv.count
      have hl := length_unmarkedTo_le h n
      refine ⟨_, _, by simp [sweepStep, hcell, hm, hb]; exact ⟨rfl, rfl⟩, ?_⟩
      refine ⟨inv.size, inv.consts, ?_, ?_, ?_, ?_, ?_, ?_, ?_, inv.drop, inv.cap⟩
      · intro i hi
        simp only [setCell_cells]
        rw [if_neg (by omega)]; exact inv.above i (by omega)
      · intro i hi him
        have : i ≠ n := by rintro rfl; rw [hm] at him; cases him
        simp only [setCell_cells]
        rw [if_neg this]; exact inv.kept i (by omega) him
      · intro i hi him
        simp only [setCell_cells]
        split
        · exact ⟨_, rfl⟩
        · exact inv.freed i (by omega) him
      · simp only [unmarkedTo, hm, Bool.false_eq_true, if_false]
        refine ⟨rfl, by have := inv.size; simp only; omega, recovered, h1.freelist, by simp, ?_⟩
        refine freeChain_congr (h := h1) (by rfl) ?_ inv.chain
        intro i hi
        rw [mem_unmarkedTo] at hi
        simp only [setCell_cells]
        rw [if_neg (by omega)]
      · simp only [unmarkedTo, hm, Bool.false_eq_true, if_false, List.length_cons, setCell_numAlloc]
        omega
      · simp only [unmarkedTo, hm, Bool.false_eq_true, if_false, List.length_cons]
        have := inv.recov
        simp only [Heap.setCell]; omega
      · simp [releasesTo, hm, inv.rels]

theorem sweep_spec {h : Heap} (hfl : h.freelist = nil) (hna : h.numAlloc = h.size)
    (hp : ∀ i < h.size, (h.cells i).mark = false → PlainContent (h.cells i).content) :
    ∃ h' rel, sweep h = some (h', rel) ∧ SweepInv h h.size h' rel :=
  sweepTo_spec hfl hna hp h.size (Nat.le_refl _)

end Verif.Heap
