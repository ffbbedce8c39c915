import Verif.Heap.Mark2
import Verif.Heap.Fit

/- From the mark phase to the marking of all roots. -/

namespace Verif.Heap

def PointsTo (v : Val) (j : Nat) : Prop := ∃ t, v = .ptr t false j

/-- State between mark phases: `R` is a closed set containing everything marked; `P` the cells
somebody still has to mark; `D` the roots already done. -/
structure GInv (h0 : Heap) (R P : Nat → Prop) (D : Val → Prop) (h : Heap) : Prop where
  same : Same h0 h
  sound : ∀ i, (h.cells i).mark = true → R i
  arr : ∀ i < h0.size, (h.cells i).mark = false → ∀ hd da es,
    (h0.cells i).content = .lispArr hd da es →
    (h.cells i).index < es.length ∧
    ∀ k < (h.cells i).index, ∀ t j, es[k]? = some (.ptr t false j) → (h.cells j).mark = true
  comp : h.dropped = false →
    (∀ i < h0.size, (h.cells i).mark = true → ∀ t j,
      Val.ptr t false j ∈ (h0.cells i).content.refs → (h.cells j).mark = true ∨ P j) ∧
    (∀ v, D v → ∀ t j, v = .ptr t false j → (h.cells j).mark = true) ∧
    (∀ i < h0.size, (h.cells i).index = 0)

theorem GInv.weaken {h0 h : Heap} {R P P' : Nat → Prop} {D : Val → Prop} (g : GInv h0 R P D h)
    (hP : ∀ j, P j → P' j) : GInv h0 R P' D h :=
  ⟨g.same, g.sound, g.arr, fun hd => ⟨fun i hi hm t j hj =>
    ((g.comp hd).1 i hi hm t j hj).imp id (hP j), (g.comp hd).2⟩⟩

theorem RClosed.same {h0 h : Heap} {R : Nat → Prop} (hs : Same h0 h) (hR : RClosed h0 R) : RClosed h R := by
  intro i hi t j hj; rw [hs.content] at hj; exact hR i hi t j hj

theorem initial_safe {h0 h : Heap} {R P : Nat → Prop} {D : Val → Prop} {root : Val}
    (g : GInv h0 R P D h) (hroot : OkRef h0 root) (hRroot : ∀ j, PointsTo root j → R j) :
    MSafe h R { h := h, stack := [root], ctl := none } := by
  refine ⟨Same.refl _, fun i hi => hi, fun i hi => Or.inl hi, ?_, ?_⟩
  · intro v hv
    simp [MSt.pending] at hv
    subst hv
    exact ⟨(OkRef.same g.same).2 hroot, fun t j h => hRroot j ⟨t, h⟩⟩
  · intro i hi hm hd da es hc
    rw [g.same.content] at hc
    exact g.arr i (by rw [← g.same.size]; exact hi) hm hd da es hc

theorem markPhase_inv {h0 h : Heap} {R P : Nat → Prop} {D : Val → Prop} {root : Val}
    (hw : Typed h0) (hR : RClosed h0 R) (hcap : 0 < h0.gcCap)
    (g : GInv h0 R (fun j => P j ∨ PointsTo root j) D h)
    (hroot : OkRef h0 root) (hRroot : ∀ j, PointsTo root j → R j) (n : Nat) :
    markPhase n h root ≠ some .ub ∧ ∀ h', markPhase n h root = some (.ok h') →
      GInv h0 R P (fun v => D v ∨ v = root) h' ∧ (h.dropped = true → h'.dropped = true) ∧
      (∀ i, (h.cells i).mark = true → (h'.cells i).mark = true) := by
  unfold markPhase
  have hcap' : 0 < h.gcCap := by rw [g.same.gcCap]; exact hcap
  rw [if_neg (by omega)]
  have hw' := hw.same g.same
  have hR' := hR.same g.same
  have safe := initial_safe g hroot hRroot
  have comp : h.dropped = false → MComp h P root { h := h, stack := [root], ctl := none } := by
    intro hd
    obtain ⟨c1, c2, c3⟩ := g.comp hd
    refine ⟨?_, ?_, ?_⟩
    · intro i hi hm t j hj
      rw [g.same.content] at hj
      rcases c1 i (by rw [← g.same.size]; exact hi) hm t j hj with h | h | ⟨t', h⟩
      · exact Or.inl h
      · exact Or.inr (Or.inl h)
      · exact Or.inr (Or.inr ⟨t', by simp [MSt.pending, h]⟩)
    · intro t j hj; right; exact ⟨t, by simp [MSt.pending, hj]⟩
    · intro i hi hx; exact absurd (c3 i (by rw [← g.same.size]; exact hi)) hx
  obtain ⟨h1, h2⟩ := markRun_spec (P := P) (root := root) hw' hR' hcap' n _ safe comp
  refine ⟨h1, fun h' hh => ?_⟩
  obtain ⟨same, mono, sound, arr, cmp⟩ := h2 h' hh
  have hdr : h.dropped = true → h'.dropped = true := fun hd => markRun_dropped n _ h' hd hh
  refine ⟨⟨g.same.trans same, ?_, ?_, ?_⟩, hdr, mono⟩
  · intro i hi
    rcases sound i hi with h | h
    · exact g.sound i h
    · exact h
  · intro i hi hm hd da es hc
    exact arr i (by rw [g.same.size]; exact hi) hm hd da es (by rw [g.same.content]; exact hc)
  · intro hd
    obtain ⟨c1, c2, c3⟩ := cmp hd
    have hd0 : h.dropped = false := by
      cases hx : h.dropped with
      | false => rfl
      | true => rw [hdr hx] at hd; cases hd
    refine ⟨?_, ?_, ?_⟩
    · intro i hi hm t j hj
      exact c1 i (by rw [g.same.size]; exact hi) hm t j (by rw [g.same.content]; exact hj)
    · intro v hv t j hvj
      rcases hv with hv | hv
      · exact mono j ((g.comp hd0).2.1 v hv t j hvj)
      · exact c2 t j (by rw [← hv, hvj])
    · intro i hi; exact c3 i (by rw [g.same.size]; exact hi)

theorem workTo_congr {h h' : Heap} (hc : ∀ i, (h'.cells i).content = (h.cells i).content) :
    ∀ n, workTo h' n = workTo h n := by
  intro n
  induction n with
  | zero => rfl
  | succ n ih => simp only [workTo, hc, ih]

/-- No push fails: `critical` cannot come out, and the ghost flag stays down. -/
theorem markPhase_fits {h0 h : Heap} {R P : Nat → Prop} {D : Val → Prop} {root : Val}
    (hw : Typed h0) (hR : RClosed h0 R) (hf : StackFits h0)
    (g : GInv h0 R P D h) (hd : h.dropped = false)
    (hroot : OkRef h0 root) (hRroot : ∀ j, PointsTo root j → R j) (n : Nat) :
    markPhase n h root ≠ some .critical ∧ ∀ h', markPhase n h root = some (.ok h') → h'.dropped = false := by
  unfold markPhase
  split
  · simp
  · obtain ⟨rank, K, hr, hcap⟩ := hf
    have hr' : Ranks h rank K := by
      constructor
      · intro i hi hd da es hc
        rw [g.same.content] at hc
        exact (hr i (by rw [← g.same.size]; exact hi) hd da es hc).1
      · intro i hi hd da es j hc
        rw [g.same.content] at hc
        exact (hr i (by rw [← g.same.size]; exact hi) hd da es hc).2 j
    have safe := initial_safe g hroot hRroot
    refine markRun_fits (C := (K + 1) * workTo h0 h0.size) (hw.same g.same) (hR.same g.same) hr'
      (by rw [g.same.gcCap]; exact hcap) n _ safe ⟨1, ?_, by simp [slack]⟩ hd
    have := Nat.mul_le_mul_left (K + 1) (weight_le_work g.same h0.size)
    rw [← g.same.size] at this
    rw [← g.same.size]
    simp only [List.length_cons, List.length_nil]
    omega

theorem markPhase_noArrays {h0 h : Heap} {R P : Nat → Prop} {D : Val → Prop} {root : Val}
    (hw : Typed h0) (hR : RClosed h0 R) (hn : NoArrays h0)
    (g : GInv h0 R P D h) (hd : h.dropped = false)
    (hroot : OkRef h0 root) (hRroot : ∀ j, PointsTo root j → R j) (n : Nat) :
    ∀ h', markPhase n h root = some (.ok h') → h'.dropped = false := by
  unfold markPhase
  split
  · simp
  · refine markRun_noArrays (hw.same g.same) (hR.same g.same) ?_ n _ (initial_safe g hroot hRroot) hd
    intro i hi hd da es
    rw [g.same.content]
    exact hn i (by rw [← g.same.size]; exact hi) hd da es

/-- The collector cannot drop a push unnoticed; with `b` set it also cannot run out of stack. -/
def Roomy (h0 : Heap) (b : Bool) : Prop := StackFits h0 ∨ (b = false ∧ NoArrays h0)

theorem markPhase_room {h0 h : Heap} {R P : Nat → Prop} {D : Val → Prop} {root : Val} {b : Bool}
    (hw : Typed h0) (hR : RClosed h0 R) (hf : Roomy h0 b)
    (g : GInv h0 R P D h) (hd : h.dropped = false)
    (hroot : OkRef h0 root) (hRroot : ∀ j, PointsTo root j → R j) (n : Nat) :
    (b = true → markPhase n h root ≠ some .critical) ∧
    ∀ h', markPhase n h root = some (.ok h') → h'.dropped = false := by
  rcases hf with hf | ⟨hb, hf⟩
  · have := markPhase_fits hw hR hf g hd hroot hRroot n
    exact ⟨fun _ => this.1, this.2⟩
  · exact ⟨fun h => (by rw [hb] at h; cases h), markPhase_noArrays hw hR hf g hd hroot hRroot n⟩

/-- A fuelled computation that settles. -/
def Settles (f : Nat → Option (Out Heap)) : Prop := ∃ n0 r, ∀ n, n0 ≤ n → f n = some r

theorem markPhase_settles {h0 h : Heap} {R P : Nat → Prop} {D : Val → Prop} {root : Val}
    (hw : Typed h0) (hR : RClosed h0 R) (hr : ArraysRanked h0) (g : GInv h0 R P D h)
    (hroot : OkRef h0 root) (hRroot : ∀ j, PointsTo root j → R j) :
    Settles (fun n => markPhase n h root) := by
  unfold markPhase
  split
  · exact ⟨0, .ub, fun _ _ => rfl⟩
  · have hr' : ArraysRanked h := by
      obtain ⟨rank, hrank⟩ := hr
      refine ⟨rank, fun i hi hd da es j hc hj => ?_⟩
      rw [g.same.content] at hc
      exact hrank i (by rw [← g.same.size]; exact hi) hd da es j hc hj
    obtain ⟨n, r, hn⟩ := markRun_terminates (hw.same g.same) (hR.same g.same) hr' _
      (initial_safe g hroot hRroot)
    refine ⟨n, r, fun k hk => ?_⟩
    obtain ⟨d, rfl⟩ := Nat.exists_eq_add_of_le hk
    exact markRun_fuel n d _ r hn

theorem settles_andThen {f : Nat → Option (Out Heap)} {g : Nat → Heap → Option (Out Heap)}
    (hf : Settles f) (hg : ∀ n h, f n = some (.ok h) → Settles (fun n => g n h)) :
    Settles (fun n => andThen (f n) (g n)) := by
  obtain ⟨n0, r, hn⟩ := hf
  cases r with
  | ub => exact ⟨n0, .ub, fun n h => by simp [hn n h, andThen]⟩
  | critical => exact ⟨n0, .critical, fun n h => by simp [hn n h, andThen]⟩
  | ok h =>
    obtain ⟨n1, r, h1⟩ := hg n0 h (hn n0 (Nat.le_refl _))
    refine ⟨max n0 n1, r, fun n hk => ?_⟩
    change andThen (f n) (g n) = some r
    rw [hn n (by omega)]
    exact h1 n (by omega)

/-! ### Environments -/

theorem setMark_inv {h0 h : Heap} {R P P' : Nat → Prop} {D : Val → Prop} {i : Nat} {a d : Val} {t : PTy}
    (g : GInv h0 R P D h) (hi : i < h0.size) (hRi : R i) (hc : (h0.cells i).content = .pair a d)
    (hP : ∀ j, P j → j = i ∨ P' j)
    (hrefs : ∀ j, PointsTo a j ∨ PointsTo d j → P' j) :
    GInv h0 R P' (fun v => D v ∨ v = .ptr t false i) (setMark h (.ptr t false i)) := by
  have hmk : ∀ j, ((setMark h (.ptr t false i)).cells j).mark = true ↔ j = i ∨ (h.cells j).mark = true := by
    intro j; simp only [setMark, setCell_cells]; split <;> simp_all
  have hix : ∀ j, ((setMark h (.ptr t false i)).cells j).index = (h.cells j).index := by
    intro j; simp only [setMark, setCell_cells]; split <;> simp_all
  refine ⟨same_setCell g.same (by rw [g.same.size]; exact hi) rfl, ?_, ?_, ?_⟩
  · intro j hj; rw [hmk] at hj
    rcases hj with rfl | hj
    · exact hRi
    · exact g.sound j hj
  · intro k hk hkm hd da es hcc
    have hkm' : (h.cells k).mark = false := by
      cases hx : (h.cells k).mark with
      | false => rfl
      | true => rw [(hmk k).2 (Or.inr hx)] at hkm; cases hkm
    have := g.arr k hk hkm' hd da es hcc
    rw [hix]
    exact ⟨this.1, fun l hl t j hj => (hmk j).2 (Or.inr (this.2 l hl t j hj))⟩
  · intro hd
    obtain ⟨c1, c2, c3⟩ := g.comp hd
    refine ⟨?_, ?_, ?_⟩
    · intro k hk hkm t' j hj
      rw [hmk] at hkm
      by_cases hki : k = i
      · subst hki
        rw [hc] at hj
        simp only [Content.refs, List.mem_cons, List.not_mem_nil, or_false] at hj
        right; exact hrefs j (hj.imp (fun h => ⟨t', h.symm⟩) (fun h => ⟨t', h.symm⟩))
      · rcases c1 k hk (hkm.resolve_left hki) t' j hj with h | h
        · exact Or.inl ((hmk j).2 (Or.inr h))
        · rcases hP j h with rfl | h
          · exact Or.inl ((hmk j).2 (Or.inl rfl))
          · exact Or.inr h
    · rintro v (hv | rfl) t' j hvj
      · exact (hmk j).2 (Or.inr (c2 v hv t' j hvj))
      · cases hvj; exact (hmk i).2 (Or.inl rfl)
    · intro k hk; rw [hix]; exact c3 k hk

theorem OkRef.env {h : Heap} {v : Val} (he : EnvOK h v) : OkRef h v := by
  cases he with
  | done hv => cases v <;> simp_all [OkRef, Val.isPtr]
  | bind hi _ hc _ _ _ => exact ⟨hi, ⟨_, _, hc⟩⟩

theorem GInv.mapD {h0 h : Heap} {R P : Nat → Prop} {D D' : Val → Prop} (g : GInv h0 R P D h)
    (hD : ∀ v, D' v → D v) : GInv h0 R P D' h :=
  ⟨g.same, g.sound, g.arr, fun hd => ⟨(g.comp hd).1, fun v hv => (g.comp hd).2.1 v (hD v hv),
    (g.comp hd).2.2⟩⟩

theorem GInv.gcMarked {h0 h : Heap} {R P : Nat → Prop} {D : Val → Prop} (g : GInv h0 R P D h) (k : Nat) :
    GInv h0 R P D { h with gcMarked := k } :=
  ⟨same_marked g.same k, g.sound, g.arr, g.comp⟩

theorem not_points {v : Val} (hv : v.isPtr = false) (j : Nat) : ¬ PointsTo v j := by
  rintro ⟨t, rfl⟩; simp [Val.isPtr] at hv

theorem markEnv_inv {h0 : Heap} {R : Nat → Prop} (hw : Typed h0) (hR : RClosed h0 R)
    (hcap : 0 < h0.gcCap) {env : Val} (he : EnvOK h0 env) :
    ∀ (n fuel : Nat) (h : Heap) (D : Val → Prop), (∀ j, PointsTo env j → R j) →
    GInv h0 R (PointsTo env) D h →
    markEnv fuel n h env ≠ some .ub ∧ ∀ h', markEnv fuel n h env = some (.ok h') →
      GInv h0 R (fun _ => False) (fun v => D v ∨ v = env) h' ∧
      (h.dropped = true → h'.dropped = true) := by
  induction he with
  | @done v hv =>
    intro n fuel h D hRe g
    cases n with
    | zero => simp [markEnv]
    | succ n =>
      simp only [markEnv, hv, Bool.false_eq_true, if_false, ne_eq, Option.some.injEq, Out.ok.injEq]
      refine ⟨by simp, ?_⟩
      rintro h' rfl
      refine ⟨⟨g.same, g.sound, g.arr, fun hd => ⟨?_, ?_, (g.comp hd).2.2⟩⟩, id⟩
      · intro i hi hm t j hj
        rcases (g.comp hd).1 i hi hm t j hj with h | h
        · exact Or.inl h
        · exact absurd h (not_points hv j)
      · rintro v' (hv' | rfl) t j hvj
        · exact (g.comp hd).2.1 v' hv' t j hvj
        · exact absurd ⟨t, hvj⟩ (not_points hv j)
  | @bind i b key val rest hi hb hci hcb hkey hrest ih =>
    intro n fuel h D hRe g
    cases n with
    | zero => simp [markEnv]
    | succ n =>
      have hRi : R i := hRe i ⟨_, rfl⟩
      have hRb : R b := hR i hRi .cons b (by rw [hci]; simp [Content.refs])
      have hRrest : ∀ j, PointsTo rest j → R j := by
        rintro j ⟨t, rfl⟩; exact hR i hRi t j (by rw [hci]; simp [Content.refs])
      have hRval : ∀ j, PointsTo val j → R j := by
        rintro j ⟨t, rfl⟩; exact hR b hRb t j (by rw [hcb]; simp [Content.refs])
      have g1 : GInv h0 R (fun j => j = b ∨ PointsTo rest j) (fun v => D v ∨ v = .ptr .cons false i)
          (setMark h (.ptr .cons false i)) := by
        refine setMark_inv g hi hRi hci ?_ ?_
        · rintro j ⟨t, h⟩; cases h; exact Or.inl rfl
        · rintro j (⟨t, h⟩ | h)
          · cases h; exact Or.inl rfl
          · exact Or.inr h
      have g2 : GInv h0 R (fun j => PointsTo rest j ∨ PointsTo val j)
          (fun v => (D v ∨ v = .ptr .cons false i) ∨ v = .ptr .cons false b)
          (setMark (setMark h (.ptr .cons false i)) (.ptr .cons false b)) := by
        refine setMark_inv g1 hb hRb hcb ?_ ?_
        · rintro j (h | h)
          · exact Or.inl h
          · exact Or.inr (Or.inl h)
        · rintro j (h | h)
          · exact absurd h (not_points hkey j)
          · exact Or.inr h
      have hok : OkRef h0 val := (hw.pair b hb _ _ hcb).2
      obtain ⟨p1, p2⟩ := markPhase_inv (P := PointsTo rest) hw hR hcap g2 hok hRval fuel
      have hb1 : badRef h (.ptr .cons false i) = false := by
        have := g.same.size; simp [badRef]; omega
      have hb2 : badRef (setMark h (.ptr .cons false i)) (.ptr .cons false b) = false := by
        have := g1.same.size; simp [badRef]; omega
      have hc1 : contentOf (setMark h (.ptr .cons false i)) (.ptr .cons false i) =
          some (.pair (.ptr .cons false b) rest) := by
        simp only [contentOf, cellOf, Option.map_some]; rw [g1.same.content, hci]
      have hc2 : contentOf (setMark (setMark h (.ptr .cons false i)) (.ptr .cons false b))
          (.ptr .cons false b) = some (.pair key val) := by
        simp only [contentOf, cellOf, Option.map_some]; rw [g2.same.content, hcb]
      unfold markEnv
      simp only [Val.isPtr, if_true, hb1, Bool.false_eq_true, if_false, hc1, hb2, hc2]
      split
      · next h3 hph =>
        obtain ⟨g3, d3, _⟩ := p2 h3 hph
        obtain ⟨q1, q2⟩ := ih n fuel _ _ hRrest (g3.gcMarked (h3.gcMarked + 2))
        refine ⟨q1, fun h' hh => ?_⟩
        obtain ⟨g4, d4⟩ := q2 h' hh
        refine ⟨g4.mapD ?_, fun hd => d4 (d3 hd)⟩
        rintro v (hv | rfl)
        · exact Or.inl (Or.inl (Or.inl (Or.inl hv)))
        · exact Or.inl (Or.inl (Or.inl (Or.inr rfl)))
      · next hne =>
        refine ⟨p1, fun h' hh => absurd hh (hne h')⟩

theorem markEnv_settles {h0 : Heap} {R : Nat → Prop} (hw : Typed h0) (hR : RClosed h0 R)
    (hcap : 0 < h0.gcCap) (hr : ArraysRanked h0) {env : Val} (he : EnvOK h0 env) :
    ∀ (h : Heap) (D : Val → Prop), (∀ j, PointsTo env j → R j) →
    GInv h0 R (PointsTo env) D h →
    ∃ k r, ∀ fuel n, k ≤ fuel → k ≤ n → markEnv fuel n h env = some r := by
  induction he with
  | @done v hv =>
    intro h D _ _
    refine ⟨1, .ok h, fun fuel n _ hn => ?_⟩
    cases n with
    | zero => omega
    | succ n => simp [markEnv, hv]
  | @bind i b key val rest hi hb hci hcb hkey hrest ih =>
    intro h D hRe g
    have hRi : R i := hRe i ⟨_, rfl⟩
    have hRb : R b := hR i hRi .cons b (by rw [hci]; simp [Content.refs])
    have hRrest : ∀ j, PointsTo rest j → R j := by
      rintro j ⟨t, rfl⟩; exact hR i hRi t j (by rw [hci]; simp [Content.refs])
    have hRval : ∀ j, PointsTo val j → R j := by
      rintro j ⟨t, rfl⟩; exact hR b hRb t j (by rw [hcb]; simp [Content.refs])
    have g1 : GInv h0 R (fun j => j = b ∨ PointsTo rest j) (fun v => D v ∨ v = .ptr .cons false i)
        (setMark h (.ptr .cons false i)) := by
      refine setMark_inv g hi hRi hci ?_ ?_
      · rintro j ⟨t, h⟩; cases h; exact Or.inl rfl
      · rintro j (⟨t, h⟩ | h)
        · cases h; exact Or.inl rfl
        · exact Or.inr h
    have g2 : GInv h0 R (fun j => PointsTo rest j ∨ PointsTo val j)
        (fun v => (D v ∨ v = .ptr .cons false i) ∨ v = .ptr .cons false b)
        (setMark (setMark h (.ptr .cons false i)) (.ptr .cons false b)) := by
      refine setMark_inv g1 hb hRb hcb ?_ ?_
      · rintro j (h | h)
        · exact Or.inl h
        · exact Or.inr (Or.inl h)
      · rintro j (h | h)
        · exact absurd h (not_points hkey j)
        · exact Or.inr h
    have hok : OkRef h0 val := (hw.pair b hb _ _ hcb).2
    have hb1 : badRef h (.ptr .cons false i) = false := by
      have := g.same.size; simp [badRef]; omega
    have hb2 : badRef (setMark h (.ptr .cons false i)) (.ptr .cons false b) = false := by
      have := g1.same.size; simp [badRef]; omega
    have hc1 : contentOf (setMark h (.ptr .cons false i)) (.ptr .cons false i) =
        some (.pair (.ptr .cons false b) rest) := by
      simp only [contentOf, cellOf, Option.map_some]; rw [g1.same.content, hci]
    have hc2 : contentOf (setMark (setMark h (.ptr .cons false i)) (.ptr .cons false b))
        (.ptr .cons false b) = some (.pair key val) := by
      simp only [contentOf, cellOf, Option.map_some]; rw [g2.same.content, hcb]
    obtain ⟨n0, r, hn0⟩ := markPhase_settles hw hR hr g2 hok hRval
    simp only at hn0
    have unf : ∀ fuel n, markEnv fuel (n + 1) h (.ptr .cons false i) =
        match markPhase fuel (setMark (setMark h (.ptr .cons false i)) (.ptr .cons false b)) val with
        | some (.ok h3) => markEnv fuel n { h3 with gcMarked := h3.gcMarked + 2 } rest
        | r => r := by
      intro fuel n
      conv => lhs; unfold markEnv
      simp only [Val.isPtr, if_true, hb1, Bool.false_eq_true, if_false, hc1, hb2, hc2]
      rfl
    cases r with
    | ok h3 =>
      obtain ⟨g3, _, _⟩ := (markPhase_inv (P := PointsTo rest) hw hR hcap g2 hok hRval n0).2 h3
        (hn0 n0 (Nat.le_refl _))
      obtain ⟨k, r, hk⟩ := ih _ _ hRrest (g3.gcMarked (h3.gcMarked + 2))
      refine ⟨max n0 (k + 1), r, fun fuel n hf hn => ?_⟩
      obtain ⟨n', rfl⟩ : ∃ n', n = n' + 1 := ⟨n - 1, by omega⟩
      rw [unf, hn0 fuel (by omega)]
      exact hk fuel n' (by omega) (by omega)
    | ub =>
      refine ⟨n0 + 1, .ub, fun fuel n hf hn => ?_⟩
      obtain ⟨n', rfl⟩ : ∃ n', n = n' + 1 := ⟨n - 1, by omega⟩
      rw [unf, hn0 fuel (by omega)]
    | critical =>
      refine ⟨n0 + 1, .critical, fun fuel n hf hn => ?_⟩
      obtain ⟨n', rfl⟩ : ∃ n', n = n' + 1 := ⟨n - 1, by omega⟩
      rw [unf, hn0 fuel (by omega)]

theorem markEnv_room {h0 : Heap} {R : Nat → Prop} {bb : Bool} (hw : Typed h0) (hR : RClosed h0 R)
    (hcap : 0 < h0.gcCap) (hf : Roomy h0 bb) {env : Val} (he : EnvOK h0 env) :
    ∀ (n fuel : Nat) (h : Heap) (D : Val → Prop), (∀ j, PointsTo env j → R j) →
    GInv h0 R (PointsTo env) D h → h.dropped = false →
    (bb = true → markEnv fuel n h env ≠ some .critical) ∧
    ∀ h', markEnv fuel n h env = some (.ok h') → h'.dropped = false := by
  induction he with
  | @done v hv =>
    intro n fuel h D hRe g hd
    cases n with
    | zero => simp [markEnv]
    | succ n =>
      simp only [markEnv, hv, Bool.false_eq_true, if_false, ne_eq, Option.some.injEq, Out.ok.injEq]
      refine ⟨by simp, ?_⟩
      rintro h' rfl
      exact hd
  | @bind i b key val rest hi hb hci hcb hkey hrest ih =>
    intro n fuel h D hRe g hd
    cases n with
    | zero => simp [markEnv]
    | succ n =>
      have hRi : R i := hRe i ⟨_, rfl⟩
      have hRb : R b := hR i hRi .cons b (by rw [hci]; simp [Content.refs])
      have hRrest : ∀ j, PointsTo rest j → R j := by
        rintro j ⟨t, rfl⟩; exact hR i hRi t j (by rw [hci]; simp [Content.refs])
      have hRval : ∀ j, PointsTo val j → R j := by
        rintro j ⟨t, rfl⟩; exact hR b hRb t j (by rw [hcb]; simp [Content.refs])
      have g1 : GInv h0 R (fun j => j = b ∨ PointsTo rest j) (fun v => D v ∨ v = .ptr .cons false i)
          (setMark h (.ptr .cons false i)) := by
        refine setMark_inv g hi hRi hci ?_ ?_
        · rintro j ⟨t, h⟩; cases h; exact Or.inl rfl
        · rintro j (⟨t, h⟩ | h)
          · cases h; exact Or.inl rfl
          · exact Or.inr h
      have g2 : GInv h0 R (fun j => PointsTo rest j ∨ PointsTo val j)
          (fun v => (D v ∨ v = .ptr .cons false i) ∨ v = .ptr .cons false b)
          (setMark (setMark h (.ptr .cons false i)) (.ptr .cons false b)) := by
        refine setMark_inv g1 hb hRb hcb ?_ ?_
        · rintro j (h | h)
          · exact Or.inl h
          · exact Or.inr (Or.inl h)
        · rintro j (h | h)
          · exact absurd h (not_points hkey j)
          · exact Or.inr h
      have hok : OkRef h0 val := (hw.pair b hb _ _ hcb).2
      obtain ⟨p1, p2⟩ := markPhase_inv (P := PointsTo rest) hw hR hcap g2 hok hRval fuel
      obtain ⟨r1, r2⟩ := markPhase_room hw hR hf g2 (by simpa [setMark] using hd) hok hRval fuel
      have hb1 : badRef h (.ptr .cons false i) = false := by
        have := g.same.size; simp [badRef]; omega
      have hb2 : badRef (setMark h (.ptr .cons false i)) (.ptr .cons false b) = false := by
        have := g1.same.size; simp [badRef]; omega
      have hc1 : contentOf (setMark h (.ptr .cons false i)) (.ptr .cons false i) =
          some (.pair (.ptr .cons false b) rest) := by
        simp only [contentOf, cellOf, Option.map_some]; rw [g1.same.content, hci]
      have hc2 : contentOf (setMark (setMark h (.ptr .cons false i)) (.ptr .cons false b))
          (.ptr .cons false b) = some (.pair key val) := by
        simp only [contentOf, cellOf, Option.map_some]; rw [g2.same.content, hcb]
      unfold markEnv
      simp only [Val.isPtr, if_true, hb1, Bool.false_eq_true, if_false, hc1, hb2, hc2]
      split
      · next h3 hph =>
        obtain ⟨g3, d3, _⟩ := p2 h3 hph
        exact ih n fuel _ _ hRrest (g3.gcMarked (h3.gcMarked + 2)) (r2 h3 hph)
      · next hne =>
        exact ⟨r1, fun h' hh => absurd hh (hne h')⟩

end Verif.Heap
