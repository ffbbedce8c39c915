import Verif.Sched.Lemmas

namespace Verif.Sched

/-- Queues and disjointness, without the live set. -/
structure Qs (s : S) (r b : List Cid) : Prop where
  ready_ok : IsQueue s.k s.queue r
  blocked_ok : IsQueue s.k s.blocked b
  nodup : (r ++ b).Nodup

theorem disj_left {r b : List Cid} (h : (r ++ b).Nodup) : ∀ c ∈ r, c ∉ b := fun c hc hb => (List.nodup_append.1 h).2.2 c hc c hb rfl
theorem disj_right {r b : List Cid} (h : (r ++ b).Nodup) : ∀ c ∈ b, c ∉ r := fun c hc hb => (List.nodup_append.1 h).2.2 c hb c hc rfl

theorem toReady_qs {s : S} {r b : List Cid} {c : Cid} (h : Qs s r b) (hr : c ∉ r) (hb : c ∉ b) : Qs (s.toReady c) (r ++ [c]) b := by
  obtain ⟨h1, h2⟩ := enqueue_spec h.ready_ok hr (List.nodup_append.1 h.nodup).1
  refine ⟨h1, isQueue_frame h2 ?_ h.blocked_ok, ?_⟩
  · intro d hd hm
    rcases List.mem_append.1 hm with hm | hm
    · exact disj_left h.nodup d hm hd
    · simp at hm; subst hm; exact hb hd
  · have := h.nodup
    simp only [List.append_assoc, List.singleton_append]
    rw [List.nodup_append] at this ⊢
    refine ⟨this.1, List.nodup_cons.2 ⟨hb, this.2.1⟩, fun x hx y hy => ?_⟩
    rcases List.mem_cons.1 hy with rfl | hy
    · rintro rfl; exact hr hx
    · exact this.2.2 x hx y hy

theorem toBlocked_qs {s : S} {r b : List Cid} {c : Cid} (h : Qs s r b) (hr : c ∉ r) (hb : c ∉ b) : Qs (s.toBlocked c) r (b ++ [c]) := by
  obtain ⟨h1, h2⟩ := enqueue_spec h.blocked_ok hb (List.nodup_append.1 h.nodup).2.1
  refine ⟨isQueue_frame h2 ?_ h.ready_ok, h1, ?_⟩
  · intro d hd hm
    rcases List.mem_append.1 hm with hm | hm
    · exact disj_left h.nodup d hd hm
    · simp at hm; subst hm; exact hr hd
  · have := h.nodup
    rw [← List.append_assoc, List.nodup_append]
    refine ⟨this, by simp, fun x hx y hy => ?_⟩
    simp at hy; subst hy
    rintro rfl
    rcases List.mem_append.1 hx with hx | hx
    · exact hr hx
    · exact hb hx

/-- Fields that are not links do not matter. -/
theorem qs_congr {s s' : S} {r b : List Cid} (h : Qs s r b) (hk : s'.k = s.k) (hq : s'.queue = s.queue) (hb : s'.blocked = s.blocked) : Qs s' r b := by
  obtain ⟨a1, a2, a3⟩ := h
  exact ⟨by rw [hk, hq]; exact a1, by rw [hk, hb]; exact a2, a3⟩

theorem erase_split {c : Cid} {a b : List Cid} (h : (a ++ c :: b).Nodup) : (a ++ c :: b).erase c = a ++ b := by
  rw [List.erase_append_right _ (fun hm => (List.nodup_append.1 h).2.2 c hm c (by simp) rfl)]
  simp

theorem drop_blocked_qs {s : S} {r b : List Cid} {c : Cid} (h : Qs s r b) (hc : c ∈ b) {f : Nat} (hf : b.length ≤ f) :
    ∃ k q, drop f s.k s.blocked c = some (k, q) ∧ Qs { s with k := k, blocked := q } r (b.erase c) ∧ c ∉ r ∧ c ∉ b.erase c := by
  obtain ⟨x, y, rfl⟩ := List.append_of_mem hc
  have hnb := (List.nodup_append.1 h.nodup).2.1
  obtain ⟨k, q, e, h1, h2⟩ := unlink_spec h.blocked_ok hnb
  refine ⟨k, q, by rw [drop_spec h.blocked_ok f hf, if_pos hc, e], ⟨isQueue_frame h2 ?_ h.ready_ok, ?_, ?_⟩, disj_right h.nodup c hc, ?_⟩
  · intro d hd hm
    refine disj_left h.nodup d hd ?_
    rcases List.mem_append.1 hm with hm | hm <;> simp [hm]
  · rw [erase_split hnb]; exact h1
  · exact (h.nodup).sublist (List.Sublist.append_left List.erase_sublist _)
  · exact fun hm => absurd hm (by rw [List.Nodup.mem_erase_iff hnb]; simp)

theorem drop_ready_qs {s : S} {r b : List Cid} {c : Cid} (h : Qs s r b) (hc : c ∈ r) {f : Nat} (hf : r.length ≤ f) :
    ∃ k q, drop f s.k s.queue c = some (k, q) ∧ Qs { s with k := k, queue := q } (r.erase c) b ∧ c ∉ r.erase c ∧ c ∉ b := by
  obtain ⟨x, y, rfl⟩ := List.append_of_mem hc
  have hnr := (List.nodup_append.1 h.nodup).1
  obtain ⟨k, q, e, h1, h2⟩ := unlink_spec h.ready_ok hnr
  refine ⟨k, q, by rw [drop_spec h.ready_ok f hf, if_pos hc, e], ⟨?_, isQueue_frame h2 ?_ h.blocked_ok, ?_⟩, ?_, disj_left h.nodup c hc⟩
  · rw [erase_split hnr]; exact h1
  · intro d hd hm
    refine disj_right h.nodup d hd ?_
    rcases List.mem_append.1 hm with hm | hm <;> simp [hm]
  · exact (h.nodup).sublist (List.Sublist.append_right List.erase_sublist _)
  · exact fun hm => absurd hm (by rw [List.Nodup.mem_erase_iff hnr]; simp)

/-! ### Waking up -/

/-- A context that is woken becomes ready. -/
def wokenInfo (w now : Nat) (l : List Cid) (info : Cid → Info) : Cid → Info := fun d =>
  if d ∈ l ∧ due w now (info d) = true then { info d with state := .ready } else info d

theorem wakeOne_spec {s : S} {r x y : List Cid} {c : Cid} (h : Qs s r (x ++ c :: y)) :
    ∃ s', wakeOne s c = some s' ∧ Qs s' (r ++ [c]) (x ++ y) ∧ s'.running = s.running ∧ s'.atomic = s.atomic ∧
      s'.info = (fun d => if d = c then { s.info c with state := .ready } else s.info d) ∧
      s'.timeouts = s.timeouts ++ (if (s.info c).state.isTimeout then [c] else []) := by
  have hnb := (List.nodup_append.1 h.nodup).2.1
  obtain ⟨k, q, e, h1, h2⟩ := unlink_spec h.blocked_ok hnb
  have hcr : c ∉ r := disj_right h.nodup c (by simp)
  have hcxy : c ∉ x ++ y := by
    have := erase_split hnb
    rw [← this, List.Nodup.mem_erase_iff hnb]; simp
  have hf : Frame k ((k.setNext c none).setPrev c none) [c] := frame_trans (frame_setNext k c none) (frame_setPrev _ c none)
  have hq : Qs { s with k := (k.setNext c none).setPrev c none, blocked := q } r (x ++ y) := by
    refine ⟨isQueue_frame hf (by intro d hd; simp; rintro rfl; exact hcr hd) (isQueue_frame h2 ?_ h.ready_ok),
      isQueue_frame hf (by intro d hd hm; simp at hm; subst hm; exact hcxy hd) h1, ?_⟩
    · intro d hd hm
      refine disj_left h.nodup d hd ?_
      rcases List.mem_append.1 hm with hm | hm <;> simp [hm]
    · exact h.nodup.sublist (List.Sublist.append_left (List.Sublist.append_left (List.sublist_cons_self c y) _) _)
  unfold wakeOne
  rw [wakeUnlink_eq h.blocked_ok hnb, e]
  simp only
  by_cases ht : (s.info c).state.isTimeout = true
  · simp only [ht, if_true]
    exact ⟨_, rfl, toReady_qs (qs_congr hq rfl rfl rfl) hcr hcxy, rfl, rfl, rfl, rfl⟩
  · simp only [ht]
    exact ⟨_, rfl, toReady_qs (qs_congr hq rfl rfl rfl) hcr hcxy, rfl, rfl, rfl, by simp [S.toReady, S.setState, S.setInfo]⟩

theorem wakeLoop_spec (w now : Nat) : ∀ {y x r : List Cid} {s : S}, Qs s r (x ++ y) → ∀ f, y.length ≤ f →
    ∃ s', wakeLoop w now f s y.head? = some s' ∧ Qs s' (r ++ y.filter (fun c => due w now (s.info c))) (x ++ y.filter (fun c => !due w now (s.info c))) ∧
      s'.running = s.running ∧ s'.atomic = s.atomic ∧ s'.info = wokenInfo w now y s.info ∧
      s'.timeouts = s.timeouts ++ y.filter (fun c => due w now (s.info c) && (s.info c).state.isTimeout)
  | [], x, r, s, h, f, _ => by
    refine ⟨s, by cases f <;> rfl, by simpa using h, rfl, rfl, ?_, by simp⟩
    funext d; simp [wokenInfo]
  | c :: y, x, r, s, h, 0, hf => by simp at hf
  | c :: y, x, r, s, h, f + 1, hf => by
    have hnb := (List.nodup_append.1 h.nodup).2.1
    have hcy : c ∉ y := (List.nodup_cons.1 (List.nodup_append.1 hnb).2.1).1
    have hnext : s.k.next c = y.head? := by
      have := (seg_append.1 h.blocked_ok.2.2).2.2.1
      simpa using this
    rw [List.head?_cons, wakeLoop]
    simp only [hnext]
    by_cases hd : due w now (s.info c) = true
    · rw [if_pos hd]
      obtain ⟨s1, e1, q1, g1, g2, g3, g4⟩ := wakeOne_spec h
      rw [e1]
      simp only
      have hinfo : ∀ d ∈ y, s1.info d = s.info d := by
        intro d hdy
        rw [g3]
        exact if_neg (by rintro rfl; exact hcy hdy)
      obtain ⟨s2, e2, q2, k1, k2, k3, k4⟩ := wakeLoop_spec w now (y := y) (x := x) q1 f (by simpa using hf)
      have f1 : y.filter (fun c => due w now (s1.info c)) = y.filter (fun c => due w now (s.info c)) := List.filter_congr fun d hd => by rw [hinfo d hd]
      have f2 : y.filter (fun c => !due w now (s1.info c)) = y.filter (fun c => !due w now (s.info c)) := List.filter_congr fun d hd => by rw [hinfo d hd]
      have f3 : y.filter (fun c => due w now (s1.info c) && (s1.info c).state.isTimeout) = y.filter (fun c => due w now (s.info c) && (s.info c).state.isTimeout) :=
        List.filter_congr fun d hd => by rw [hinfo d hd]
      rw [f1, f2] at q2
      rw [f3] at k4
      refine ⟨s2, e2, ?_, k1.trans g1, k2.trans g2, ?_, ?_⟩
      · rw [List.filter_cons, if_pos hd, List.filter_cons, if_neg (by simp [hd])]
        simpa using q2
      · rw [k3]
        funext d
        simp only [wokenInfo]
        by_cases hdc : d = c
        · subst hdc
          rw [if_neg (fun hh => hcy hh.1), if_pos ⟨by simp, hd⟩, g3]; exact if_pos rfl
        · by_cases hy : d ∈ y
          · rw [hinfo d hy]; simp [hdc]
          · rw [if_neg (fun hh => hy hh.1), if_neg (fun hh => by rcases List.mem_cons.1 hh.1 with h' | h' <;> contradiction), g3]; exact if_neg hdc
      · rw [k4, g4, List.filter_cons]
        by_cases ht : (s.info c).state.isTimeout = true
        · rw [if_pos ht, if_pos (by simp [hd, ht])]; simp
        · rw [if_neg ht, if_neg (by simp [hd, ht])]; simp
    · rw [if_neg hd]
      obtain ⟨s2, e2, q2, k1, k2, k3, k4⟩ := wakeLoop_spec w now (y := y) (x := x ++ [c]) (by simpa using h) f (by simpa using hf)
      refine ⟨s2, e2, ?_, k1, k2, ?_, ?_⟩
      · rw [List.filter_cons, if_neg hd, List.filter_cons, if_pos (by simp [hd])]
        simpa using q2
      · rw [k3]
        funext d
        simp only [wokenInfo]
        by_cases hdc : d = c
        · subst hdc
          rw [if_neg (fun hh => hcy hh.1), if_neg (fun hh => hd hh.2)]
        · simp [hdc]
      · rw [k4, List.filter_cons, if_neg (by simp [hd])]

/-! ### One operation -/

theorem placed_qs {s : S} {live r b : List Cid} (h : Placed s live r b) : Qs s r b := by
  refine ⟨h.ready_ok, h.blocked_ok, ?_⟩
  have := h.all.nodup_iff.2 h.nodup
  rw [List.append_assoc] at this
  exact (List.nodup_append.1 this).2.1

theorem placed_running {s : S} {live r b : List Cid} (h : Placed s live r b) {c : Cid} (hc : s.running = some c) : c ∉ r ∧ c ∉ b := by
  have := h.all.nodup_iff.2 h.nodup
  rw [hc, List.append_assoc] at this
  simp only [Option.toList_some, List.singleton_append, List.nodup_cons, List.mem_append, not_or] at this
  exact this.1

/-- An operation does to the queues what `after` says; it never goes wrong. -/
def Sim (w : Nat) (s : S) (live r b : List Cid) (op : Op) : Prop :=
  ∃ s', (∀ f ≥ r.length + b.length, step w f s op = some s') ∧ Placed s' (liveAfter s live op) (after w s r b op).ready (after w s r b op).blocked ∧
    s'.running = (after w s r b op).running ∧ s'.atomic = afterAtomic s op ∧ s'.timeouts = s.timeouts ++ timedOut w s b op

/-- Releasing a blocked context. -/
theorem release_spec {s : S} {live r b : List Cid} {c : Cid} (h : Placed s live r b) (cond : TState → Bool) :
    ∃ s' t, (∀ f ≥ r.length + b.length, release cond f s c = some (s', t)) ∧
      Placed s' live (if c ∈ b ∧ cond (s.info c).state = true then r ++ [c] else r) (if c ∈ b ∧ cond (s.info c).state = true then b.erase c else b) ∧
      s'.running = s.running ∧ s'.atomic = s.atomic ∧ s'.timeouts = s.timeouts ∧ (t = true ↔ c ∈ b ∧ cond (s.info c).state = true) := by
  have hq := placed_qs h
  by_cases hc : c ∈ b ∧ cond (s.info c).state = true
  · obtain ⟨k, q, _, q1, n1, n2⟩ := drop_blocked_qs hq hc.1 (f := b.length) (Nat.le_refl _)
    refine ⟨((({ s with k := k, blocked := q } : S).setState c .ready).toReady c), true, fun f hf => ?_, ?_, rfl, rfl, rfl, by simp [hc]⟩
    · obtain ⟨k', q', e', _⟩ := drop_blocked_qs hq hc.1 (f := f) (by omega)
      have e0 : drop f s.k s.blocked c = drop b.length s.k s.blocked c := by
        rw [drop_spec hq.blocked_ok f (by omega), drop_spec hq.blocked_ok b.length (Nat.le_refl _)]
      unfold release
      rw [hq.blocked_ok.1, lookup_spec hq.blocked_ok.2.2 f (by omega)]
      simp only [hc.1, decide_true, hc.2, if_true]
      rw [e0]
      rename_i e _ 
      rw [e]
    · rw [if_pos hc, if_pos hc]
      have q2 := toReady_qs (s := ({ s with k := k, blocked := q } : S).setState c .ready) (qs_congr q1 rfl rfl rfl) n1 n2
      have hnd := h.all.nodup_iff.2 h.nodup
      refine ⟨q2.ready_ok, q2.blocked_ok, ?_, h.nodup, ?_, ?_⟩
      · refine List.Perm.trans ?_ h.all
        show (s.running.toList ++ (r ++ [c]) ++ b.erase c).Perm _
        rw [← List.append_assoc, List.append_assoc]
        exact List.Perm.append_left _ (List.perm_cons_erase hc.1).symm
      · intro d hd
        have hdc : d ≠ c := by rintro rfl; exact n2 hd
        show ((if d = c then _ else s.info d) : Info).state ≠ _
        rw [if_neg hdc]
        exact h.st_blocked d (List.mem_of_mem_erase hd)
      · intro d hd
        show ((if d = c then _ else s.info d) : Info).state = _
        by_cases hdc : d = c
        · rw [if_pos hdc]
        · rw [if_neg hdc]
          have hd : d ∈ s.running.toList ++ (r ++ [c]) := hd
          refine h.st_ready d ?_
          simp [hdc] at hd ⊢
          exact hd
  · refine ⟨s, false, fun f hf => ?_, by rw [if_neg hc, if_neg hc]; exact h, rfl, rfl, rfl, by simp [hc]⟩
    unfold release
    rw [hq.blocked_ok.1, lookup_spec hq.blocked_ok.2.2 f (by omega)]
    by_cases hb : c ∈ b
    · simp only [hb, decide_true]
      rw [if_neg (fun hh => hc ⟨hb, hh⟩)]
    · simp only [hb, decide_false]

theorem sim_release {w : Nat} {s : S} {live r b : List Cid} {c : Cid} (h : Placed s live r b) {op : Op} {cond : TState → Bool}
    (hs : ∀ f, step w f s op = (release cond f s c).map (·.1)) (hl : liveAfter s live op = live)
    (ha : after w s r b op = if c ∈ b ∧ cond (s.info c).state = true then ⟨s.running, r ++ [c], b.erase c⟩ else ⟨s.running, r, b⟩)
    (hat : afterAtomic s op = s.atomic) (ht : timedOut w s b op = []) : Sim w s live r b op := by
  obtain ⟨s', t, e, p, g1, g2, g3, _⟩ := release_spec (c := c) h cond
  refine ⟨s', fun f hf => by rw [hs, e f hf]; rfl, ?_, ?_, by rw [hat, g2], by rw [ht, g3, List.append_nil]⟩
  · rw [hl, ha]
    split
    · rename_i hc; rw [if_pos hc, if_pos hc] at p; exact p
    · rename_i hc; rw [if_neg hc, if_neg hc] at p; exact p
  · rw [ha, g1]; split <;> rfl

theorem sim_kill {w : Nat} {s : S} {live r b : List Cid} {c : Cid} (h : Placed s live r b) (hrun : s.running ≠ some c) : Sim w s live r b (.kill c) := by
  have hq := placed_qs h
  by_cases hb : c ∈ b
  · obtain ⟨k, q, e, q1, n1, n2⟩ := drop_blocked_qs hq hb (f := b.length) (Nat.le_refl _)
    have ha : after w s r b (.kill c) = ⟨s.running, r ++ [c], b.erase c⟩ := if_pos hb
    refine ⟨((({ s with k := k, blocked := q } : S).setState c .ready).toReady c), fun f hf => ?_, ?_, by rw [ha]; rfl, rfl, by simp [timedOut]; rfl⟩
    · have e0 : drop f s.k s.blocked c = some (k, q) := by
        rw [drop_spec hq.blocked_ok f (by omega), ← drop_spec hq.blocked_ok b.length (Nat.le_refl _), e]
      have e1 : drop f k s.queue c = some (k, s.queue) := by
        rw [drop_spec q1.ready_ok f (by omega), if_neg n1]
      simp only [step, opKill]
      rw [hq.blocked_ok.1, lookup_spec hq.blocked_ok.2.2 f (by omega)]
      simp only [hb, decide_true]
      rw [e0]
      simp only
      rw [e1]
      rfl
    · rw [ha]
      obtain ⟨s', t, e', p, _⟩ := release_spec (c := c) h (fun _ => true)
      have := e' (r.length + b.length) (Nat.le_refl _)
      unfold release at this
      rw [hq.blocked_ok.1, lookup_spec hq.blocked_ok.2.2 _ (by omega)] at this
      simp only [hb, decide_true, if_true] at this
      rw [drop_spec hq.blocked_ok _ (by omega), ← drop_spec hq.blocked_ok b.length (Nat.le_refl _), e] at this
      injection this with this
      injection this with t1 t2
      rw [t1]
      simpa [hb, liveAfter, ends] using p
  · by_cases hr : c ∈ r
    · obtain ⟨k, q, e, q1, n1, n2⟩ := drop_ready_qs hq hr (f := r.length) (Nat.le_refl _)
      have ha : after w s r b (.kill c) = ⟨s.running, r.erase c ++ [c], b⟩ := by simp [after, hb, hr]
      refine ⟨((({ s with k := k, queue := q } : S).setState c .ready).toReady c), fun f hf => ?_, ?_, by rw [ha]; rfl, rfl, by simp [timedOut]; rfl⟩
      · have e0 : drop f s.k s.queue c = some (k, q) := by
          rw [drop_spec hq.ready_ok f (by omega), ← drop_spec hq.ready_ok r.length (Nat.le_refl _), e]
        simp only [step, opKill]
        rw [hq.blocked_ok.1, lookup_spec hq.blocked_ok.2.2 f (by omega), hq.ready_ok.1, lookup_spec hq.ready_ok.2.2 f (by omega)]
        simp only [hb, hr, decide_true, decide_false]
        rw [e0]
        rfl
      · rw [ha]
        have q2 := toReady_qs (s := ({ s with k := k, queue := q } : S).setState c .ready) (qs_congr q1 rfl rfl rfl) n1 n2
        refine ⟨q2.ready_ok, q2.blocked_ok, ?_, h.nodup, ?_, ?_⟩
        · refine List.Perm.trans ?_ h.all
          show (s.running.toList ++ (r.erase c ++ [c]) ++ b).Perm _
          refine List.Perm.append_right _ (List.Perm.append_left _ ?_)
          exact List.perm_append_comm.trans (List.perm_cons_erase hr).symm
        · intro d hd
          have hdc : d ≠ c := by rintro rfl; exact hb hd
          show ((if d = c then _ else s.info d) : Info).state ≠ _
          rw [if_neg hdc]
          exact h.st_blocked d hd
        · intro d hd
          show ((if d = c then _ else s.info d) : Info).state = _
          by_cases hdc : d = c
          · rw [if_pos hdc]
          · rw [if_neg hdc]
            have hd : d ∈ s.running.toList ++ (r.erase c ++ [c]) := hd
            refine h.st_ready d ?_
            simp only [List.mem_append, List.mem_singleton, hdc, or_false] at hd ⊢
            exact hd.imp id List.mem_of_mem_erase
    · have ha : after w s r b (.kill c) = ⟨s.running, r, b⟩ := by simp [after, hb, hr]
      refine ⟨s, fun f hf => ?_, by rw [ha]; exact h, by rw [ha], rfl, by simp [timedOut]⟩
      simp only [step, opKill]
      rw [hq.blocked_ok.1, lookup_spec hq.blocked_ok.2.2 f (by omega), hq.ready_ok.1, lookup_spec hq.ready_ok.2.2 f (by omega)]
      simp only [hb, hr, decide_false, Option.map_some]

theorem sim_create {w : Nat} {s : S} {live r b : List Cid} {c : Cid} (h : Placed s live r b) (hc : c ∉ live) : Sim w s live r b (.create c) := by
  have hmem : ∀ d, d ∈ live ↔ d ∈ s.running.toList ++ r ++ b := fun d => (h.all.mem_iff).symm
  have hc' : c ∉ s.running.toList ++ r ++ b := fun hh => hc ((hmem c).2 hh)
  simp only [List.mem_append, not_or] at hc'
  have q2 := toReady_qs (s := s.setInfo c ⟨.ready, 0, 0⟩) (qs_congr (placed_qs h) rfl rfl rfl) hc'.1.2 hc'.2
  refine ⟨_, fun f _ => rfl, ⟨q2.ready_ok, q2.blocked_ok, ?_, List.nodup_cons.2 ⟨hc, h.nodup⟩, ?_, ?_⟩, rfl, rfl, by simp [timedOut]; rfl⟩
  · show (s.running.toList ++ (r ++ [c]) ++ b).Perm (c :: live)
    refine List.Perm.trans ?_ (List.Perm.cons c h.all)
    rw [← List.append_assoc, List.append_assoc _ [c]]
    exact List.perm_middle
  · intro d hd
    show ((if d = c then _ else s.info d) : Info).state ≠ _
    rw [if_neg (by rintro rfl; exact hc'.2 hd)]
    exact h.st_blocked d hd
  · intro d hd
    show ((if d = c then _ else s.info d) : Info).state = _
    by_cases hdc : d = c
    · rw [if_pos hdc]
    · rw [if_neg hdc]
      refine h.st_ready d ?_
      have hd : d ∈ s.running.toList ++ (r ++ [c]) := hd
      simp [hdc] at hd ⊢
      exact hd

/-- The running context goes away. -/
theorem placed_end {s : S} {live r b : List Cid} {c : Cid} (h : Placed s live r b) (hc : s.running = some c) (a : Bool) :
    Placed { s with running := none, atomic := a } (live.filter (fun d => decide (s.running ≠ some d))) r b := by
  have hnd := h.all.nodup_iff.2 h.nodup
  have hmem := placed_running h hc
  refine ⟨h.ready_ok, h.blocked_ok, ?_, h.nodup.filter _, h.st_blocked, fun d hd => h.st_ready d (List.mem_append_right _ hd)⟩
  have := h.all.filter (fun d => decide (s.running ≠ some d))
  refine List.Perm.trans (List.Perm.of_eq ?_) this
  rw [hc, List.append_assoc (some c).toList, List.filter_append]
  have e1 : (r ++ b).filter (fun d => decide (some c ≠ some d)) = r ++ b := List.filter_eq_self.2 fun d hd => by
    simp; rintro rfl
    rcases List.mem_append.1 hd with hd | hd
    · exact hmem.1 hd
    · exact hmem.2 hd
  rw [e1]
  simp

theorem sim_finish {w : Nat} {s : S} {live r b : List Cid} (h : Placed s live r b) (hr : s.running ≠ none) : Sim w s live r b .finish := by
  obtain ⟨c, hc⟩ := Option.ne_none_iff_exists'.1 hr
  exact ⟨_, fun _ _ => rfl, placed_end h hc s.atomic, rfl, rfl, by simp [timedOut]⟩

theorem placed_atomic {s : S} {live r b : List Cid} (h : Placed s live r b) (a : Bool) : Placed { s with atomic := a } live r b :=
  ⟨h.ready_ok, h.blocked_ok, h.all, h.nodup, h.st_blocked, h.st_ready⟩

theorem sim_block {w : Nat} {s : S} {live r b : List Cid} {t : TState} {now sleep : Nat} {trapped : Bool} (h : Placed s live r b)
    (hr : s.running ≠ none) (ht : t ≠ .ready) : Sim w s live r b (.block t now sleep trapped) := by
  obtain ⟨c, hc⟩ := Option.ne_none_iff_exists'.1 hr
  by_cases ha : s.atomic = true
  · refine ⟨atomicError s trapped, fun _ _ => by simp [step, opBlock, ha], ?_, ?_, ?_, ?_⟩
    · cases trapped with
      | true => simpa [after, ha, liveAfter, ends, atomicError] using placed_atomic h false
      | false => simpa [after, ha, liveAfter, ends, atomicError] using placed_end h hc false
    · cases trapped <;> simp [after, ha, atomicError]
    · cases trapped <;> simp [afterAtomic, atomicError]
    · cases trapped <;> simp [timedOut, atomicError]
  · obtain ⟨n1, n2⟩ := placed_running h hc
    have q2 := toBlocked_qs (s := s.setInfo c ⟨t, now, sleep⟩) (qs_congr (placed_qs h) rfl rfl rfl) n1 n2
    have e1 : after w s r b (.block t now sleep trapped) = ⟨none, r, b ++ [c]⟩ := by simp [after, ha, hc]
    have e2 : liveAfter s live (.block t now sleep trapped) = live := by simp [liveAfter, ends, ha]
    refine ⟨{ (s.setInfo c ⟨t, now, sleep⟩).toBlocked c with running := none }, fun _ _ => by simp [step, opBlock, ha, hc], ?_, by rw [e1], ?_, ?_⟩
    · rw [e1, e2]
      refine ⟨q2.ready_ok, q2.blocked_ok, ?_, h.nodup, ?_, ?_⟩
      · refine List.Perm.trans ?_ h.all
        rw [hc]
        show (r ++ (b ++ [c])).Perm _
        rw [← List.append_assoc]
        exact List.perm_append_comm
      · intro d hd
        show ((if d = c then _ else s.info d) : Info).state ≠ _
        by_cases hdc : d = c
        · rw [if_pos hdc]; exact ht
        · rw [if_neg hdc]
          exact h.st_blocked d (by simpa [hdc] using hd)
      · intro d hd
        have hd : d ∈ r := hd
        show ((if d = c then _ else s.info d) : Info).state = _
        rw [if_neg (by rintro rfl; exact n1 hd)]
        exact h.st_ready d (List.mem_append_right _ hd)
    · simp [afterAtomic, S.toBlocked, S.setInfo, ha]
    · simp [timedOut, S.toBlocked, S.setInfo]

theorem sim_enterAtomic {w : Nat} {s : S} {live r b : List Cid} {trapped : Bool} (h : Placed s live r b) (hr : s.running ≠ none) :
    Sim w s live r b (.enterAtomic trapped) := by
  obtain ⟨c, hc⟩ := Option.ne_none_iff_exists'.1 hr
  by_cases ha : s.atomic = true
  · refine ⟨atomicError s trapped, fun _ _ => by simp [step, ha], ?_, ?_, ?_, ?_⟩
    · cases trapped with
      | true => simpa [after, ha, liveAfter, ends, atomicError] using placed_atomic h false
      | false => simpa [after, ha, liveAfter, ends, atomicError] using placed_end h hc false
    · cases trapped <;> simp [after, ha, atomicError]
    · cases trapped <;> simp [afterAtomic, atomicError, ha]
    · cases trapped <;> simp [timedOut, atomicError]
  · refine ⟨{ s with atomic := true }, fun _ _ => by simp [step, ha], ?_, ?_, ?_, ?_⟩
    · simpa [after, ha, liveAfter, ends] using placed_atomic h true
    · simp [after, ha]
    · simp [afterAtomic, ha]
    · simp [timedOut]

/-- The running context is appended to the ready queue. -/
theorem requeue_spec {s : S} {live r b : List Cid} (h : Placed s live r b) :
    Qs (requeue s) (r ++ s.running.toList) b ∧ (requeue s).running = none ∧ (requeue s).atomic = s.atomic ∧ (requeue s).info = s.info ∧ (requeue s).timeouts = s.timeouts := by
  unfold requeue
  cases hr : s.running with
  | none => simpa using ⟨placed_qs h, hr⟩
  | some c =>
    obtain ⟨n1, n2⟩ := placed_running h hr
    exact ⟨qs_congr (toReady_qs (placed_qs h) n1 n2) rfl rfl rfl, rfl, rfl, rfl, rfl⟩

theorem sim_round {w : Nat} {s : S} {live r b : List Cid} {now : Nat} (h : Placed s live r b) : Sim w s live r b (.round now) := by
  by_cases ha : s.atomic = true
  · exact ⟨s, fun _ _ => by simp [step, opRound, ha], by simpa [after, ha, liveAfter, ends] using h, by simp [after, ha], rfl, by simp [timedOut, ha]⟩
  · obtain ⟨q1, g1, g2, g3, g4⟩ := requeue_spec h
    obtain ⟨s2, e2, q2, k1, k2, k3, k4⟩ := wakeLoop_spec w now (y := b) (x := []) q1 b.length (Nat.le_refl _)
    obtain ⟨k, q, e3, q3, f3⟩ := dequeue_spec q2.ready_ok (List.nodup_append.1 q2.nodup).1
    rw [g3] at q2 e3 q3 f3 k3 k4
    simp only [List.nil_append] at q2
    have e1 : after w s r b (.round now) = ⟨(r ++ s.running.toList ++ b.filter (fun c => due w now (s.info c))).head?,
      (r ++ s.running.toList ++ b.filter (fun c => due w now (s.info c))).tail, b.filter (fun c => !due w now (s.info c))⟩ := by simp [after, ha]
    generalize hl : r ++ s.running.toList ++ b.filter (fun c => due w now (s.info c)) = l at *
    have hl0 : ({ s2 with k := k, queue := q, running := l.head? } : S).running.toList ++ l.tail = l := by
      show l.head?.toList ++ l.tail = l
      cases l <;> simp
    refine ⟨{ s2 with k := k, queue := q, running := l.head? }, fun f hf => ?_, ?_, by rw [e1], ?_, ?_⟩
    · obtain ⟨s2', e2', _⟩ := wakeLoop_spec w now (y := b) (x := []) q1 f (by omega)
      simp only [step, opRound, wakeUp]
      rw [if_neg ha, q1.blocked_ok.1]
      have : wakeLoop w now f (requeue s) b.head? = some s2 := by
        have mono : ∀ {y : List Cid} {x r : List Cid} {t : S}, Qs t r (x ++ y) → ∀ f, y.length ≤ f → wakeLoop w now f t y.head? = wakeLoop w now y.length t y.head? := by
          intro y
          induction y with
          | nil => intro x r t _ f _; cases f <;> rfl
          | cons c y ih =>
            intro x r t ht f hf
            cases f with
            | zero => simp at hf
            | succ f =>
              have hnext : t.k.next c = y.head? := by
                have := (seg_append.1 ht.blocked_ok.2.2).2.2.1
                simpa using this
              rw [List.head?_cons, List.length_cons, wakeLoop, wakeLoop]
              simp only [hnext]
              split
              · obtain ⟨t1, e, qq, _⟩ := wakeOne_spec ht
                rw [e]
                exact ih qq f (by simpa using hf)
              · exact ih (x := x ++ [c]) (by simpa using ht) f (by simpa using hf)
        rw [mono (x := []) q1 f (by omega), e2]
      rw [this]
      simp only
      rw [e3]
    · rw [e1]
      have hlive : liveAfter s live (.round now) = live := by simp [liveAfter, ends]
      rw [hlive]
      refine ⟨q3, isQueue_frame f3 (fun d hd => disj_right q2.nodup d hd) q2.blocked_ok, ?_, h.nodup, ?_, ?_⟩
      · rw [hl0, ← hl]
        refine List.Perm.trans ?_ h.all
        rw [List.append_assoc]
        refine List.Perm.append List.perm_append_comm ?_
        exact List.filter_append_perm (fun c => due w now (s.info c)) b
      · intro d hd
        have hd' := List.mem_filter.1 hd
        show (s2.info d).state ≠ _
        rw [k3]
        simp only [wokenInfo]
        rw [if_neg (fun hh => by have := hd'.2; rw [hh.2] at this; cases this)]
        exact h.st_blocked d hd'.1
      · intro d hd
        rw [hl0, ← hl] at hd
        show (s2.info d).state = _
        rw [k3]
        simp only [wokenInfo]
        split
        · rfl
        · rename_i hno
          refine h.st_ready d ?_
          simp only [List.mem_append, List.mem_filter] at hd ⊢
          rcases hd with (hd | hd) | hd
          · exact .inr hd
          · exact .inl hd
          · exact absurd hd hno
    · show s2.atomic = s.atomic
      rw [k2, g2]
    · show s2.timeouts = _
      rw [k4, g4]
      simp [timedOut, ha]

/-- Every allowed operation does what `after` says. -/
theorem sim {w : Nat} {s : S} {live r b : List Cid} {op : Op} (h : Placed s live r b) (ho : Allowed s live op) : Sim w s live r b op := by
  cases op with
  | create c => exact sim_create h ho
  | finish => exact sim_finish h ho
  | block t now sleep trapped => exact sim_block h ho.1 ho.2
  | send c => exact sim_release h (cond := TState.isRecv) (fun _ => rfl) (by simp [liveAfter, ends]) (by simp only [after]; congr 2; cases (s.info c).state <;> simp [TState.isRecv]) rfl rfl
  | unblock c => exact sim_release h (cond := TState.unblockable) (fun _ => rfl) (by simp [liveAfter, ends]) (by simp only [after]; congr 2; cases (s.info c).state <;> simp [TState.unblockable]) rfl rfl
  | kill c => exact sim_kill h ho.2
  | round now => exact sim_round h
  | enterAtomic trapped => exact sim_enterAtomic h ho
  | exitAtomic => exact ⟨{ s with atomic := false }, fun _ _ => rfl, by simpa [after, liveAfter, ends] using placed_atomic h false, rfl, rfl, by simp [timedOut]⟩
  | reset => exact ⟨_, fun _ _ => rfl, ⟨⟨rfl, rfl, trivial⟩, ⟨rfl, rfl, trivial⟩, by simp [liveAfter, after], by simp [liveAfter], by simp [after], by simp [after]⟩, rfl, rfl, by simp [timedOut]⟩

end Verif.Sched
