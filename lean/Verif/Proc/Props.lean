import Verif.Proc.Lemmas

/-!
# Properties: contexts and their memory

C94 and C95.
-/

namespace Verif.Proc

open Verif.Mem (Mem Block Inv)

/-! ## Specification -/

/-- The message is about the end of a context. -/
def Msg.isExit : Msg → Bool
  | .user _ => false
  | _ => true

/-- The number of messages about its end that context `u` has sent. -/
def S.exits (s : S) (u : Nat) : Nat := s.log.countP (fun e => e.2.2 = u && e.2.1.isExit)

/-! ## Proofs -/

theorem inj_of_nodup {α β : Type} {f : α → β} : ∀ {l : List α}, (l.map f).Nodup → ∀ {a b : α}, a ∈ l → b ∈ l → f a = f b → a = b
  | [], _, _, _, ha, _, _ => by cases ha
  | x :: l, h, a, b, ha, hb, e => by
    rw [List.map_cons, List.nodup_cons] at h
    rcases List.mem_cons.1 ha with rfl | ha' <;> rcases List.mem_cons.1 hb with rfl | hb'
    · rfl
    · exact absurd (List.mem_map_of_mem (f := f) hb') (by rw [← e]; exact h.1)
    · exact absurd (List.mem_map_of_mem (f := f) ha') (by rw [e]; exact h.1)
    · exact inj_of_nodup h.2 ha' hb' e

structure Good (w size : Nat) (s : S) : Prop where
  mem : Inv true w size s.mem s.live
  uids : (s.procs.map Proc.uid).Nodup
  old : ∀ p ∈ s.procs, p.uid < s.next
  pold : ∀ p ∈ s.procs, ∀ u, p.puid = some u → u < s.next
  parent : ∀ p ∈ s.procs, ∀ q ∈ s.procs, p.puid = some q.uid → p.parent = some q.id
  notSelf : ∀ p ∈ s.procs, p.parent ≠ some p.id
  past : ∀ u, s.next ≤ u → s.exits u = 0
  once : ∀ u, s.exits u ≤ 1
  alive : ∀ p ∈ s.procs, s.exits p.uid = 0

variable {w size bytes : Nat}

/-- The contexts after a change of some fields. -/
theorem Good.change {s s' : S} (h : Good w size s) (hm : Inv true w size s'.mem s'.live) (hn : s'.next = s.next) (f : Proc → Proc) (hp : s'.procs = s.procs.map f)
    (hf : ∀ p ∈ s.procs, (f p).uid = p.uid ∧ (f p).puid = p.puid ∧ (f p).parent = p.parent ∧ (f p).id = p.id) (hl : ∀ u, s'.exits u = s.exits u) : Good w size s' := by
  have hmem : ∀ q ∈ s'.procs, ∃ p ∈ s.procs, q = f p := fun q hq => by
    rw [hp] at hq
    obtain ⟨p, h1, h2⟩ := List.mem_map.1 hq
    exact ⟨p, h1, h2.symm⟩
  refine ⟨hm, ?_, ?_, ?_, ?_, ?_, ?_, ?_, ?_⟩
  · have : s'.procs.map Proc.uid = s.procs.map Proc.uid := by
      rw [hp, List.map_map]
      exact List.map_congr_left fun p hp => (hf p hp).1
    rw [this]
    exact h.uids
  · rintro q hq
    obtain ⟨p, h1, rfl⟩ := hmem q hq
    rw [(hf p h1).1, hn]
    exact h.old p h1
  · rintro q hq u
    obtain ⟨p, h1, rfl⟩ := hmem q hq
    rw [(hf p h1).2.1, hn]
    exact h.pold p h1 u
  · rintro q hq r hr
    obtain ⟨p, h1, rfl⟩ := hmem q hq
    obtain ⟨p2, h2, rfl⟩ := hmem r hr
    rw [(hf p h1).2.1, (hf p h1).2.2.1, (hf p2 h2).1, (hf p2 h2).2.2.2]
    exact h.parent p h1 p2 h2
  · rintro q hq
    obtain ⟨p, h1, rfl⟩ := hmem q hq
    rw [(hf p h1).2.2.1, (hf p h1).2.2.2]
    exact h.notSelf p h1
  · intro u hu
    rw [hl]
    exact h.past u (hn ▸ hu)
  · intro u
    rw [hl]
    exact h.once u
  · rintro q hq
    obtain ⟨p, h1, rfl⟩ := hmem q hq
    rw [hl, (hf p h1).1]
    exact h.alive p h1

/-- The contexts after one has ended. -/
theorem Good.finish (hw : size < 2 ^ w) {s : S} (h : Good w size s) {p : Proc} (hp : p ∈ s.procs) : Good w size (s.finish p) := by
  have hsub : ∀ q ∈ (s.finish p).procs, q ∈ s.procs := fun q hq => (List.mem_filter.1 hq).1
  exact ⟨finish_inv hw h.mem hp, (h.uids.sublist (List.filter_sublist.map _)), fun q hq => h.old q (hsub q hq), fun q hq => h.pold q (hsub q hq),
    fun q hq r hr => h.parent q (hsub q hq) r (hsub r hr), fun q hq => h.notSelf q (hsub q hq), h.past, h.once, fun q hq => h.alive q (hsub q hq)⟩

/-- The contexts that are left after one has sent a message about its end and ended. -/
theorem Good.told (hw : size < 2 ^ w) {s : S} (h : Good w size s) {p : Proc} (hp : p ∈ s.procs) (v : Msg) : Good w size ((s.tell p v).finish p) := by
  simp only [S.tell]
  split
  · exact h.finish hw hp
  · rename_i c e
    simp only [S.deliver]
    split
    · exact h.finish hw hp
    · rename_i q hq
      -- the receiver is not the context itself
      have hc : p.id ≠ c := fun e2 => h.notSelf p hp (e2 ▸ e)
      let s1 : S := { s with procs := s.procs.map (fun p => if p.id = c then p.add v else p) }
      have h1 : Good w size s1 := by
        refine h.change (s' := s1) ?_ rfl (fun p => if p.id = c then p.add v else p) rfl (fun p _ => by split <;> exact ⟨rfl, rfl, rfl, rfl⟩) (fun _ => rfl)
        have : s1.live = s.live := by
          simp only [s1, S.live, List.flatMap_map]
          congr 2
          funext q
          split <;> rfl
        rw [this]
        exact h.mem
      have hp1 : p ∈ s1.procs := List.mem_map.2 ⟨p, hp, by simp [hc]⟩
      have h2 := h1.finish hw hp1
      have hx : ∀ u, u ≠ p.uid → (s.log ++ [(q.uid, v, p.uid)]).countP (fun e => e.2.2 = u && e.2.1.isExit) = s.exits u := by
        intro u hu
        simp only [S.exits, List.countP_append]
        simp [Ne.symm hu]
      have hxp : (s.log ++ [(q.uid, v, p.uid)]).countP (fun e => e.2.2 = p.uid && e.2.1.isExit) ≤ 1 := by
        have := h.alive p hp
        simp only [S.exits] at this
        rw [List.countP_append, this, Nat.zero_add]
        exact List.countP_le_length
      have hgone : ∀ r ∈ (s1.finish p).procs, r.uid ≠ p.uid := by
        intro r hr e2
        have hr' := List.mem_filter.1 hr
        have hinj := inj_of_nodup h1.uids hr'.1 hp1 e2
        subst hinj
        simp at hr'
      refine ⟨h2.mem, h2.uids, h2.old, h2.pold, h2.parent, h2.notSelf, fun u hu => ?_, fun u => ?_, fun r hr => ?_⟩
      · exact (hx u (by have := h.old p hp; intro e2; subst e2; exact absurd hu (Nat.not_le.2 this))).trans (h.past u hu)
      · by_cases e2 : u = p.uid
        · subst e2
          exact hxp
        · exact Nat.le_trans (Nat.le_of_eq (hx u e2)) (h.once u)
      · exact (hx r.uid (hgone r hr)).trans (h2.alive r hr)

/-- Who gets the message. -/
theorem told_spec {s : S} (h : Good w size s) {p q : Proc} (hp : p ∈ s.procs) (hq : q ∈ s.procs) (hpq : p.puid = some q.uid) (v : Msg) :
    ((s.tell p v).finish p).log = s.log ++ [(q.uid, v, p.uid)] ∧ q.add v ∈ ((s.tell p v).finish p).procs ∧
      (∀ r ∈ ((s.tell p v).finish p).procs, r.uid ≠ p.uid ∧ (r.uid = q.uid ∨ r ∈ s.procs)) := by
  have hpar := h.parent p hp q hq hpq
  have hne : q.id ≠ p.id := fun e => h.notSelf p hp (e ▸ hpar)
  have hids := ids_nodup h.mem
  have hfind : s.procs.find? (fun r => r.id = q.id) = some q := by
    cases hf : s.procs.find? (fun r => r.id = q.id) with
    | none => exact absurd (List.find?_eq_none.1 hf q hq) (by simp)
    | some r =>
      have h1 := List.mem_of_find?_eq_some hf
      have h2 := List.find?_some hf
      simp only [decide_eq_true_eq] at h2
      rw [inj_of_nodup hids h1 hq h2]
  simp only [S.tell, hpar, S.deliver, hfind, S.finish]
  refine ⟨trivial, ?_, ?_⟩
  · refine List.mem_filter.2 ⟨List.mem_map.2 ⟨q, hq, by simp⟩, ?_⟩
    simp [Proc.add, hne]
  · intro r hr
    obtain ⟨h1, h2⟩ := List.mem_filter.1 hr
    obtain ⟨a, ha, rfl⟩ := List.mem_map.1 h1
    have hid : a.id ≠ p.id := by
      simp only [decide_eq_true_eq] at h2
      split at h2 <;> exact h2
    have hu : a.uid ≠ p.uid := fun e => hid (by rw [inj_of_nodup h.uids ha hp e])
    by_cases e : a.id = q.id
    · have := inj_of_nodup hids ha hq e
      subst this
      simp only [if_true]
      exact ⟨hu, .inl rfl⟩
    · simp only [e, if_false]
      exact ⟨hu, .inr ha⟩

theorem Good.error (hw : size < 2 ^ w) {s : S} (h : Good w size s) {p : Proc} (hp : p ∈ s.procs) (e cells : Nat) (handled : Bool) : Good w size (s.error p e cells handled) := by
  simp only [S.error]
  split
  · exact h.told hw hp _
  · split
    · exact h
    · exact h.finish hw hp

theorem Good.ok (hw : size < 2 ^ w) {s : S} (h : Good w size s) {p : Proc} (hp : p ∈ s.procs) (v cells : Nat) (handled : Bool) : Good w size (s.ok p v cells handled) := by
  simp only [S.ok]
  split
  · split
    · exact h.told hw hp _
    · exact h.error hw hp _ _ _
  · exact h.finish hw hp

theorem Good.created (hw : size < 2 ^ w) {s : S} (h : Good w size s) (c : New) (parent : Option Proc) (hp : ∀ p, parent = some p → p ∈ s.procs) :
    ∃ s' r, create bytes s c (parent.map Proc.id) (parent.map Proc.uid) = some (s', r) ∧ Good w size s' ∧ (r = none → s'.procs = s.procs) := by
  obtain ⟨s', r, e, _, h2, h3, h4, h5⟩ := create_inv hw h.mem c (bytes := bytes) (parent.map Proc.id) (parent.map Proc.uid)
  have hl : ∀ u, s'.exits u = s.exits u := fun u => by simp only [S.exits, h3]
  refine ⟨s', r, e, ?_, fun hr => by subst hr; exact h5.1⟩
  cases r with
  | none => exact h.change h4 h5.2 id (by rw [h5.1, List.map_id]) (fun _ _ => ⟨rfl, rfl, rfl, rfl⟩) hl
  | some id =>
    obtain ⟨p, h6, h7, h8, h9, h10, h11, h12, h13⟩ := h5
    have hids := ids_nodup h4
    rw [h6, List.map_cons, List.nodup_cons] at hids
    have hfresh : ∀ q ∈ s.procs, q.uid ≠ p.uid := fun q hq e => by have := h.old q hq; omega
    refine ⟨h4, ?_, ?_, ?_, ?_, ?_, ?_, ?_, ?_⟩
    · rw [h6, List.map_cons, List.nodup_cons]
      exact ⟨fun hm => by obtain ⟨q, hq, e⟩ := List.mem_map.1 hm; exact hfresh q hq e, h.uids⟩
    · intro q hq
      rw [h6] at hq
      rcases List.mem_cons.1 hq with rfl | hq
      · omega
      · have := h.old q hq; omega
    · intro q hq u hu
      rw [h6] at hq
      rcases List.mem_cons.1 hq with rfl | hq
      · rw [h12] at hu
        cases parent with
        | none => cases hu
        | some q => cases hu; have := h.old q (hp q rfl); omega
      · have := h.pold q hq u hu; omega
    · intro q hq r hr hu
      rw [h6] at hq hr
      rcases List.mem_cons.1 hq with rfl | hq
      · rw [h12] at hu
        rw [h10]
        cases parent with
        | none => cases hu
        | some a =>
          have ha := hp a rfl
          simp only [Option.map_some, Option.some.injEq] at hu ⊢
          rcases List.mem_cons.1 hr with rfl | hr
          · exact absurd hu (hfresh a ha)
          · rw [inj_of_nodup h.uids ha hr hu]
      · rcases List.mem_cons.1 hr with rfl | hr
        · rename_i hq'
          have := h.pold q hq' _ hu; omega
        · exact h.parent q hq r hr hu
    · intro q hq
      rw [h6] at hq
      rcases List.mem_cons.1 hq with rfl | hq
      · rw [h10]
        cases parent with
        | none => simp
        | some a =>
          simp only [Option.map_some, ne_eq, Option.some.injEq]
          exact fun e => hids.1 (e ▸ List.mem_map_of_mem (hp a rfl))
      · exact h.notSelf q hq
    · intro u hu; rw [hl]; exact h.past u (by omega)
    · intro u; rw [hl]; exact h.once u
    · intro q hq
      rw [hl]
      rw [h6] at hq
      rcases List.mem_cons.1 hq with rfl | hq
      · exact h.past _ (by omega)
      · exact h.alive q hq

theorem good_step (hw : size < 2 ^ w) {s s' : S} (h : Good w size s) {op : Op} (hs : step bytes s op = some s') : Good w size s' := by
  cases op with
  | pick cid =>
    simp only [step] at hs
    split at hs
    · cases hs
      exact h.change h.mem rfl id (by simp) (fun _ _ => ⟨rfl, rfl, rfl, rfl⟩) (fun _ => rfl)
    · cases hs
  | create c =>
    obtain ⟨s1, r, e, h1, _⟩ := h.created hw (bytes := bytes) c none (by simp)
    simp only [Option.map_none] at e
    simp only [step, e, Option.map_some, Option.some.injEq] at hs
    subst hs
    exact h1
  | spawn c cells handled =>
    simp only [step] at hs
    split at hs
    · cases hs
    · rename_i p hp
      have hm := (running_mem hp).1
      obtain ⟨s1, r, e, h1, h2⟩ := h.created hw (bytes := bytes) c (some p) (by rintro q ⟨⟩; exact hm)
      simp only [Option.map_some] at e
      rw [e] at hs
      cases r with
      | some _ => cases hs; exact h1
      | none => cases hs; exact h1.error hw (h2 rfl ▸ hm) _ _ _
  | ok v cells handled =>
    simp only [step, Option.map_eq_some_iff] at hs
    obtain ⟨p, hp, rfl⟩ := hs
    exact h.ok hw (running_mem hp).1 _ _ _
  | error e cells handled =>
    simp only [step, Option.map_eq_some_iff] at hs
    obtain ⟨p, hp, rfl⟩ := hs
    exact h.error hw (running_mem hp).1 _ _ _
  | killSelf =>
    simp only [step, Option.map_eq_some_iff] at hs
    obtain ⟨p, hp, rfl⟩ := hs
    exact h.finish hw (running_mem hp).1
  | send cid v =>
    simp only [step, Option.map_eq_some_iff] at hs
    obtain ⟨p, hp, rfl⟩ := hs
    obtain ⟨h1, h2, h3, h4⟩ := deliver_live (s := s) (c := cid) (v := .user v) (u := p.uid)
    have hm : Inv true w size (s.deliver cid (.user v) p.uid).mem (s.deliver cid (.user v) p.uid).live := by rw [h1, h2]; exact h.mem
    revert hm h4
    simp only [S.deliver]
    split
    · exact fun _ _ => h
    · intro h4 hm
      refine h.change hm h4 _ rfl (fun p _ => by split <;> exact ⟨rfl, rfl, rfl, rfl⟩) fun u => ?_
      simp [S.exits, List.countP_append, Msg.isExit]
  | recv k =>
    simp only [step, Option.map_eq_some_iff] at hs
    obtain ⟨p, hp, rfl⟩ := hs
    refine h.change ?_ rfl _ rfl (fun p _ => by split <;> exact ⟨rfl, rfl, rfl, rfl⟩) fun u => rfl
    have : ∀ l : List Proc, (l.map (fun q => if q.id = p.id then { q with mail := q.mail.eraseIdx k } else q)).flatMap Proc.blocks = l.flatMap Proc.blocks := fun l => by
      rw [List.flatMap_map]
      congr 1
      funext q
      split <;> rfl
    simp only [S.live, this]
    exact h.mem
  | resize n dead =>
    simp only [step] at hs
    split at hs
    · cases hs
    · rename_i p hp
      have hm := (running_mem hp).1
      obtain ⟨m1, o1, r, e, _, h1⟩ := allocRetry_inv hw (allocate_allocates hw n) (dead := dead) h.mem
      rw [e] at hs
      cases r with
      | none =>
        cases hs
        exact h.change h1 rfl id (by simp) (fun _ _ => ⟨rfl, rfl, rfl, rfl⟩) (fun _ => rfl)
      | some mb =>
        simp only at hs h1
        split at hs
        · cases hs
        · cases hs
          refine h.change ?_ rfl _ rfl (fun p _ => by split <;> exact ⟨rfl, rfl, rfl, rfl⟩) fun u => rfl
          obtain ⟨l1, l2, e1, _⟩ := filter_split (ids_nodup h.mem) hm
          have hids := ids_nodup h.mem
          rw [e1, List.map_append, List.map_cons, List.nodup_append, List.nodup_cons] at hids
          have k1 : l1.map (fun q => if q.id = p.id then { q with mbox := (mb, n) } else q) = l1 := by
            refine (List.map_congr_left fun q hq => ?_).trans (List.map_id _)
            rw [if_neg (hids.2.2 _ (List.mem_map_of_mem hq) _ List.mem_cons_self)]
            rfl
          have k2 : l2.map (fun q => if q.id = p.id then { q with mbox := (mb, n) } else q) = l2 := by
            refine (List.map_congr_left fun q hq => ?_).trans (List.map_id _)
            rw [if_neg (fun e : q.id = p.id => hids.2.1.1 (e ▸ List.mem_map_of_mem hq))]
            rfl
          refine free_perm hw (k := p.mbox.2) h1 ?_
          rw [List.perm_iff_count]
          intro x
          simp only [S.live, e1, List.map_append, List.map_cons, k1, k2, if_true, List.flatMap_append, List.flatMap_cons, Proc.blocks, List.cons_append, List.nil_append,
            List.count_append, List.count_cons]
          rw [show ((p.mbox.1, p.mbox.2) == x) = (p.mbox == x) from rfl]
          omega
  | alloc n =>
    simp only [step] at hs
    obtain ⟨m1, r, e, h1⟩ := allocate_allocates hw n s.mem _ h.mem
    simp only at e
    rw [e] at hs
    cases r with
    | none => cases hs; exact h.change h1 rfl id (by simp) (fun _ _ => ⟨rfl, rfl, rfl, rfl⟩) (fun _ => rfl)
    | some a => cases hs; exact h.change h1 rfl id (by simp) (fun _ _ => ⟨rfl, rfl, rfl, rfl⟩) (fun _ => rfl)
  | collect dead =>
    cases hs
    exact h.change (gc_inv hw dead h.mem).1 rfl id (by simp) (fun _ _ => ⟨rfl, rfl, rfl, rfl⟩) (fun _ => rfl)

theorem reach_good {reserve : Nat} (h0 : 0 < size) (hw : size < 2 ^ w) {s : S} (h : Reach bytes w size reserve s) : Good w size s := by
  induction h with
  | init => exact ⟨Mem.init_inv true w size reserve h0, List.nodup_nil, by simp, by simp, by simp, by simp, fun _ _ => rfl, fun _ => Nat.zero_le _, by simp⟩
  | step _ hs ih => exact good_step hw ih hs

/-! ## Properties -/

variable {reserve : Nat}

/-- C94: after any history, each word of the memory is free, or belongs to exactly one thing: to one context or to something else. A context owns nothing but its
blocks, so when all contexts have ended, all that they used is free again. -/
theorem C94_memory_given_back (h0 : 0 < size) (hw : size < 2 ^ w) {s : S} (h : Reach bytes w size reserve s) :
    (s.others ++ s.procs.flatMap Proc.blocks).Pairwise Block.disjoint ∧
    s.mem.numFree + Mem.liveWords s.others + (s.procs.map fun p => Mem.liveWords p.blocks).sum = size ∧
    (s.procs = [] → s.mem.numFree = size - Mem.liveWords s.others) := by
  have hg := reach_good h0 hw h
  have h1 := Mem.inv_numFree hg.mem
  have e : Mem.liveWords s.live = Mem.liveWords s.others + (s.procs.map fun p => Mem.liveWords p.blocks).sum := by
    simp only [S.live, Mem.liveWords, List.map_append, List.sum_append_nat, Nat.add_left_cancel_iff]
    induction s.procs with
    | nil => rfl
    | cons p l ih => simp only [List.flatMap_cons, List.map_append, List.sum_append_nat, List.map_cons, List.sum_cons, ih]
  refine ⟨Mem.inv_pairwise hg.mem, by omega, fun hp => ?_⟩
  rw [hp] at e
  simp only [List.map_nil, List.sum_nil] at e
  omega

/-- C94: a context can be created or not; if it cannot, no memory is lost, and all that has happened is that garbage was collected. There is no undefined behaviour. -/
theorem C94_failed_create (h0 : 0 < size) (hw : size < 2 ^ w) {s : S} (h : Reach bytes w size reserve s) (c : New) :
    ∃ s' r, create bytes s c none none = some (s', r) ∧ s'.others.Sublist s.others ∧
      (r = none → s'.procs = s.procs ∧ s'.mem.numFree + Mem.liveWords s'.others = s.mem.numFree + Mem.liveWords s.others) := by
  obtain ⟨s', r, e, h1, _, _, h2, h3⟩ := create_inv hw (reach_good h0 hw h).mem c (bytes := bytes) none none
  refine ⟨s', r, e, h1, fun hr => ?_⟩
  subst hr
  have h4 := C94_memory_given_back h0 hw h
  have h5 := C94_memory_given_back h0 hw (.step (s' := s') (op := .create c) h (by simp only [step, e, Option.map_some]))
  refine ⟨h3.1, ?_⟩
  have := h4.2.1
  have := h5.2.1
  rw [h3.1] at this
  omega

/-- C94: at each time different contexts have different ids. -/
theorem C94_ids_distinct (h0 : 0 < size) (hw : size < 2 ^ w) {s : S} (h : Reach bytes w size reserve s) : (s.procs.map Proc.id).Nodup := ids_nodup (reach_good h0 hw h).mem

/-- C95: when a context that was made with `spawn-trap` ends with the value `v` while its parent exists, and there are three free cells, then the last message in the mailbox of its parent is
`(exit-ok id v)`, no other context gets a message, and the context is gone. -/
theorem C95_exit_ok (h0 : 0 < size) (hw : size < 2 ^ w) {s s' : S} (h : Reach bytes w size reserve s) {p q : Proc} (hr : s.running = some p) (ht : p.trap = true) (hq : q ∈ s.procs)
    (hpq : p.puid = some q.uid) {v cells : Nat} {handled : Bool} (hc : 3 ≤ cells) (hs : step bytes s (.ok v cells handled) = some s') :
    s'.log = s.log ++ [(q.uid, .exitOk p.id v, p.uid)] ∧ q.add (.exitOk p.id v) ∈ s'.procs ∧ (∀ r ∈ s'.procs, r.uid ≠ p.uid ∧ (r.uid = q.uid ∨ r ∈ s.procs)) := by
  have hg := reach_good h0 hw h
  have hp := (running_mem hr).1
  simp only [step, hr, Option.map_some, Option.some.injEq, S.ok, ht, if_true, hc] at hs
  subst hs
  exact told_spec hg hp hq hpq _

/-- C95: the same for an error; the error is not caught by a `trap` in the program of the context. -/
theorem C95_exit_error (h0 : 0 < size) (hw : size < 2 ^ w) {s s' : S} (h : Reach bytes w size reserve s) {p q : Proc} (hr : s.running = some p) (ht : p.trap = true) (hq : q ∈ s.procs)
    (hpq : p.puid = some q.uid) {v cells : Nat} {handled : Bool} (hc : 3 ≤ cells) (hs : step bytes s (.error v cells handled) = some s') :
    s'.log = s.log ++ [(q.uid, .exitError p.id v, p.uid)] ∧ q.add (.exitError p.id v) ∈ s'.procs ∧ (∀ r ∈ s'.procs, r.uid ≠ p.uid ∧ (r.uid = q.uid ∨ r ∈ s.procs)) := by
  have hg := reach_good h0 hw h
  have hp := (running_mem hr).1
  simp only [step, hr, Option.map_some, Option.some.injEq, S.error, ht, hc, and_self, if_true] at hs
  subst hs
  exact told_spec hg hp hq hpq _

/-- C95: a context sends at most one message about its end, and none before its end. -/
theorem C95_at_most_one (h0 : 0 < size) (hw : size < 2 ^ w) {s : S} (h : Reach bytes w size reserve s) :
    (∀ u, s.exits u ≤ 1) ∧ ∀ p ∈ s.procs, s.exits p.uid = 0 :=
  ⟨(reach_good h0 hw h).once, (reach_good h0 hw h).alive⟩

/-! ## Examples and violations -/

/-- Several operations. -/
def steps (bytes : Nat) : S → List Op → Option S
  | s, [] => some s
  | s, op :: l => match step bytes s op with
    | none => none
    | some s' => steps bytes s' l

theorem steps_reach : ∀ (l : List Op) {s s' : S}, Reach bytes w size reserve s → steps bytes s l = some s' → Reach bytes w size reserve s'
  | [], _, _, h, e => by cases e; exact h
  | op :: l, s, s', h, e => by
    simp only [steps] at e
    split at e
    · cases e
    · rename_i s1 e1
      exact steps_reach l (.step h e1) e

/-- A context with a stack of 8 words. -/
def small (trap : Bool) : New := ⟨8, none, trap, [], [], [], []⟩

/-- A memory of 256 words of 32 bits. -/
def empty : S := ⟨Mem.init 32 256 0, [], [], none, 0, []⟩

/-- A context that has made another one with `spawn-trap`. -/
def demo : List Op := [.create (small false), .pick 0, .spawn (small true) 10 false]

theorem witness {l : List Op} {Q : S → Prop} [DecidablePred Q] (h : (match steps 92 empty l with | some s => decide (Q s) | none => false) = true) :
    ∃ s, steps 92 empty l = some s ∧ Reach 92 32 256 0 s ∧ Q s := by
  split at h
  · rename_i s e
    exact ⟨s, e, steps_reach l .init e, of_decide_eq_true h⟩
  · cases h

/-- Example: the second context runs and ends; afterwards there is one message for the first one, and the memory of the second one is free. -/
example : ∃ s, steps 92 empty (demo ++ [.pick 41, .ok 7 10 false]) = some s ∧ Reach 92 32 256 0 s ∧
    (s.log = [(0, .exitOk 41 7, 1)] ∧ s.procs.map Proc.mail = [[.exitOk 41 7]] ∧ s.mem.numFree = 256 - 41) := witness (by decide +kernel)

/-- Example: a failed creation. The first context can be made, for the second one there is too little memory; nothing is lost. -/
example : (match step 92 ⟨Mem.init 32 64 0, [], [], none, 0, []⟩ (.create (small false)) with
    | some s => match create 92 s (small false) none none with | some (s', none) => s.mem.numFree == 23 && s'.mem.numFree == 23 | _ => false
    | none => false) = true := by decide +kernel

/-- C94, what does not hold: ids are used again. A context that has kept the id of one that has ended sends its message to another context. -/
theorem C94_id_reused_violated : ∃ l1 l2 s1 s2, steps 92 empty l1 = some s1 ∧ Reach 92 32 256 0 s1 ∧ steps 92 empty (l1 ++ l2) = some s2 ∧ Reach 92 32 256 0 s2 ∧
    s1.procs.map (fun p => (p.id, p.uid)) = [(41, 1), (0, 0)] ∧ s2.procs.map (fun p => (p.id, p.uid, p.mail)) = [(41, 2, [.user 5]), (0, 0, [.exitOk 41 7])] := by
  obtain ⟨s1, a1, a2, a3⟩ := witness (l := demo) (Q := fun s => s.procs.map (fun p => (p.id, p.uid)) = [(41, 1), (0, 0)]) (by decide +kernel)
  obtain ⟨s2, b1, b2, b3⟩ := witness (l := demo ++ [.pick 41, .ok 7 10 false, .pick 0, .spawn (small true) 10 false, .send 41 5])
    (Q := fun s => s.procs.map (fun p => (p.id, p.uid, p.mail)) = [(41, 2, [.user 5]), (0, 0, [.exitOk 41 7])]) (by decide +kernel)
  exact ⟨demo, _, s1, s2, a1, a2, b1, b2, a3, b3⟩

/-- C95, what does not hold: a context that kills itself sends no message. -/
theorem C95_self_kill_violated : ∃ s s' p, Reach 92 32 256 0 s ∧ s.running = some p ∧ p.trap = true ∧ (∃ q ∈ s.procs, p.puid = some q.uid) ∧
    step 92 s .killSelf = some s' ∧ s'.log = [] ∧ s'.procs.map Proc.mail = [[]] := by
  obtain ⟨s, a1, a2, a3⟩ := witness (l := demo ++ [.pick 41]) (Q := fun s => (s.running.map fun p => (p.trap, p.puid)) = some (true, some 0) ∧ (s.procs.map Proc.uid).contains 0 = true ∧
    (match step 92 s .killSelf with | some s' => decide (s'.log = []) && decide (s'.procs.map Proc.mail = [[]]) | none => false) = true) (by decide +kernel)
  obtain ⟨h1, h2, h3⟩ := a3
  obtain ⟨p, hp, e⟩ := Option.map_eq_some_iff.1 h1
  split at h3
  rotate_left
  · cases h3
  rename_i s' hs
  simp only [List.contains_iff_mem, List.mem_map] at h2
  obtain ⟨q, hq, e2⟩ := h2
  simp only [Prod.mk.injEq] at e
  simp only [Bool.and_eq_true, decide_eq_true_eq] at h3
  exact ⟨s, s', p, a2, hp, e.1, ⟨q, hq, by rw [e.2, e2]⟩, hs, h3.1, h3.2⟩

/-- C95, what does not hold: if fewer than three cells are free, a context that ends with an error sends no message. -/
theorem C95_no_memory_violated : ∃ s s' p, Reach 92 32 256 0 s ∧ s.running = some p ∧ p.trap = true ∧ (∃ q ∈ s.procs, p.puid = some q.uid) ∧
    step 92 s (.error 0x22 2 false) = some s' ∧ s'.log = [] ∧ s'.procs.map Proc.mail = [[]] := by
  obtain ⟨s, a1, a2, a3⟩ := witness (l := demo ++ [.pick 41]) (Q := fun s => (s.running.map fun p => (p.trap, p.puid)) = some (true, some 0) ∧ (s.procs.map Proc.uid).contains 0 = true ∧
    (match step 92 s (.error 0x22 2 false) with | some s' => decide (s'.log = []) && decide (s'.procs.map Proc.mail = [[]]) | none => false) = true) (by decide +kernel)
  obtain ⟨h1, h2, h3⟩ := a3
  obtain ⟨p, hp, e⟩ := Option.map_eq_some_iff.1 h1
  split at h3
  rotate_left
  · cases h3
  rename_i s' hs
  simp only [List.contains_iff_mem, List.mem_map] at h2
  obtain ⟨q, hq, e2⟩ := h2
  simp only [Prod.mk.injEq] at e
  simp only [Bool.and_eq_true, decide_eq_true_eq] at h3
  exact ⟨s, s', p, a2, hp, e.1, ⟨q, hq, by rw [e.2, e2]⟩, hs, h3.1, h3.2⟩

/-- C95, what does not hold: if the parent (`uid` 0) has ended, the message goes to whatever context has got its id (`uid` 2). -/
theorem C95_stranger_violated : ∃ s, Reach 92 32 256 0 s ∧ s.procs.map (fun p => (p.uid, p.mail)) = [(2, [.exitOk 41 7])] ∧ s.log = [(2, .exitOk 41 7, 1)] := by
  obtain ⟨s, _, a2, a3⟩ := witness (l := demo ++ [.ok 1 10 false, .create (small false), .pick 41, .ok 7 10 false])
    (Q := fun s => s.procs.map (fun p => (p.uid, p.mail)) = [(2, [.exitOk 41 7])] ∧ s.log = [(2, .exitOk 41 7, 1)]) (by decide +kernel)
  exact ⟨s, a2, a3⟩

end Verif.Proc
