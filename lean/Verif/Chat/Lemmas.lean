import Verif.Chat.Spec

/-! # Lemmas about messages -/

namespace Verif.Chat
open Verif.Sched Verif.Mbox Verif.Eq

variable {F : Flt} {w : Nat}

theorem put_same {α : Type} (g : Cid → α) (c : Cid) (v : α) : put g c v c = v := if_pos rfl
theorem put_ne {α : Type} (g : Cid → α) {c d : Cid} (v : α) (h : d ≠ c) : put g c v d = g d := if_neg h

/-- What holds in all states: the contexts are in order, their mailboxes are in order, and who waits in `recv` has no message that fits. -/
structure Inv (F : Flt) (x : W) (r b : List Cid) : Prop where
  placed : Placed x.s x.live r b
  wf : ∀ c ∈ x.live, (x.box c).WF
  wait : ∀ c ∈ b, (x.s.info c).state.isRecv = true → ∃ cs to, x.pend c = some (cs, to) ∧ ∀ e ∈ (x.box c).mail, ¬ Accepts F cs e

/-- The effect of an action on the scheduler is that of an operation, or none; what does not concern a context does not change its mailbox and what it does next. -/
structure Eff (F : Flt) (w : Nat) (x : W) (b : List Cid) (op : Option Op) (y : W) : Prop where
  ok : match op with
    | none => y.s = x.s ∧ y.live = x.live
    | some op => Allowed x.s x.live op ∧ Does w x.s op y.s ∧ y.live = liveAfter x.s x.live op
  wf : ∀ c ∈ y.live, (y.box c).WF
  box : ∀ c, x.s.running ≠ some c → (∀ o, op = some o → c ∉ timedOut w x.s b o ∧ o ≠ .create c ∧ o ≠ .send c) → y.box c = x.box c
  pend : ∀ c, x.s.running ≠ some c → op ≠ some (.create c) → op ≠ some (.kill c) → y.pend c = x.pend c
  new : ∀ c, x.s.running = some c → x.s.atomic = false → ∀ t now us tr, op = some (.block t now us tr) → t.isRecv = true →
    ∃ cs to, y.pend c = some (cs, to) ∧ ∀ e ∈ (y.box c).mail, ¬ Accepts F cs e

/-- Who stays blocked was not concerned. -/
theorem stay_info {s s' : S} {live r b : List Cid} {op : Op} {c : Cid} (h : Placed s live r b) (ho : Allowed s live op) (hd : Does w s op s') (hb : c ∈ b) (ha : c ∈ (after w s r b op).blocked) :
    s'.info c = s.info c ∧ c ∉ timedOut w s b op ∧ op ≠ .kill c ∧ (op = .send c → (s.info c).state.isRecv = false) := by
  have hnd := (List.nodup_append.1 (placed_qs h).nodup).2.1
  have hne : ∀ {d : Cid}, c ∈ b.erase d → d ≠ c := by
    rintro d hd rfl
    exact (List.Nodup.mem_erase_iff hnd).1 hd |>.1 rfl
  have main : Spares w c (s.info c) op → c ∉ timedOut w s b op → op ≠ .kill c → (op = .send c → (s.info c).state.isRecv = false) →
      s'.info c = s.info c ∧ c ∉ timedOut w s b op ∧ op ≠ .kill c ∧ (op = .send c → (s.info c).state.isRecv = false) := fun h1 h2 h3 h4 => ⟨(does_info h ho hd hb h1).2, h2, h3, h4⟩
  cases op with
  | kill d =>
    have : d ≠ c := by
      simp only [after] at ha
      split at ha
      · exact hne ha
      · rename_i hd
        rintro rfl; exact hd hb
    exact main this (by simp [timedOut]) (by rw [ne_eq, Op.kill.injEq]; exact this) (by simp)
  | send d =>
    have : d = c → (s.info c).state.isRecv = false := by
      rintro rfl
      simp only [after] at ha
      split at ha
      · exact absurd rfl (hne ha)
      · rename_i hd
        have := fun g => hd ⟨hb, g⟩
        revert this
        cases (s.info d).state <;> simp [TState.isRecv]
    exact main this (by simp [timedOut]) (by simp) (fun e => this (by cases e; rfl))
  | unblock d =>
    refine main ?_ (by simp [timedOut]) (by simp) (by simp)
    rintro rfl
    simp only [after] at ha
    split at ha
    · exact absurd rfl (hne ha)
    · rename_i hd
      have := fun g => hd ⟨hb, g⟩
      revert this
      cases (s.info d).state <;> simp [TState.unblockable]
  | round now =>
    by_cases hat : s.atomic = true
    · obtain ⟨n, hd⟩ := hd
      have e := hd n (Nat.le_refl _)
      simp only [step, opRound, hat, if_true] at e
      cases e
      exact ⟨rfl, by simp [timedOut, hat], by simp, by simp⟩
    · have hdue : due w now (s.info c) = false := by
        simp only [after, hat, Bool.false_eq_true, if_false, List.mem_filter] at ha
        simpa using ha.2
      exact main hdue (by simp [timedOut, hat, hdue]) (by simp) (by simp)
  | reset => simp [after] at ha
  | create _ => exact main trivial (by simp [timedOut]) (by simp) (by simp)
  | finish => exact main trivial (by simp [timedOut]) (by simp) (by simp)
  | block _ _ _ _ => exact main trivial (by simp [timedOut]) (by simp) (by simp)
  | enterAtomic _ => exact main trivial (by simp [timedOut]) (by simp) (by simp)
  | exitAtomic => exact main trivial (by simp [timedOut]) (by simp) (by simp)

/-- Only the running context becomes blocked. -/
theorem new_blocked {s s' : S} {r b : List Cid} {op : Op} {c : Cid} (hd : Does w s op s') (hb : c ∉ b) (ha : c ∈ (after w s r b op).blocked) :
    s.running = some c ∧ s.atomic = false ∧ ∃ t now us tr, op = .block t now us tr ∧ (s'.info c).state = t := by
  have he : ∀ {d : Cid}, c ∉ b.erase d := fun h => hb (List.mem_of_mem_erase h)
  cases op with
  | block t now us tr =>
    obtain ⟨n, hd⟩ := hd
    have e := hd n (Nat.le_refl _)
    simp only [after] at ha
    split at ha
    · exact absurd ha hb
    · rename_i hat
      have hr : s.running = some c := by
        rcases List.mem_append.1 ha with h | h
        · exact absurd h hb
        · exact Option.mem_toList.1 h
      refine ⟨hr, by simpa using hat, t, now, us, tr, rfl, ?_⟩
      simp only [step, opBlock, hat, Bool.false_eq_true, if_false, hr] at e
      cases e
      simp [S.toBlocked, S.setInfo]
  | kill d => simp only [after] at ha; split at ha; exact absurd ha he; split at ha <;> exact absurd ha hb
  | send d => simp only [after] at ha; split at ha; exact absurd ha he; exact absurd ha hb
  | unblock d => simp only [after] at ha; split at ha; exact absurd ha he; exact absurd ha hb
  | round now =>
    simp only [after] at ha
    split at ha
    · exact absurd ha hb
    · exact absurd (List.mem_filter.1 ha).1 hb
  | reset => simp [after] at ha
  | create _ => exact absurd ha hb
  | finish => exact absurd ha hb
  | enterAtomic _ => exact absurd ha hb
  | exitAtomic => exact absurd ha hb

/-- The invariant is kept. -/
theorem eff_inv {x y : W} {r b : List Cid} {op : Option Op} (h : Inv F x r b) (he : Eff F w x b op y) :
    Inv F y (op.elim r fun o => (after w x.s r b o).ready) (op.elim b fun o => (after w x.s r b o).blocked) := by
  have hrun : ∀ c ∈ b, x.s.running ≠ some c := fun c hc e => (placed_running h.placed e).2 hc
  have hlive : ∀ c ∈ b, c ∈ x.live := fun c hc => h.placed.all.mem_iff.1 (List.mem_append_right _ hc)
  cases op with
  | none =>
    obtain ⟨e1, e2⟩ := he.ok
    refine ⟨by rw [e1, e2]; exact h.placed, he.wf, fun c hc hs => ?_⟩
    rw [e1] at hs
    rw [he.pend c (hrun c hc) (by simp) (by simp), he.box c (hrun c hc) (by simp)]
    exact h.wait c hc hs
  | some op =>
    obtain ⟨ho, hd, e2⟩ := he.ok
    refine ⟨by rw [e2]; exact (does_spec h.placed ho hd).1, he.wf, fun c hc hs => ?_⟩
    simp only [Option.elim_some] at hc
    by_cases hb : c ∈ b
    · obtain ⟨h1, h2, h3, h4⟩ := stay_info h.placed ho hd hb hc
      rw [h1] at hs
      have hcr : op ≠ .create c := by rintro rfl; exact ho (hlive c hb)
      rw [he.pend c (hrun c hb) (fun e => hcr (Option.some.inj e)) (fun e => h3 (Option.some.inj e)),
        he.box c (hrun c hb) (fun o e => by cases e; exact ⟨h2, hcr, fun e => by rw [h4 e] at hs; cases hs⟩)]
      exact h.wait c hb hs
    · obtain ⟨h1, h2, t, now, us, tr, h3, h4⟩ := new_blocked hd hb hc
      rw [h4] at hs
      exact he.new c h1 h2 t now us tr (by rw [h3]) hs

/-! ### The parts of an action -/

theorem addTimeouts_spec : ∀ (l : List Cid) (box : Cid → Mbox T), (∀ c ∈ l, (box c).WF) →
    ∃ box', addTimeouts l box = some box' ∧ (∀ c, (box c).WF → (box' c).WF) ∧ ∀ c, c ∉ l → box' c = box c
  | [], box, _ => ⟨box, rfl, fun _ h => h, fun _ _ => rfl⟩
  | c :: l, box, h => by
    obtain ⟨m, e, wf, -⟩ := C35_send (h c (by simp)) (.sym symTimeout)
    have hwf : ∀ d, (box d).WF → (put box c m d).WF := fun d hd => by
      by_cases hdc : d = c
      · subst hdc; rw [put_same]; exact wf
      · rw [put_ne _ _ hdc]; exact hd
    obtain ⟨box', e', h1, h2⟩ := addTimeouts_spec l (put box c m) (fun d hd => hwf d (h d (by simp [hd])))
    refine ⟨box', by rw [addTimeouts, e]; exact e', fun d hd => h1 d (hwf d hd), fun d hd => ?_⟩
    simp only [List.mem_cons, not_or] at hd
    rw [h2 d hd.2, put_ne _ _ hd.1]

theorem liveAfter_mem {s : S} {live : List Cid} {op : Op} {c : Cid} (h : c ∈ liveAfter s live op) : c ∈ live ∨ op = .create c := by
  cases op <;> simp only [liveAfter] at h
  case create d => simpa [or_comm, eq_comm] using h
  case reset => simp at h
  all_goals
    left
    split at h
    · exact (List.mem_filter.1 h).1
    · exact h

theorem sched_spec {x : W} {r b : List Cid} (h : Inv F x r b) {op : Op} (ho : Allowed x.s x.live op) :
    ∃ y, (∀ f ≥ r.length + b.length, sched w f x op = some (y, .none)) ∧ Does w x.s op y.s ∧ y.live = liveAfter x.s x.live op ∧ (∀ c ∈ y.live, (y.box c).WF) ∧
      (∀ c, c ∉ timedOut w x.s b op → op ≠ .create c → y.box c = x.box c) ∧ y.pend = pendAfter x.pend op := by
  obtain ⟨s', e, p, hr, -, ht⟩ := sim (w := w) h.placed ho
  have htb : ∀ c ∈ timedOut w x.s b op, c ∈ b := by
    intro c hc
    cases op <;> simp only [timedOut, List.not_mem_nil] at hc
    split at hc
    · simp at hc
    · exact (List.mem_filter.1 hc).1
  have hlive : ∀ c ∈ b, c ∈ x.live := fun c hc => h.placed.all.mem_iff.1 (List.mem_append_right _ hc)
  obtain ⟨box', e', h1, h2⟩ := addTimeouts_spec (timedOut w x.s b op) x.box (fun c hc => h.wf c (hlive c (htb c hc)))
  refine ⟨⟨s', liveAfter x.s x.live op, boxAfter box' op, pendAfter x.pend op⟩, fun f hf => ?_, ⟨_, e⟩, rfl, fun c hc => ?_, fun c hc hcr => ?_, rfl⟩
  · unfold sched
    rw [e f hf]
    simp only
    rw [ht, List.drop_left, e']
  · show (boxAfter box' op c).WF
    by_cases hcr : op = .create c
    · subst hcr
      simp only [boxAfter, put_same]
      exact ⟨Nat.zero_le _, Nat.succ_pos _⟩
    · have := h1 c (h.wf c ((liveAfter_mem hc).resolve_right hcr))
      cases op with
      | create d =>
        have hdc : c ≠ d := by rintro rfl; exact hcr rfl
        simp only [boxAfter]
        rw [put_ne _ _ hdc]; exact this
      | _ => exact this
  · show boxAfter box' op c = x.box c
    have := h2 c hc
    cases op with
    | create d =>
      have hdc : c ≠ d := by rintro rfl; exact hcr rfl
      simp only [boxAfter]
      rw [put_ne _ _ hdc]; exact this
    | _ => exact this

theorem pendAfter_ne {pend : Cid → Option (List Clause × Bool)} {op : Op} {c : Cid} (h1 : op ≠ .create c) (h2 : op ≠ .kill c) : pendAfter pend op c = pend c := by
  cases op <;> simp only [pendAfter]
  · exact put_ne _ _ (by rintro rfl; exact h1 rfl)
  · exact put_ne _ _ (by rintro rfl; exact h2 rfl)

theorem find_spec {x : W} {r b : List Cid} (h : Inv F x r b) (c : Cid) : ∀ f ≥ r.length + b.length, find f x.s c = some (decide (c ∈ x.live)) := by
  intro f hf
  have hm : c ∈ x.live ↔ x.s.running = some c ∨ c ∈ r ∨ c ∈ b := by
    rw [← h.placed.all.mem_iff]; simp [Option.mem_toList, or_assoc]
  obtain ⟨q1, _, q3⟩ := h.placed.blocked_ok
  obtain ⟨g1, _, g3⟩ := h.placed.ready_ok
  unfold find
  rw [q1, lookup_spec q3 f (by omega), g1, lookup_spec g3 f (by omega)]
  by_cases hb : c ∈ b
  · simp [hb, hm]
  · by_cases hr : c ∈ r
    · simp [hb, hr, hm]
    · simp [hb, hr, hm]

/-- Sending. -/
theorem send_spec {x : W} {r b : List Cid} (h : Inv F x r b) (c : Cid) (v : T) :
    ∃ y, (∀ f ≥ r.length + b.length, send f x c v = some (y, .sent (decide (c ∈ x.live)))) ∧ Eff F w x b (some (.send c)) y ∧ y.live = x.live ∧ y.pend = x.pend ∧ (∀ d, d ≠ c → y.box d = x.box d) ∧
      (c ∉ x.live → y = x) ∧ (c ∈ x.live → (y.box c).size = (x.box c).size ∧ (y.box c).mail = (if (x.box c).mail.length < (x.box c).size then (x.box c).mail else (x.box c).mail.tail) ++ [v]) := by
  obtain ⟨s', t, e, p, g1, g2, g3, g4⟩ := release_spec (c := c) h.placed TState.isRecv
  have hd : Does w x.s (.send c) s' := ⟨_, fun f hf => by simp only [step]; rw [e f hf]; rfl⟩
  have hf := find_spec h c
  by_cases hl : c ∈ x.live
  · obtain ⟨m, em, wf, sz, ml⟩ := C35_send (h.wf c hl) v
    refine ⟨{ x with s := s', box := put x.box c m }, fun f hff => ?_, ⟨⟨trivial, hd, rfl⟩, fun d hd => ?_, fun d _ ho => ?_, fun d _ _ _ => rfl, (fun _ _ _ _ _ _ _ e => by cases e)⟩, rfl, rfl, fun d hd => put_ne _ _ hd,
      fun g => absurd hl g, fun _ => ?_⟩
    · unfold send
      rw [hf f hff, decide_eq_true hl]
      simp only
      rw [e f hff]
      simp only
      rw [em]
    · simp only
      by_cases hdc : d = c
      · subst hdc; rw [put_same]; exact wf
      · rw [put_ne _ _ hdc]; exact h.wf d hd
    · exact put_ne _ _ (by rintro rfl; exact (ho _ rfl).2.2 rfl)
    · simp only [put_same]; exact ⟨sz, ml⟩
  · have hb : c ∉ b := fun hb => hl (h.placed.all.mem_iff.1 (List.mem_append_right _ hb))
    have hs : s' = x.s := by
      have e1 := e (r.length + b.length) (Nat.le_refl _)
      obtain ⟨q1, _, q3⟩ := h.placed.blocked_ok
      unfold release at e1
      rw [q1, lookup_spec q3 _ (by omega), decide_eq_false hb] at e1
      simp only [Option.some.injEq, Prod.mk.injEq] at e1
      exact e1.1.symm
    rw [hs] at hd
    refine ⟨x, fun f hff => ?_, ⟨⟨trivial, hd, rfl⟩, h.wf, fun _ _ _ => rfl, fun _ _ _ _ => rfl, (fun _ _ _ _ _ _ _ e => by cases e)⟩, rfl, rfl, fun _ _ => rfl, fun _ => rfl, fun g => absurd g hl⟩
    unfold send
    rw [hf f hff, decide_eq_false hl]

/-- An operation of the scheduler. -/
theorem sched_eff {x : W} {r b : List Cid} (h : Inv F x r b) {op : Op} (ho : Allowed x.s x.live op) (hn : ∀ t now us tr, op = .block t now us tr → t.isRecv = false) :
    ∃ y, (∀ f ≥ r.length + b.length, sched w f x op = some (y, .none)) ∧ Eff F w x b (some op) y ∧ y.pend = pendAfter x.pend op ∧ (∀ c, c ∉ timedOut w x.s b op → op ≠ .create c → y.box c = x.box c) := by
  obtain ⟨y, e, hd, hl, wf, bx, pd⟩ := sched_spec (w := w) h ho
  refine ⟨y, e, ⟨⟨ho, hd, hl⟩, wf, fun c _ hc => bx c (hc op rfl).1 (hc op rfl).2.1, fun c _ h1 h2 => ?_, fun c _ _ t now us tr e1 e2 => ?_⟩, pd, bx⟩
  · rw [pd]; exact pendAfter_ne (fun e => h1 (by rw [e])) (fun e => h2 (by rw [e]))
  · rw [hn t now us tr (Option.some.inj e1)] at e2; cases e2

/-- How the operation on the scheduler belongs to the action. -/
structure Tag (x : W) (a : Act) (op : Option Op) : Prop where
  kill : ∀ c, op = some (.kill c) → a = .sched (.kill c)
  reset : op = some .reset → a = .sched .reset
  send : ∀ c, op = some (.send c) → ∃ v, a = .send c v
  create : ∀ c, op = some (.create c) → a = .sched (.create c)
  round : roundNow x a = if op.elim false (isRound x.s) then 1 else 0

/-- `recv`. -/
theorem recvIn_spec {x : W} {r b : List Cid} (h : Inv F x r b) {c : Cid} (hr : x.s.running = some c) (cs : List Clause) (to : Bool) (now us : Nat) (env : Env) {free : Nat} (gcFree : Nat) (trapped : Bool) (hroom : Room x c cs free) :
    ∃ y res n op, (∀ f ≥ n, recvIn F w f x c cs to now us env free gcFree trapped = some (y, .received res)) ∧ receive F cs (x.box c) env free gcFree = some res ∧ Eff F w x b op y ∧
      (op = none ∨ op = some .finish ∨ op = some (.block (if to then .recvTo else .recvBl) now us trapped)) ∧
      (∀ m bd e, res = .body m bd e → op = none ∧ y.pend c = none ∧ y.box c = m) := by
  have hlive : c ∈ x.live := h.placed.all.mem_iff.1 (by rw [hr]; simp)
  have hrn : x.s.running ≠ none := by rw [hr]; simp
  have hbl : (if to then TState.recvTo else TState.recvBl) ≠ .ready := by cases to <;> simp
  have hne : ∀ d, x.s.running ≠ some d → d ≠ c := fun d hd e => hd (by rw [e, hr])
  unfold recvIn
  rcases C35_receive (F := F) (h.wf c hlive) (env := env) (gcFree := gcFree) hroom with ⟨hno, er⟩ | ⟨i, e, cl, bd, -, -, -, h4⟩
  · rw [er]
    obtain ⟨y, ey, hd, hl, wf, bx, pd⟩ := sched_spec (w := w) h (op := .block (if to then .recvTo else .recvBl) now us trapped) ⟨hrn, hbl⟩
    have hbx : ∀ d, y.box d = x.box d := fun d => bx d (by simp [timedOut]) (by simp)
    refine ⟨{ y with pend := put y.pend c (if x.s.atomic then none else some (cs, to)) }, .block, r.length + b.length, some (.block (if to then .recvTo else .recvBl) now us trapped), fun f hf => by simp only; rw [ey f hf], rfl,
      ⟨⟨⟨hrn, hbl⟩, hd, hl⟩, wf, fun d _ _ => hbx d, fun d hd h1 h2 => ?_, fun d hd hat t n u tr e1 e2 => ?_⟩, .inr (.inr rfl), (fun _ _ _ e => by cases e)⟩
    · simp only
      rw [put_ne _ _ (hne d hd), pd]; rfl
    · obtain rfl : c = d := Option.some.inj (hr.symm.trans hd)
      simp only [put_same, hat]
      exact ⟨cs, to, rfl, by rw [hbx]; exact hno⟩
  · have fail : ∀ res : Recv, receive F cs (x.box c) env free gcFree = some res → (res = .patternError ∨ res = .noMemory) →
        ∃ y n op, (∀ f ≥ n, (if trapped then some (({ x with pend := put x.pend c none } : W), Res.received res)
          else match sched w f x .finish with
            | none => none
            | some (y, _) => some (({ y with pend := put y.pend c none } : W), Res.received res)) = some (y, .received res)) ∧ Eff F w x b op y ∧
          (op = none ∨ op = some .finish ∨ op = some (.block (if to then .recvTo else .recvBl) now us trapped)) := by
      intro res _ _
      cases trapped with
      | true =>
        exact ⟨_, 0, none, fun f _ => rfl, ⟨⟨rfl, rfl⟩, h.wf, fun _ _ _ => rfl, fun d hd _ _ => put_ne _ _ (hne d hd), (fun _ _ _ _ _ _ _ e => by cases e)⟩, .inl rfl⟩
      | false =>
        obtain ⟨y, ey, hd, hl, wf, bx, pd⟩ := sched_spec (w := w) h (op := .finish) hrn
        refine ⟨{ y with pend := put y.pend c none }, r.length + b.length, some .finish, fun f hf => by simp only [Bool.false_eq_true, if_false]; rw [ey f hf], ⟨⟨hrn, hd, hl⟩, wf, fun d _ _ => bx d (by simp [timedOut]) (by simp), fun d hd h1 h2 => ?_, (fun _ _ _ _ _ _ _ e => by cases e)⟩, .inr (.inl rfl)⟩
        simp only
        rw [put_ne _ _ (hne d hd), pd]; rfl
    split at h4
    · obtain ⟨m', env', er, wf, -, -⟩ := h4
      rw [er]
      refine ⟨_, _, 0, none, fun f _ => rfl, rfl, ⟨⟨rfl, rfl⟩, fun d hd => ?_, fun d hd _ => put_ne _ _ (hne d hd), fun d hd _ _ => put_ne _ _ (hne d hd), (fun _ _ _ _ _ _ _ e => by cases e)⟩, .inl rfl,
        fun m bd e heq => by cases heq; exact ⟨rfl, put_same _ _ _, put_same _ _ _⟩⟩
      simp only
      by_cases hdc : d = c
      · subst hdc; rw [put_same]; exact wf
      · rw [put_ne _ _ hdc]; exact h.wf d hd
    · obtain ⟨y, n, op, e1, e2, e3⟩ := fail .patternError h4 (.inl rfl)
      rw [h4]
      exact ⟨y, .patternError, n, op, e1, rfl, e2, e3, (fun _ _ _ e => by cases e)⟩

/-- Every action that is possible ends well. -/
theorem act_eff {x : W} {r b : List Cid} (h : Inv F x r b) {a : Act} (ho : Ok x a) :
    ∃ y res op, Acts F w x a y res ∧ Eff F w x b op y ∧ Tag x a op := by
  have tagNone : (∀ c v, a ≠ .send c v) → (∀ o, a ≠ .sched o) → Tag x a none := fun h1 h2 =>
    ⟨(fun _ e => by cases e), (fun e => by cases e), (fun _ e => by cases e), (fun _ e => by cases e), by cases a <;> first | rfl | exact absurd rfl (h2 _)⟩
  have tagRecv : ∀ {op : Option Op} {to : Bool} {now us : Nat} {tr : Bool}, (op = none ∨ op = some .finish ∨ op = some (.block (if to then .recvTo else .recvBl) now us tr)) → (∀ o, a ≠ .sched o) → Tag x a op := by
    intro op to now us tr h1 h2
    have hr0 : roundNow x a = 0 := by cases a <;> first | rfl | exact absurd rfl (h2 _)
    rcases h1 with rfl | rfl | rfl <;> exact ⟨(fun _ e => by cases e), (fun e => by cases e), (fun _ e => by cases e), (fun _ e => by cases e), by rw [hr0]; simp [isRound]⟩
  cases a with
  | sched op =>
    obtain ⟨ho1, ho2⟩ := ho
    have hn : ∀ t now us tr, op = .block t now us tr → t.isRecv = false := by rintro t now us tr rfl; exact ho2.1
    obtain ⟨y, e, he, -⟩ := sched_eff (w := w) h ho1 hn
    refine ⟨y, .none, some op, ⟨_, e⟩, he, ⟨(fun c e => by cases e; rfl), (fun e => by cases e; rfl), (fun c e => by cases e; exact ho2.elim), (fun c e => by cases e; rfl), ?_⟩⟩
    cases op <;> simp [roundNow, isRound]
    cases x.s.atomic <;> rfl
  | send c v =>
    obtain ⟨y, e, he, -⟩ := send_spec (w := w) h c v
    exact ⟨y, _, _, ⟨_, e⟩, he, ⟨fun c e => (by cases e), fun e => (by cases e), fun d e => (by cases e; exact ⟨v, rfl⟩), fun c e => (by cases e), by simp [roundNow, isRound]⟩⟩
  | recv cs to now us env free gcFree trapped =>
    obtain ⟨-, c, hr, hroom⟩ := ho
    by_cases hat : x.s.atomic = true
    · obtain ⟨y, e, he, -⟩ := sched_eff (w := w) h (op := .enterAtomic trapped) (by simp [Allowed, hr]) (by rintro _ _ _ _ ⟨⟩)
      refine ⟨y, .none, _, ⟨_, fun f hf => by simp only [wstep, hat, if_true]; exact e f hf⟩, he, ⟨fun c e => (by cases e), fun e => (by cases e), fun d e => (by cases e), fun c e => (by cases e), by simp [roundNow, isRound]⟩⟩
    · obtain ⟨y, res, n, op, e, -, he, hop, -⟩ := recvIn_spec (w := w) h hr cs to now us env gcFree trapped hroom
      refine ⟨y, .received res, op, ⟨n, fun f hf => ?_⟩, he, tagRecv hop (by simp)⟩
      simp only [wstep, hat, hr]
      exact e f hf
  | retry now us env free gcFree timedOut trapped =>
    obtain ⟨c, cs, to, hr, hp, hroom⟩ := ho
    obtain ⟨y, res, n, op, e, er, he, hop, -⟩ := recvIn_spec (w := w) h hr cs to now us env gcFree trapped hroom
    have hne : ∀ d, x.s.running ≠ some d → d ≠ c := fun d hd e => hd (by rw [e, hr])
    by_cases hto : res = .block ∧ (to && timedOut) = true
    · obtain ⟨rfl, hto⟩ := hto
      refine ⟨{ x with pend := put x.pend c none }, .none, none, ⟨0, fun f _ => ?_⟩, ⟨⟨rfl, rfl⟩, h.wf, fun _ _ _ => rfl, fun d hd _ _ => put_ne _ _ (hne d hd), (fun _ _ _ _ _ _ _ e => by cases e)⟩, tagNone (by simp) (by simp)⟩
      simp only [wstep, hr, hp]
      rw [er, hto]
    · refine ⟨y, .received res, op, ⟨n, fun f hf => ?_⟩, he, tagRecv hop (by simp)⟩
      simp only [wstep, hr, hp]
      rw [er]
      split
      · rename_i h1 h2
        exact absurd ⟨Option.some.inj h1, h2⟩ hto
      · exact e f hf
  | resize n fresh =>
    obtain ⟨-, c, hr, hn, h0⟩ := ho
    have hne : ∀ d, x.s.running ≠ some d → d ≠ c := fun d hd e => hd (by rw [e, hr])
    obtain ⟨m, e, wf, -⟩ := C36_resize_partial fresh hn h0
    refine ⟨{ x with box := put x.box c m }, .none, none, ⟨0, fun f _ => ?_⟩, ⟨⟨rfl, rfl⟩, fun d hd => ?_, fun d hd _ => put_ne _ _ (hne d hd), fun _ _ _ _ => rfl, (fun _ _ _ _ _ _ _ e => by cases e)⟩, tagNone (by simp) (by simp)⟩
    · simp only [wstep, hr]
      rw [e]; rfl
    · simp only
      by_cases hdc : d = c
      · subst hdc; rw [put_same]; exact wf
      · rw [put_ne _ _ hdc]; exact h.wf d hd

theorem acts_unique {x y z : W} {a : Act} {r r' : Res} (h1 : Acts F w x a y r) (h2 : Acts F w x a z r') : y = z ∧ r = r' := by
  obtain ⟨n1, h1⟩ := h1
  obtain ⟨n2, h2⟩ := h2
  have e := (h1 (n1 + n2) (by omega)).symm.trans (h2 (n1 + n2) (by omega))
  simpa using e

theorem act_inv {x y : W} {r b : List Cid} {a : Act} {res : Res} (h : Inv F x r b) (ho : Ok x a) (ha : Acts F w x a y res) : ∃ r' b', Inv F y r' b' := by
  obtain ⟨y', res', op, ha', he, -⟩ := act_eff (w := w) h ho
  rw [(acts_unique ha ha').1]
  exact ⟨_, _, eff_inv h he⟩

theorem run_inv {x y : W} {as : List Act} (hr : Run F w x as y) : (∃ r b, Inv F x r b) → ∃ r b, Inv F y r b := by
  induction hr with
  | nil => exact id
  | cons ho ha _ ih => rintro ⟨r, b, h⟩; exact ih (act_inv h ho ha)

theorem reach_inv {x : W} (h : Reach F w x) : ∃ r b, Inv F x r b := by
  obtain ⟨k, info, box, as, hr⟩ := h
  exact run_inv hr ⟨[], [], init_placed k info, by simp [start], by simp⟩

end Verif.Chat
