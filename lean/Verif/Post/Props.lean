import Verif.Post.Lemmas

/-! # C116: events reach their destination -/

namespace Verif.Post
open Verif.Sched Verif.Mbox Verif.Eq Verif.Chat Verif.Ev

variable {F : Flt} {word : Nat → T} {w max : Nat}

/-- Whatever the host, the processes and the evaluator do, in any order: nothing goes wrong. No buffer is used after it was freed, and none is freed twice. -/
theorem C116_safe (hm : 0 < max) {p : P} {l : Log} (h : PReach F word w max p l) {op : POp} (ho : POk l.own p op) : ∃ q ok, PDoes F word w p op q ok := by
  obtain ⟨_, hi⟩ := preach_inv hm h
  obtain ⟨p', ok, hd, -⟩ := any_step hi ho
  exact ⟨p', ok, hd⟩

/-- The host learns whether its event is accepted: it is exactly if there is room in the queue (and, for the event handler, one is registered and an unboxed value is one). If it is not, nothing changes. -/
theorem C116_accept (hm : 0 < max) {p : P} {l : Log} (h : PReach F word w max p l) {op : POp} {x : Letter} (hx : letter word p.bufs op = some x) (ho : POk l.own p op) :
    ∃ q ok, PDoes F word w p op q ok ∧ q.w = p.w ∧ (ok = false → q = p) ∧
      (ok = true ↔ l.pending.length < max ∧ (∀ a len, op = .event a len → 0 < p.handler) ∧ (∀ v imm, op = .unboxed v imm → 0 < p.handler ∧ imm = true)) := by
  obtain ⟨_, hi⟩ := preach_inv hm h
  obtain ⟨p', ok, hd, -, e3, e4, q', -, e6⟩ := post_step hi hx ho
  refine ⟨p', ok, ⟨0, fun f _ => hd f⟩, e3, e6, ?_⟩
  rw [e4, pending_eq hi, List.length_map]

/-- The evaluator delivers the oldest event that is accepted and not delivered yet, with the contents it had when it was posted, and does with it what its kind says. If there is none, nothing happens. -/
theorem C116_deliver (hm : 0 < max) {p : P} {l : Log} (h : PReach F word w max p l) (room : Bool) :
    (l.delivered = l.accepted.length → PDoes F word w p (.deliver room) p false) ∧
    (∀ x, l.accepted[l.delivered]? = some x → ∃ q, PDoes F word w p (.deliver room) q true ∧ q.handler = p.handler ∧ Effect F w room p q x) ∧ l.delivered ≤ l.accepted.length := by
  obtain ⟨es, hi⟩ := preach_inv hm h
  obtain ⟨a, ha, hl⟩ := hi.acc
  have hlen : l.accepted.length = l.delivered + es.length := by rw [ha]; simp [hl]
  refine ⟨fun he => ?_, fun x hx => ?_, by omega⟩
  · have : es = [] := List.eq_nil_of_length_eq_zero (by omega)
    subst this
    exact ⟨0, fun f _ => deliver_nil hi room f⟩
  · rw [ha, ← hl, List.getElem?_append_right (Nat.le_refl _), Nat.sub_self] at hx
    cases es with
    | nil => simp at hx
    | cons e es =>
      obtain ⟨p', ⟨n, hd⟩, he, hh, -⟩ := deliver_cons hi room
      simp only [List.map_cons, List.length_cons, Nat.zero_lt_succ, List.getElem?_cons_zero, Option.some.injEq] at hx
      exact ⟨p', ⟨n, fun f hf => hd f hf⟩, hh, hx ▸ he⟩

/-- No buffer is lost: if all events are delivered, exactly those buffers are allocated that belong to the host. Those that belong to the host are always allocated. -/
theorem C116_buffers (hm : 0 < max) {p : P} {l : Log} (h : PReach F word w max p l) :
    (l.delivered = l.accepted.length → ∀ a, p.bufs a ≠ none ↔ a ∈ l.own) ∧ (∀ a ∈ l.own, p.bufs a ≠ none) ∧ l.own.Nodup := by
  obtain ⟨es, hi⟩ := preach_inv hm h
  refine ⟨fun he a => ?_, fun a ha => (hi.alloc a).2 (List.mem_append_left _ ha), (List.nodup_append.1 hi.nodup).1⟩
  obtain ⟨b, hb, hl⟩ := hi.acc
  have hlen : l.accepted.length = l.delivered + es.length := by rw [hb]; simp [hl]
  have : es = [] := List.eq_nil_of_length_eq_zero (by omega)
  subst this
  rw [hi.alloc a]; simp [addrs]

/-- The values of the letters, one after the other. -/
theorem drop_newest {A B : Type} (m : List A) (v : A) (vs : List A) (size : Nat) (h0 : 0 < size) (hm : m.length ≤ size) :
    (((if m.length < size then m else m.tail) ++ [v]) ++ vs).drop (((if m.length < size then m else m.tail) ++ [v]).length + vs.length - size) = (m ++ v :: vs).drop (m.length + (v :: vs).length - size) := by
  by_cases hf : m.length < size
  · rw [if_pos hf]
    simp only [List.append_assoc, List.singleton_append, List.length_append, List.length_cons, List.length_nil]
    congr 1; omega
  · rw [if_neg hf]
    cases m with
    | nil => simp at hf; omega
    | cons a q =>
      simp only [List.length_cons] at hf hm
      simp only [List.tail_cons, List.append_assoc, List.singleton_append, List.length_append, List.length_cons, List.length_nil, List.cons_append]
      rw [show q.length + 1 + (vs.length + 1) - size = (q.length + (0 + 1) + vs.length - size) + 1 by omega, List.drop_succ_cons, List.nil_append]

/-- The messages of the handler after a letter. -/
def mailAfter (room : Bool) (m : List T) (size : Nat) : Letter → List T
  | .handler v => (if m.length < size then m else m.tail) ++ [arrives room v]
  | .small v => (if m.length < size then m else m.tail) ++ [v]
  | _ => m

/-- What one letter does to the mailboxes. -/
theorem effect_box {p q : P} {room : Bool} {x : Letter} (hr : Reach F w p.w) (he : Effect F w room p q x) :
    q.w.live = p.w.live ∧ (∀ c : Cid, p.handler ≠ (c : Int) → q.w.box c = p.w.box c) ∧
    (∀ c : Cid, p.handler = (c : Int) → c ∈ p.w.live → (q.w.box c).size = (p.w.box c).size ∧
      (q.w.box c).mail = mailAfter room (p.w.box c).mail (p.w.box c).size x) := by
  have hsend : ∀ v, (if p.handler < 0 then q.w = p.w else ∃ ok, Acts F w p.w (.send p.handler.toNat v) q.w (.sent ok)) →
      q.w.live = p.w.live ∧ (∀ c : Cid, p.handler ≠ (c : Int) → q.w.box c = p.w.box c) ∧
      (∀ c : Cid, p.handler = (c : Int) → c ∈ p.w.live → (q.w.box c).size = (p.w.box c).size ∧
        (q.w.box c).mail = (if (p.w.box c).mail.length < (p.w.box c).size then (p.w.box c).mail else (p.w.box c).mail.tail) ++ [v]) := by
    intro v hv
    by_cases hn : p.handler < 0
    · rw [if_pos hn] at hv
      rw [hv]
      exact ⟨rfl, fun _ _ => rfl, fun c hc => by omega⟩
    · rw [if_neg hn] at hv
      obtain ⟨ok, hv⟩ := hv
      obtain ⟨y, hy, -, h2, -, h4, -, h6⟩ := C115_send hr p.handler.toNat v
      obtain ⟨rfl, -⟩ := acts_unique hv hy
      refine ⟨h2, fun c hc => h4 c (fun e => hc (by rw [e]; exact (Int.toNat_of_nonneg (by omega)).symm)), fun c hc hl => ?_⟩
      have : p.handler.toNat = c := by omega
      rw [this] at h6
      exact h6 hl
  cases x with
  | handler v => exact hsend _ he.1
  | small v => exact hsend _ he.1
  | unblock c v =>
    obtain ⟨r, b, hi⟩ := reach_inv hr
    obtain ⟨y, hy, hd, hl, -, hbx, -⟩ := sched_spec (w := w) hi (op := .unblock c) trivial
    obtain ⟨rfl, -⟩ := acts_unique he.1 ⟨_, hy⟩
    have hb : ∀ d, q.w.box d = p.w.box d := fun d => hbx d (by simp [timedOut]) (by simp)
    exact ⟨hl, fun d _ => hb d, fun d _ _ => by rw [hb d]; exact ⟨rfl, rfl⟩⟩
  | define key v => rw [he.1]; exact ⟨rfl, fun _ _ => rfl, fun _ _ _ => ⟨rfl, rfl⟩⟩
  | call arg => rw [he.1]; exact ⟨rfl, fun _ _ => rfl, fun _ _ _ => ⟨rfl, rfl⟩⟩

theorem process_spec {rooms : Nat → Bool} : ∀ {es : List Event} {p : P} {l : Log} {i : Nat}, PInv F word w max p l es →
    ∃ q n, (∀ f ≥ n, processEvents word w f rooms (es.length + 1) i p = some q) ∧ PInv F word w max q { l with delivered := l.accepted.length } [] ∧ q.handler = p.handler ∧ q.w.live = p.w.live ∧
      (∀ c : Cid, p.handler ≠ (c : Int) → q.w.box c = p.w.box c) ∧
      (∀ c : Cid, p.handler = (c : Int) → c ∈ p.w.live → (q.w.box c).size = (p.w.box c).size ∧
        (q.w.box c).mail = ((p.w.box c).mail ++ forHandler rooms i l.pending).drop ((p.w.box c).mail.length + (forHandler rooms i l.pending).length - (p.w.box c).size)) := by
  intro es
  induction es with
  | nil =>
    intro p l i h
    have hpend : l.pending = [] := by rw [pending_eq h]; rfl
    have hlen : l.delivered = l.accepted.length := by
      obtain ⟨a, ha, hl⟩ := h.acc
      rw [ha, ← hl]; simp
    refine ⟨p, 0, fun f _ => ?_, ?_, rfl, rfl, fun _ _ => rfl, fun c _ hl => ⟨rfl, ?_⟩⟩
    · rw [List.length_nil, processEvents, h.holds.present]
      simp only [Bool.not_true, Bool.false_eq_true, if_false, deliver_nil h]
    · rw [← hlen]; exact h
    · obtain ⟨r, b, hi⟩ := reach_inv h.reach
      have := (hi.wf c hl).1
      rw [hpend, forHandler, List.append_nil, mail_length, List.length_nil, Nat.add_zero, Nat.sub_eq_zero_of_le this, List.drop_zero]
  | cons e es ih =>
    intro p l i h
    obtain ⟨p1, ⟨n1, hd⟩, he, hh, hi⟩ := deliver_cons h (rooms i)
    obtain ⟨q, n2, hq, hqi, qh, ql, q1, q2⟩ := ih (i := i + 1) hi
    have hpend : l.pending = letterOf word p.bufs e :: Log.pending { l with delivered := l.delivered + 1 } := by
      have hp2 := pending_eq h
      obtain ⟨a, ha, hl⟩ := h.acc
      have : Log.pending { l with delivered := l.delivered + 1 } = (es.map (letterOf word p.bufs)) := by
        show l.accepted.drop (l.delivered + 1) = _
        have e1 : l.accepted = (a ++ [letterOf word p.bufs e]) ++ es.map (letterOf word p.bufs) := by rw [ha]; simp
        rw [e1, show l.delivered + 1 = (a ++ [letterOf word p.bufs e]).length by simp [hl], List.drop_left]
      rw [this, hp2]; rfl
    generalize letterOf word p.bufs e = x at he hpend
    obtain ⟨b1, b2, b3⟩ := effect_box h.reach he
    refine ⟨q, n1 + n2, fun f hf => ?_, hqi, by rw [qh, hh], by rw [ql, b1], fun c hc => ?_, fun c hc hl => ?_⟩
    · rw [List.length_cons, processEvents, h.holds.present]
      simp only [Bool.not_true, Bool.false_eq_true, if_false, hd f (by omega)]
      exact hq f (by omega)
    · rw [q1 c (by rw [hh]; exact hc), b2 c hc]
    · obtain ⟨s1, m1⟩ := b3 c hc hl
      obtain ⟨s2, m2⟩ := q2 c (by rw [hh]; exact hc) (by rw [b1]; exact hl)
      obtain ⟨r, b, hinv⟩ := reach_inv h.reach
      have hwf := hinv.wf c hl
      refine ⟨s2.trans s1, ?_⟩
      rw [m2, hpend, s1, m1]
      have hle : (p.w.box c).mail.length ≤ (p.w.box c).size := by rw [mail_length]; exact hwf.1
      cases x with
      | handler v => exact drop_newest (B := Unit) _ _ _ _ hwf.2 hle
      | small v => exact drop_newest (B := Unit) _ _ _ _ hwf.2 hle
      | _ => rfl

/-- When the evaluator processes events, all events that are accepted are delivered. If the registered handler is a process that exists, the messages in its mailbox are afterwards those that were there and the values
of the events for it, in the order in which they were accepted (of which the newest ones are kept, if they do not fit). No other mailbox changes. -/
theorem C116_process (hm : 0 < max) {p : P} {l : Log} (h : PReach F word w max p l) (rooms : Nat → Bool) :
    ∃ q k n, (∀ f ≥ n, processEvents word w f rooms k 0 p = some q) ∧ q.handler = p.handler ∧ q.w.live = p.w.live ∧ (∃ y b, PDoes F word w q (.deliver true) y b ∧ b = false) ∧
      (∀ c : Cid, p.handler ≠ (c : Int) → q.w.box c = p.w.box c) ∧
      (∀ c : Cid, p.handler = (c : Int) → c ∈ p.w.live → (q.w.box c).size = (p.w.box c).size ∧
        (q.w.box c).mail = ((p.w.box c).mail ++ forHandler rooms 0 l.pending).drop ((p.w.box c).mail.length + (forHandler rooms 0 l.pending).length - (p.w.box c).size)) := by
  obtain ⟨es, hi⟩ := preach_inv hm h
  obtain ⟨q, n, h1, h2, h3, h4, h5, h6⟩ := process_spec (rooms := rooms) (i := 0) hi
  exact ⟨q, _, n, h1, h3, h4, ⟨q, false, ⟨0, fun f _ => deliver_nil h2 true f⟩, rfl⟩, h5, h6⟩

/-- If the handler waits for a message that the next event carries, it gets it: after the delivery it runs within as many rounds as there are processes, and receives exactly this value. In the execution after the
delivery, later events for the handler appear as messages that are sent to it. -/
theorem C116_received_partial (hm : 0 < max) {p : P} {l : Log} (h : PReach F word w max p l) {c : Cid} (hc : p.handler = (c : Int)) (hw : Waits p.w c) {cs : List Clause} {t : Bool} (hp : p.w.pend c = some (cs, t))
    (hcs : ∀ cl ∈ cs, isNil cl.extra = true) {v : T} (hv : Accepts F cs v) (hx : l.accepted[l.delivered]? = some (.handler (some v)) ∨ l.accepted[l.delivered]? = some (.small v)) :
    ∃ q, PDoes F word w p (.deliver true) q true ∧ ∀ {z : W} {as : List Act} {n : Nat}, RunR F w q.w as z n → p.w.live.length ≤ n → Peaceful c as → (as.filter (sendsTo c)).length < (p.w.box c).size →
      Meets F w c (Receives F w c cs v) q.w as := by
  obtain ⟨es, hi⟩ := preach_inv hm h
  have hn : p.handler.toNat = c := by omega
  have main : ∀ q, (if p.handler < 0 then q = p.w else ∃ ok, Acts F w p.w (.send p.handler.toNat v) q (.sent ok)) → ∀ {z : W} {as : List Act} {n : Nat}, RunR F w q as z n → p.w.live.length ≤ n → Peaceful c as →
      (as.filter (sendsTo c)).length < (p.w.box c).size → Meets F w c (Receives F w c cs v) q as := by
    intro q hq z as n hr hl hpe hsz
    rw [if_neg (by omega), hn] at hq
    obtain ⟨ok, hq⟩ := hq
    exact C115_received_partial hi.reach hw hp hcs hv hq hr hl hpe hsz
  rcases hx with hx | hx
  · obtain ⟨q, hd, -, he⟩ := (C116_deliver hm h true).2.1 _ hx
    exact ⟨q, hd, main q.w he.1⟩
  · obtain ⟨q, hd, -, he⟩ := (C116_deliver hm h true).2.1 _ hx
    exact ⟨q, hd, main q.w he.1⟩

/-- What the claim does not cover: the registered handler may be a process that ended. The host is told that its event is accepted, and the event goes nowhere. -/
theorem C116_dead_handler_violated (hm : 0 < max) {p : P} {l : Log} (h : PReach F word w max p l) (hh : 0 < p.handler) (hdead : p.handler.toNat ∉ p.w.live) (hq : l.delivered = l.accepted.length) {a len : Nat}
    (ho : POk l.own p (.event a len)) : ∃ q y, PDoes F word w p (.event a len) q true ∧ PDoes F word w q (.deliver true) y true ∧ y.w = p.w ∧ y.ret = p.ret ∧ y.defs = p.defs ∧ y.calls = p.calls := by
  obtain ⟨es, hi⟩ := preach_inv hm h
  have hes : es = [] := by
    obtain ⟨b, hb, hl⟩ := hi.acc
    have hlen : l.accepted.length = l.delivered + es.length := by rw [hb]; simp [hl]
    exact List.eq_nil_of_length_eq_zero (by omega)
  subst hes
  obtain ⟨r, hr, hinv⟩ := (push_inv hi (e := ⟨0, 0, a, len⟩) (.inl rfl) (own := l.own.erase a) (by simp only [addr, if_pos ho.2]; exact erase_perm ho.1)).1 (by simpa using hm)
  obtain ⟨y, ⟨n, hd⟩, he, -, -⟩ := deliver_cons hinv true
  refine ⟨{ p with ring := r }, y, ⟨0, fun f _ => ?_⟩, ⟨n, fun f hf => hd f hf⟩, ?_⟩
  · unfold pstep
    simp only [posts, Ev.event, if_pos hh, hr]
  · simp only [letterOf, if_pos ho.2] at he
    obtain ⟨h1, h2, h3, h4⟩ := he
    refine ⟨?_, h2, h3, h4⟩
    rw [if_neg (show ¬ p.handler < 0 by omega)] at h1
    obtain ⟨ok, h1⟩ := h1
    obtain ⟨z, hz, -, -, -, -, h6, -⟩ := C115_send hi.reach p.handler.toNat (arrives true (p.bufs a).join)
    obtain ⟨rfl, -⟩ := acts_unique h1 hz
    exact h6 hdead

/-! ### Examples -/

theorem preach_act {p : P} {l : Log} (h : PReach F word w max p l) {a : Act} {y : W} {r : Res} (ho : Ok p.w a) (ha : Acts F w p.w a y r) : PReach F word w max { p with w := y } l := by
  obtain ⟨n, ha⟩ := ha
  exact .step (op := .act a) (ok := true) h ho ⟨n, fun f hf => by unfold pstep; simp only [posts, ha f hf, Option.map_some]⟩

theorem preach_run {p : P} {l : Log} {as : List Act} {x y : W} (hr : Run F w x as y) : PReach F word w max { p with w := x } l → PReach F word w max { p with w := y } l := by
  induction hr with
  | nil => exact id
  | cons ho ha _ ih => exact fun h => ih (preach_act h ho ha)

/-- Any state of the processes, an empty queue, nothing posted yet. -/
theorem preach_of {x : W} (h : Reach F w x) : PReach F word w max ⟨x, initEvents max, -1, fun _ => none, fun _ => none, [], []⟩ ⟨[], 0, []⟩ := by
  obtain ⟨k, info, box, as, hr⟩ := h
  exact preach_run (p := ⟨Chat.start k info box, initEvents max, -1, fun _ => none, fun _ => none, [], []⟩) hr .start

/-- Process 1 is registered and the host has made a flat value. -/
theorem preach_flat {x : W} (h : Reach F w x) (v : T) : PReach F word w max ⟨x, initEvents max, 1, poke (fun _ => none) 7 (some (some v)), fun _ => none, [], []⟩ ⟨[], 0, [7]⟩ :=
  .step (op := .flat 7 (some v)) (ok := true) (.step (op := .register 1) (ok := true) (preach_of h) trivial ⟨0, fun _ _ => rfl⟩) rfl ⟨0, fun _ _ => rfl⟩

/-- The host posts it, and it is accepted. -/
theorem preach_post {x : W} (h : Reach F w x) (v : T) : ∃ p, PReach F word w 2 p ⟨[.handler (some v)], 0, []⟩ ∧ p.w = x ∧ p.handler = 1 :=
  ⟨_, .step (op := .event 7 1) (ok := true) (preach_flat h v) ⟨by simp, by omega⟩ ⟨0, fun _ _ => rfl⟩, rfl, rfl⟩

/-- Process 1 waits for any message and is the event handler; there is an event for it. -/
example (v : T) : ∃ p l, PReach F word 32 2 p l ∧ p.handler = (1 : Nat) ∧ Waits p.w 1 ∧ p.w.pend 1 = some (anyMsg, false) ∧ Accepts F anyMsg v ∧ l.accepted[l.delivered]? = some (.handler (some v)) := by
  obtain ⟨p, hp, hw, hh⟩ := preach_post (word := word) (demo_reach (F := F)) v
  exact ⟨p, _, hp, hh, by rw [hw]; exact demo_waits, by rw [hw]; rfl, demo_accepts v, rfl⟩

def demoEnd (F : Flt) : W := after5 F (demo3 F) (.sched .finish)

/-- Process 1 is registered and has ended. -/
example (v : T) : ∃ p l, PReach F word 32 2 p l ∧ 0 < p.handler ∧ p.handler.toNat ∉ p.w.live ∧ l.delivered = l.accepted.length ∧ POk l.own p (.event 7 1) := by
  have h3 : Reach F 32 (demo3 F) := by
    refine ⟨_, _, _, _, .cons (a := .sched (.create 1)) ?_ demo_acts1 (.cons (a := .sched (.create 2)) ?_ demo_acts2 (.cons (a := .sched (.round 0)) ?_ demo_acts3 .nil))⟩
    · exact ⟨by simp [Allowed, Chat.start], trivial⟩
    · exact ⟨by show 2 ∉ [1]; simp, trivial⟩
    · exact ⟨trivial, trivial⟩
  have h4 : Reach F 32 (demoEnd F) := by
    refine reach_snoc (a := .sched .finish) (r := .none) h3 ⟨by show (demo3 F).s.running ≠ none; exact (fun h => by cases h), fun c hc => by obtain rfl : 1 = c := Option.some.inj hc; rfl⟩ ⟨5, fun f hf => ?_⟩
    obtain ⟨k, rfl⟩ := Nat.exists_eq_add_of_le' hf
    rfl
  exact ⟨_, _, preach_flat h4 v, by show (0 : Int) < 1; decide, by show (1 : Int).toNat ∉ [2]; decide, rfl, by simp [POk]⟩

end Verif.Post
