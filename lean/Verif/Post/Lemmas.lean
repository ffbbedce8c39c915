import Verif.Post.Spec

/-! # The queue, the buffers and the processes fit together -/

namespace Verif.Post
open Verif.Sched Verif.Mbox Verif.Eq Verif.Chat Verif.Ev

variable {F : Flt} {word : Nat → T} {w max : Nat}

/-- The letter that an event stands for. -/
def letterOf (word : Nat → T) (bufs : Nat → Option (Option T)) (e : Event) : Letter :=
  match e.type with
  | 0 => if e.bufLen > 0 then .handler (bufs e.bufPtr).join else .small (word e.bufPtr)
  | 1 => .unblock e.parameter (bufs e.bufPtr).join
  | 2 => .define e.parameter (bufs e.bufPtr).join
  | _ => .call e.parameter

/-- The events that the host makes. -/
def Kind (e : Event) : Prop := e.type = 0 ∨ (e.type = 1 ∧ e.bufLen > 0) ∨ (e.type = 2 ∧ e.bufLen > 0) ∨ (e.type = 3 ∧ e.bufLen = 0)

def addr (e : Event) : Option Nat := if e.bufLen > 0 then some e.bufPtr else none

def addrs (q : List Event) : List Nat := q.filterMap addr

theorem addr_mem {q : List Event} {e : Event} (he : e ∈ q) (hl : e.bufLen > 0) : e.bufPtr ∈ addrs q := List.mem_filterMap.2 ⟨e, he, if_pos hl⟩

theorem poke_same (g : Nat → Option (Option T)) (a : Nat) (v : Option (Option T)) : poke g a v a = v := if_pos rfl
theorem poke_ne (g : Nat → Option (Option T)) {a d : Nat} (v : Option (Option T)) (h : d ≠ a) : poke g a v d = g d := if_neg h

theorem letterOf_congr {b b' : Nat → Option (Option T)} {e : Event} (hk : Kind e) (h : e.bufLen > 0 → b' e.bufPtr = b e.bufPtr) : letterOf word b' e = letterOf word b e := by
  unfold letterOf
  rcases hk with ht | ⟨ht, hl⟩ | ⟨ht, hl⟩ | ⟨ht, hl⟩
  · simp only [ht]
    by_cases hl : e.bufLen > 0
    · rw [if_pos hl, if_pos hl, h hl]
    · rw [if_neg hl, if_neg hl]
  · simp only [ht]; rw [h hl]
  · simp only [ht]; rw [h hl]
  · simp only [ht]

theorem map_poke {b : Nat → Option (Option T)} {q : List Event} {a : Nat} (v : Option (Option T)) (hk : ∀ e ∈ q, Kind e) (h : a ∉ addrs q) :
    q.map (letterOf word (poke b a v)) = q.map (letterOf word b) := by
  apply List.map_congr_left
  intro e he
  apply letterOf_congr (hk e he)
  intro hl
  exact poke_ne _ _ (fun h1 => h (h1 ▸ addr_mem he hl))

/-- What holds in all states. -/
structure PInv (F : Flt) (word : Nat → T) (w max : Nat) (p : P) (l : Log) (q : List Event) : Prop where
  reach : Reach F w p.w
  holds : Holds p.ring max q
  acc : ∃ a, l.accepted = a ++ q.map (letterOf word p.bufs) ∧ a.length = l.delivered
  kinds : ∀ e ∈ q, Kind e
  nodup : (l.own ++ addrs q).Nodup
  alloc : ∀ a, p.bufs a ≠ none ↔ a ∈ l.own ++ addrs q

theorem reach_snoc {x y : W} {a : Act} {r : Res} (h : Reach F w x) (ho : Ok x a) (ha : Acts F w x a y r) : Reach F w y := by
  obtain ⟨k, info, box, as, hr⟩ := h
  have app : ∀ {x y z : W} {as : List Act}, Run F w x as y → Ok y a → Acts F w y a z r → Run F w x (as ++ [a]) z := by
    intro x y z as h ho ha
    induction h with
    | nil => exact .cons ho ha .nil
    | cons ho' ha' _ ih => exact .cons ho' ha' (ih ho ha)
  exact ⟨k, info, box, _, app hr ho ha⟩

theorem getValue_spec {p : P} {l : Log} {e : Event} {q : List Event} (h : PInv F word w max p l (e :: q)) (room : Bool) :
    ∃ bufs, getValue word p.bufs e room = some ((if e.bufLen > 0 then arrives room (p.bufs e.bufPtr).join else word e.bufPtr), bufs) ∧
      (∀ a, bufs a ≠ none ↔ a ∈ l.own ++ addrs q) ∧ q.map (letterOf word bufs) = q.map (letterOf word p.bufs) := by
  unfold getValue
  by_cases hl : e.bufLen > 0
  · have hadr : addrs (e :: q) = e.bufPtr :: addrs q := by simp [addrs, addr, hl]
    have hal := h.alloc
    have hnd := h.nodup
    rw [hadr] at hal hnd
    have hin := (hal e.bufPtr).2 (by simp)
    obtain ⟨x, hx⟩ := Option.ne_none_iff_exists'.1 hin
    rw [if_pos hl, hx]
    have hnd' : e.bufPtr ∉ l.own ++ addrs q := by
      intro hm
      rcases List.mem_append.1 hm with h1 | h1
      · exact List.nodup_append.1 hnd |>.2.2 _ h1 _ (by simp) rfl
      · exact (List.nodup_cons.1 (List.nodup_append.1 hnd).2.1).1 h1
    refine ⟨poke p.bufs e.bufPtr none, ?_, fun a => ?_, map_poke _ (fun e he => h.kinds e (List.mem_cons_of_mem _ he)) (fun h => hnd' (List.mem_append_right _ h))⟩
    · simp only [if_pos hl, hx, Option.join]
      cases x <;> cases room <;> rfl
    · by_cases ha : a = e.bufPtr
      · subst ha
        rw [poke_same]
        exact ⟨fun h => absurd rfl h, fun h => absurd h hnd'⟩
      · rw [poke_ne _ _ ha, hal a]
        simp only [List.mem_append, List.mem_cons, ha, false_or]
  · have hadr : addrs (e :: q) = addrs q := by simp [addrs, addr, hl]
    have hal := h.alloc
    rw [hadr] at hal
    rw [if_neg hl, if_neg hl]
    exact ⟨_, rfl, hal, rfl⟩

theorem stopped_iff {x : W} {r b : List Cid} (h : Placed x.s x.live r b) (c : Cid) : Stopped x c ↔ c ∈ b ∧ (x.s.info c).state.unblockable = true := by
  have hst : (x.s.info c).state.unblockable = true ↔ ((x.s.info c).state = .blocked ∨ (x.s.info c).state = .timeout) := by
    cases (x.s.info c).state <;> simp [TState.unblockable]
  rw [hst]
  constructor
  · rintro ⟨r', b', hp, hc, hs⟩
    obtain ⟨rfl, rfl⟩ := placed_unique h hp
    exact ⟨hc, hs⟩
  · exact fun ⟨hc, hs⟩ => ⟨r, b, h, hc, hs⟩

/-- One event. -/
theorem deliver_cons {p : P} {l : Log} {e : Event} {q : List Event} (h : PInv F word w max p l (e :: q)) (room : Bool) :
    ∃ p', (∃ n, ∀ f ≥ n, deliver word w f p room = some (p', true)) ∧ Effect F w room p p' (letterOf word p.bufs e) ∧ p'.handler = p.handler ∧
      PInv F word w max p' { l with delivered := l.delivered + 1 } q := by
  obtain ⟨ring, hpop, hh⟩ := (pop_holds h.holds).2 e q rfl
  obtain ⟨bufs, hg, hal, hmap⟩ := getValue_spec h room
  obtain ⟨a, ha, hlen⟩ := h.acc
  have hnd : (l.own ++ addrs q).Nodup := by
    have hn := h.nodup
    have hsub : (l.own ++ addrs q).Sublist (l.own ++ addrs (e :: q)) := List.Sublist.append_left ((List.sublist_cons_self e q).filterMap _) _
    exact hsub.nodup hn
  have hk : ∀ e ∈ q, Kind e := fun e' he' => h.kinds e' (List.mem_cons_of_mem _ he')
  have hacc : ∃ a, l.accepted = a ++ q.map (letterOf word bufs) ∧ a.length = l.delivered + 1 := ⟨a ++ [letterOf word p.bufs e], by rw [hmap, ha]; simp, by simp [hlen]⟩
  have hdel : ∀ {f : Nat} {p' : P}, handle word w f { p with ring := ring } e room = some p' → deliver word w f p room = some (p', true) := by
    intro f p' hx
    unfold deliver
    rw [hpop]
    simp only [hx, Option.map_some]
  obtain ⟨r, b, hi⟩ := reach_inv h.reach
  rcases h.kinds e (by simp) with ht | ⟨ht, hl⟩ | ⟨ht, hl⟩ | ⟨ht, hl⟩
  · generalize hV : (if e.bufLen > 0 then arrives room (p.bufs e.bufPtr).join else word e.bufPtr) = V at hg
    by_cases hn : p.handler ≥ 0
    · obtain ⟨y, hs, he, -⟩ := send_spec (w := w) hi p.handler.toNat V
      have hact : Acts F w p.w (.send p.handler.toNat V) y (.sent (decide (p.handler.toNat ∈ p.w.live))) := ⟨_, hs⟩
      refine ⟨{ p with ring := ring, w := y, bufs := bufs }, ⟨r.length + b.length, fun f hf => hdel ?_⟩, ?_, rfl, reach_snoc (a := .send p.handler.toNat V) h.reach trivial hact, hh, hacc, hk, hnd, hal⟩
      · unfold handle
        simp only [hg, ht, if_pos hn, hs f hf]
      · simp only [letterOf, ht]
        by_cases hl : e.bufLen > 0
        · rw [if_pos hl] at hV ⊢
          refine ⟨?_, rfl, rfl, rfl⟩
          rw [if_neg (by omega), hV]
          exact ⟨_, hact⟩
        · rw [if_neg hl] at hV ⊢
          refine ⟨?_, rfl, rfl, rfl⟩
          rw [if_neg (by omega), hV]
          exact ⟨_, hact⟩
    · refine ⟨{ p with ring := ring, bufs := bufs }, ⟨0, fun f hf => hdel ?_⟩, ?_, rfl, h.reach, hh, hacc, hk, hnd, hal⟩
      · unfold handle
        simp only [hg, ht, if_neg hn]
      · simp only [letterOf, ht]
        by_cases hl : e.bufLen > 0
        · rw [if_pos hl]
          refine ⟨?_, rfl, rfl, rfl⟩
          rw [if_pos (by omega)]
        · rw [if_neg hl]
          refine ⟨?_, rfl, rfl, rfl⟩
          rw [if_pos (by omega)]
  · rw [if_pos hl] at hg
    obtain ⟨y, hs, he, -⟩ := sched_eff (w := w) hi (op := .unblock e.parameter) trivial (by rintro _ _ _ _ ⟨⟩)
    obtain ⟨s', t, hrel, -, -, -, -, htt⟩ := release_spec (c := e.parameter) hi.placed TState.unblockable
    have hact : Acts F w p.w (.sched (.unblock e.parameter)) y .none := ⟨_, hs⟩
    refine ⟨{ p with ring := ring, w := y, bufs := bufs, ret := if t then put p.ret e.parameter (some (arrives room (p.bufs e.bufPtr).join)) else p.ret },
      ⟨r.length + b.length, fun f hf => hdel ?_⟩, ?_, rfl, reach_snoc (a := .sched (.unblock e.parameter)) h.reach ⟨trivial, trivial⟩ hact, hh, hacc, hk, hnd, hal⟩
    · unfold handle
      simp only [hg, ht, hs f hf, hrel f hf]
    · simp only [letterOf, ht, Effect]
      refine ⟨hact, fun hst => ?_, fun hst => ?_, by simp, by simp⟩
      · rw [htt.2 ((stopped_iff hi.placed _).1 hst)]; rfl
      · cases t with
        | false => rfl
        | true => exact absurd ((stopped_iff hi.placed _).2 (htt.1 rfl)) hst
  · rw [if_pos hl] at hg
    refine ⟨{ p with ring := ring, bufs := bufs, defs := p.defs ++ [(e.parameter, arrives room (p.bufs e.bufPtr).join)] }, ⟨0, fun f hf => hdel ?_⟩, ?_, rfl, h.reach, hh, hacc, hk, hnd, hal⟩
    · unfold handle
      simp only [hg, ht]
    · simp only [letterOf, ht, Effect, and_self]
  · refine ⟨{ p with ring := ring, bufs := bufs, calls := p.calls ++ [e.parameter] }, ⟨0, fun f hf => hdel ?_⟩, ?_, rfl, h.reach, hh, hacc, hk, hnd, hal⟩
    · unfold handle
      simp only [hg, ht]
    · simp only [letterOf, ht, Effect, and_self]

theorem deliver_nil {p : P} {l : Log} (h : PInv F word w max p l []) (room : Bool) (f : Nat) : deliver word w f p room = some (p, false) := by
  unfold deliver
  rw [(pop_holds h.holds).1 rfl]

/-- An event is put into the queue. -/
theorem push_inv {p : P} {l : Log} {q : List Event} (h : PInv F word w max p l q) {e : Event} (hk : Kind e) {own : List Nat} (ho : (own ++ (addr e).toList).Perm l.own) :
    (q.length < max → ∃ r, push p.ring e = some (r, true) ∧ PInv F word w max { p with ring := r } ⟨l.accepted ++ [letterOf word p.bufs e], l.delivered, own⟩ (q ++ [e])) ∧
    (q.length = max → push p.ring e = some (p.ring, false)) := by
  refine ⟨fun hl => ?_, (push_holds h.holds e).2⟩
  obtain ⟨r, hr, hh⟩ := (push_holds h.holds e).1 hl
  obtain ⟨a, ha, hlen⟩ := h.acc
  have hadr : addrs (q ++ [e]) = addrs q ++ (addr e).toList := by
    unfold addrs
    rw [List.filterMap_append]
    cases hx : addr e <;> simp [hx]
  have hperm : (own ++ addrs (q ++ [e])).Perm (l.own ++ addrs q) := by
    rw [hadr]
    have h1 : (own ++ (addrs q ++ (addr e).toList)).Perm (own ++ ((addr e).toList ++ addrs q)) := List.Perm.append_left _ List.perm_append_comm
    refine h1.trans ?_
    rw [← List.append_assoc]
    exact List.Perm.append_right _ ho
  refine ⟨r, hr, h.reach, hh, ⟨a, by rw [ha]; simp, hlen⟩, fun e' he' => ?_, hperm.nodup_iff.2 h.nodup, fun x => ?_⟩
  · rcases List.mem_append.1 he' with h1 | h1
    · exact h.kinds e' h1
    · rw [List.mem_singleton.1 h1]; exact hk
  · rw [hperm.mem_iff]; exact h.alloc x

theorem erase_perm {own : List Nat} {a : Nat} (h : a ∈ own) : (own.erase a ++ [a]).Perm own :=
  (List.perm_append_comm.trans (List.perm_cons_erase h).symm)

/-- Whatever the host posts. -/
theorem post_step {p : P} {l : Log} {q : List Event} (h : PInv F word w max p l q) {op : POp} {x : Letter} (hx : letter word p.bufs op = some x) (ho : POk l.own p op) :
    ∃ p' ok, (∀ f, pstep F word w f p op = some (p', ok)) ∧ p'.handler = p.handler ∧ p'.w = p.w ∧
      (ok = true ↔ q.length < max ∧ (∀ a len, op = .event a len → 0 < p.handler) ∧ (∀ v imm, op = .unboxed v imm → 0 < p.handler ∧ imm = true)) ∧
      ∃ q', PInv F word w max p' (logAfter word p l op ok) q' ∧ (ok = false → p' = p) := by
  have hlen := h.holds.len
  have main : ∀ (e : Event), Kind e → (addr e = handsOver op) → letterOf word p.bufs e = x → (∀ a, handsOver op = some a → a ∈ l.own) → posts p op = some (push p.ring e) → (∀ a y, op ≠ .flat a y) → (∀ a, op ≠ .drop a) → (∀ r, op ≠ .deliver r) →
      ∃ p' ok, (∀ f, pstep F word w f p op = some (p', ok)) ∧ p'.handler = p.handler ∧ p'.w = p.w ∧ (ok = true ↔ q.length < max) ∧ ∃ q', PInv F word w max p' (logAfter word p l op ok) q' ∧ (ok = false → p' = p) := by
    intro e hk ha hle hown hp n1 n2 n3
    have hlog : ∀ ok, logAfter word p l op ok = if ok then ⟨l.accepted ++ [x], l.delivered, match handsOver op with | some a => l.own.erase a | none => l.own⟩ else l := by
      intro ok
      unfold logAfter
      rw [hx]
      cases op <;> first | exact absurd rfl (n1 _ _) | exact absurd rfl (n2 _) | exact absurd rfl (n3 _) | (cases ok <;> rfl)
    have hperm : ((match handsOver op with | some a => l.own.erase a | none => l.own) ++ (addr e).toList).Perm l.own := by
      rw [ha]
      cases hop : handsOver op with
      | none => simp
      | some a => exact erase_perm (hown a hop)
    obtain ⟨h1, h2⟩ := push_inv h hk hperm
    by_cases hl : q.length < max
    · obtain ⟨r, hr, hinv⟩ := h1 hl
      refine ⟨{ p with ring := r }, true, fun f => by unfold pstep; simp only [hp, hr], rfl, rfl, by simp [hl], q ++ [e], ?_, by simp⟩
      rw [hlog, if_pos rfl, ← hle]
      exact hinv
    · refine ⟨p, false, fun f => by unfold pstep; simp only [hp, h2 (show q.length = max by omega)], rfl, rfl, by simp [hl], q, ?_, fun _ => rfl⟩
      rw [hlog, if_neg (by simp)]
      exact h
  cases op with
  | event a len =>
    by_cases hh : p.handler > 0
    · obtain ⟨p', ok, e1, e2, e3, e4, e5⟩ := main ⟨0, 0, a, len⟩ (.inl rfl) (if_pos ho.2) (by simp only [letterOf, if_pos ho.2]; simpa [letter] using hx) (by rintro b ⟨⟩; exact ho.1)
        (by simp only [posts, Ev.event, if_pos hh]) (by rintro _ _ ⟨⟩) (by rintro _ ⟨⟩) (by rintro _ ⟨⟩)
      refine ⟨p', ok, e1, e2, e3, ?_, e5⟩
      rw [e4]
      exact ⟨fun h => ⟨h, fun _ _ _ => hh, by rintro _ _ ⟨⟩⟩, fun h => h.1⟩
    · refine ⟨p, false, fun f => by unfold pstep; simp only [posts, Ev.event, if_neg hh], rfl, rfl, ⟨by simp, fun h => absurd (h.2.1 _ _ rfl) hh⟩, q, ?_, fun _ => rfl⟩
      exact h
  | unboxed v imm =>
    by_cases hh : p.handler > 0 ∧ imm = true
    · obtain ⟨p', ok, e1, e2, e3, e4, e5⟩ := main ⟨0, 0, v, 0⟩ (.inl rfl) rfl (by simpa [letterOf, letter] using hx) (by rintro b ⟨⟩)
        (by simp only [posts, eventUnboxed, if_pos hh.1, if_pos hh.2]) (by rintro _ _ ⟨⟩) (by rintro _ ⟨⟩) (by rintro _ ⟨⟩)
      refine ⟨p', ok, e1, e2, e3, ?_, e5⟩
      rw [e4]
      exact ⟨fun h => ⟨h, by rintro _ _ ⟨⟩, by rintro _ _ ⟨⟩; exact hh⟩, fun h => h.1⟩
    · refine ⟨p, false, fun f => ?_, rfl, rfl, ⟨by simp, fun h => absurd (h.2.2 _ _ rfl) hh⟩, q, h, fun _ => rfl⟩
      unfold pstep
      simp only [posts, eventUnboxed]
      by_cases h1 : imm = true
      · rw [if_pos h1, if_neg (fun h2 => hh ⟨h2, h1⟩)]
      · rw [if_neg h1]
  | define key a len =>
    obtain ⟨p', ok, e1, e2, e3, e4, e5⟩ := main ⟨2, key, a, len⟩ (.inr (.inr (.inl ⟨rfl, ho.2⟩))) (if_pos ho.2) (by simpa [letterOf, letter] using hx) (by rintro b ⟨⟩; exact ho.1)
      rfl (by rintro _ _ ⟨⟩) (by rintro _ ⟨⟩) (by rintro _ ⟨⟩)
    refine ⟨p', ok, e1, e2, e3, ?_, e5⟩
    rw [e4]
    exact ⟨fun h => ⟨h, by rintro _ _ ⟨⟩, by rintro _ _ ⟨⟩⟩, fun h => h.1⟩
  | unblock c a len =>
    obtain ⟨p', ok, e1, e2, e3, e4, e5⟩ := main ⟨1, c, a, len⟩ (.inr (.inl ⟨rfl, ho.2⟩)) (if_pos ho.2) (by simpa [letterOf, letter] using hx) (by rintro b ⟨⟩; exact ho.1)
      rfl (by rintro _ _ ⟨⟩) (by rintro _ ⟨⟩) (by rintro _ ⟨⟩)
    refine ⟨p', ok, e1, e2, e3, ?_, e5⟩
    rw [e4]
    exact ⟨fun h => ⟨h, by rintro _ _ ⟨⟩, by rintro _ _ ⟨⟩⟩, fun h => h.1⟩
  | callback arg =>
    obtain ⟨p', ok, e1, e2, e3, e4, e5⟩ := main ⟨3, arg, 0, 0⟩ (.inr (.inr (.inr ⟨rfl, rfl⟩))) rfl (by simpa [letterOf, letter] using hx) (by rintro b ⟨⟩)
      rfl (by rintro _ _ ⟨⟩) (by rintro _ ⟨⟩) (by rintro _ ⟨⟩)
    refine ⟨p', ok, e1, e2, e3, ?_, e5⟩
    rw [e4]
    exact ⟨fun h => ⟨h, by rintro _ _ ⟨⟩, by rintro _ _ ⟨⟩⟩, fun h => h.1⟩
  | _ => simp [letter] at hx

theorem pdoes_unique {p q q' : P} {op : POp} {ok ok' : Bool} (h1 : PDoes F word w p op q ok) (h2 : PDoes F word w p op q' ok') : q = q' ∧ ok = ok' := by
  obtain ⟨n1, h1⟩ := h1
  obtain ⟨n2, h2⟩ := h2
  have e := (h1 (n1 + n2) (by omega)).symm.trans (h2 (n1 + n2) (by omega))
  simpa using e

/-- Every step. -/
theorem any_step {p : P} {l : Log} {q : List Event} (h : PInv F word w max p l q) {op : POp} (ho : POk l.own p op) :
    ∃ p' ok, PDoes F word w p op p' ok ∧ ∃ q', PInv F word w max p' (logAfter word p l op ok) q' := by
  cases hx : letter word p.bufs op with
  | some x =>
    obtain ⟨p', ok, e1, -, -, -, q', e5, -⟩ := post_step h hx ho
    exact ⟨p', ok, ⟨0, fun f _ => e1 f⟩, q', e5⟩
  | none =>
    cases op with
    | act a =>
      obtain ⟨y, res, n, hy⟩ := C115_safe h.reach ho
      refine ⟨{ p with w := y }, true, ⟨n, fun f hf => ?_⟩, q, reach_snoc h.reach ho ⟨n, hy⟩, h.holds, h.acc, h.kinds, h.nodup, h.alloc⟩
      unfold pstep
      simp only [posts, hy f hf, Option.map_some]
    | flat a x =>
      have hna : a ∉ l.own ++ addrs q := fun hm => (h.alloc a).2 hm ho
      refine ⟨_, true, ⟨0, fun f _ => rfl⟩, q, h.reach, h.holds, ?_, h.kinds, List.nodup_cons.2 ⟨hna, h.nodup⟩, fun b => ?_⟩
      · obtain ⟨b, hb, hl⟩ := h.acc
        exact ⟨b, by show l.accepted = b ++ q.map (letterOf word (poke p.bufs a (some x))); rw [map_poke _ h.kinds (fun hm => hna (List.mem_append_right _ hm))]; exact hb, hl⟩
      · show poke p.bufs a (some x) b ≠ none ↔ b ∈ a :: (l.own ++ addrs q)
        by_cases hb : b = a
        · subst hb; rw [poke_same]; simp
        · rw [poke_ne _ _ hb, h.alloc b]; simp [hb]
    | drop a =>
      have ha : a ∈ l.own := ho
      have hnd := List.nodup_append.1 h.nodup
      have hperm := erase_perm ha
      have hna : a ∉ addrs q := fun hm => hnd.2.2 a ha a hm rfl
      refine ⟨_, true, ⟨0, fun f _ => rfl⟩, q, h.reach, h.holds, ?_, h.kinds, ?_, fun b => ?_⟩
      · obtain ⟨b, hb, hl⟩ := h.acc
        exact ⟨b, by show l.accepted = b ++ q.map (letterOf word (poke p.bufs a none)); rw [map_poke _ h.kinds hna]; exact hb, hl⟩
      · exact (List.Sublist.append_right List.erase_sublist _).nodup h.nodup
      · show poke p.bufs a none b ≠ none ↔ b ∈ l.own.erase a ++ addrs q
        by_cases hb : b = a
        · subst hb; rw [poke_same]
          simp [List.Nodup.mem_erase_iff hnd.1, hna]
        · rw [poke_ne _ _ hb, h.alloc b]
          simp [List.Nodup.mem_erase_iff hnd.1, hb]
    | register pid => exact ⟨_, true, ⟨0, fun f _ => rfl⟩, q, h.reach, h.holds, h.acc, h.kinds, h.nodup, h.alloc⟩
    | deliver room =>
      cases q with
      | nil => exact ⟨p, false, ⟨0, fun f _ => deliver_nil h room f⟩, [], h⟩
      | cons e q =>
        obtain ⟨p', ⟨n, hd⟩, -, -, hi⟩ := deliver_cons h room
        exact ⟨p', true, ⟨n, fun f hf => hd f hf⟩, q, hi⟩
    | _ => simp [letter] at hx

theorem preach_inv (hm : 0 < max) {p : P} {l : Log} (h : PReach F word w max p l) : ∃ q, PInv F word w max p l q := by
  induction h with
  | start => exact ⟨[], ⟨_, _, _, _, .nil⟩, holds_init hm, ⟨[], rfl, rfl⟩, by simp, by simp [addrs], by simp [addrs]⟩
  | step _ ho hd ih =>
    obtain ⟨q, hi⟩ := ih
    obtain ⟨p', ok, hd', q', hi'⟩ := any_step hi ho
    obtain ⟨rfl, rfl⟩ := pdoes_unique hd hd'
    exact ⟨q', hi'⟩

theorem pending_eq {p : P} {l : Log} {q : List Event} (h : PInv F word w max p l q) : l.pending = q.map (letterOf word p.bufs) := by
  obtain ⟨a, ha, hl⟩ := h.acc
  unfold Log.pending
  rw [ha, ← hl, List.drop_left]

end Verif.Post
