import Verif.Ev.Model
import Mathlib.Data.Int.ModEq

/-! C38: the event queue is a bounded FIFO. -/

namespace Verif.Ev


/-- What was observed: the events accepted and delivered so far, oldest first. -/
structure Trace where
  accepted : List Event
  delivered : List Event

/-- Executions: any interleaving of calls by producers and the consumer, starting with a queue for `max` events. The
last component says what the last call answered. -/
inductive Exec (max : Nat) : Ring → Trace → Prop
  | init : Exec max (initEvents max) ⟨[], []⟩
  | accept {r r' : Ring} {t : Trace} {e : Event} : Exec max r t → push r e = some (r', true) → Exec max r' { t with accepted := t.accepted ++ [e] }
  | reject {r r' : Ring} {t : Trace} {e : Event} : Exec max r t → push r e = some (r', false) → Exec max r' t
  | deliver {r r' : Ring} {t : Trace} {e : Event} : Exec max r t → pop r = some (r', some e) → Exec max r' { t with delivered := t.delivered ++ [e] }
  | nothing {r r' : Ring} {t : Trace} : Exec max r t → pop r = some (r', none) → Exec max r' t

/-- The ring holds the events `q`, oldest first. -/
structure Holds (r : Ring) (max : Nat) (q : List Event) : Prop where
  present : r.present = true
  size : r.max = max
  pos : 0 < max
  tail : r.tail < max
  len : q.length ≤ max
  head : r.head = (r.tail + q.length) % max
  full : r.full = true ↔ q.length = max
  buf : ∀ i (h : i < q.length), r.buf ((r.tail + i) % max) = some q[i]

theorem holds_init {max : Nat} (h : 0 < max) : Holds (initEvents max) max [] :=
  ⟨rfl, rfl, h, h, Nat.zero_le _, by simp [initEvents], by simp [initEvents]; omega, by simp⟩

theorem ring_ne {t i j m : Nat} (hi : i < m) (hj : j < m) (h : (t + i) % m = (t + j) % m) : i = j := by
  have := Nat.ModEq.add_left_cancel' (n := m) t (show t + i ≡ t + j [MOD m] from h)
  unfold Nat.ModEq at this
  rwa [Nat.mod_eq_of_lt hi, Nat.mod_eq_of_lt hj] at this

theorem holds_head {r : Ring} {max : Nat} {q : List Event} (h : Holds r max q) : r.head = r.tail ↔ q.length = 0 ∨ q.length = max := by
  rw [h.head]
  have ht := h.tail
  have hl := h.len
  constructor
  · intro e
    by_cases hm : q.length = max
    · exact .inr hm
    · left
      have e' : (r.tail + q.length) % max = (r.tail + 0) % max := by rw [e, Nat.add_zero, Nat.mod_eq_of_lt ht]
      exact ring_ne (by omega) h.pos e'
  · rintro (e | e) <;> rw [e]
    · rw [Nat.add_zero, Nat.mod_eq_of_lt ht]
    · rw [Nat.add_mod_right, Nat.mod_eq_of_lt ht]

/-- A call of `push`. -/
theorem push_holds {r : Ring} {max : Nat} {q : List Event} (h : Holds r max q) (e : Event) :
    (q.length < max → ∃ r', push r e = some (r', true) ∧ Holds r' max (q ++ [e])) ∧
    (q.length = max → push r e = some (r, false)) := by
  have hl := h.len
  have hpos := h.pos
  unfold push
  rw [if_pos h.present]
  constructor
  · intro hlt
    have hf : r.full = false := by
      cases hf : r.full
      · rfl
      · have := h.full.1 hf; omega
    have hh : r.head < r.max := by rw [h.head, h.size]; exact Nat.mod_lt _ h.pos
    rw [hf, if_pos (by rfl), if_pos hh]
    refine ⟨_, rfl, h.present, h.size, h.pos, h.tail, by simp; omega, ?_, ?_, ?_⟩
    · show (r.head + 1) % r.max = (r.tail + (q ++ [e]).length) % max
      rw [h.head, h.size, Nat.mod_add_mod]; simp [Nat.add_assoc]
    · show (((r.head + 1) % r.max == r.tail) = true) ↔ (q ++ [e]).length = max
      rw [h.head, h.size, Nat.mod_add_mod, beq_iff_eq]
      simp only [List.length_append, List.length_singleton, Nat.add_assoc]
      constructor
      · intro e1
        by_cases hm : q.length + 1 = max
        · exact hm
        · have : (r.tail + (q.length + 1)) % max = (r.tail + 0) % max := by rw [e1, Nat.add_zero, Nat.mod_eq_of_lt h.tail]
          have := ring_ne (by omega) h.pos this
          omega
      · intro e1; rw [e1, Nat.add_mod_right, Nat.mod_eq_of_lt h.tail]
    · intro i hi
      simp only [List.length_append, List.length_singleton] at hi
      show (if (r.tail + i) % max = r.head then some e else r.buf ((r.tail + i) % max)) = _
      by_cases hiq : i < q.length
      · rw [if_neg, h.buf i hiq, List.getElem_append_left hiq]
        rw [h.head]
        intro e1
        have := ring_ne (by omega) hlt e1
        omega
      · have : i = q.length := by omega
        subst this
        rw [if_pos h.head.symm]; simp
  · intro he
    rw [h.full.2 he]; rfl

/-- A call of `pop`. -/
theorem pop_holds {r : Ring} {max : Nat} {q : List Event} (h : Holds r max q) :
    (q = [] → pop r = some (r, none)) ∧
    (∀ e q', q = e :: q' → ∃ r', pop r = some (r', some e) ∧ Holds r' max q') := by
  have hpos := h.pos
  constructor
  · rintro rfl
    have h1 : r.head = r.tail := (holds_head h).2 (.inl rfl)
    have h2 : r.full = false := by
      cases hf : r.full
      · rfl
      · have := h.full.1 hf; simp at this; omega
    unfold pop; rw [h1, h2]; simp
  · rintro e q' rfl
    have hne : (r.head == r.tail && !r.full) = false := by
      cases hf : r.full
      · have h0 : (e :: q').length ≠ max := fun e1 => by rw [h.full.2 e1] at hf; cases hf
        have : r.head ≠ r.tail := fun e1 => by
          rcases (holds_head h).1 e1 with e2 | e2
          · simp at e2
          · exact h0 e2
        simp [this]
      · simp
    have hb := h.buf 0 (by simp)
    rw [Nat.add_zero, Nat.mod_eq_of_lt h.tail] at hb
    have hl := h.len
    simp only [List.length_cons] at hl
    unfold pop
    rw [hne, if_neg (by simp), if_pos (by rw [h.size]; exact h.tail), hb]
    refine ⟨_, rfl, h.present, h.size, h.pos, by rw [← h.size]; exact Nat.mod_lt _ (by rw [h.size]; exact h.pos), by omega, ?_, ?_, ?_⟩
    · show r.head = ((r.tail + 1) % r.max + q'.length) % max
      rw [h.head, h.size, Nat.mod_add_mod]; simp [Nat.add_comm, Nat.add_left_comm]
    · simp; omega
    · intro i hi
      show r.buf (((r.tail + 1) % r.max + i) % max) = _
      have := h.buf (i + 1) (by simp; omega)
      rw [h.size, Nat.mod_add_mod, show r.tail + 1 + i = r.tail + (i + 1) by omega, this]; rfl

/-- In every execution the ring holds the events that are accepted and not yet delivered. -/
theorem exec_holds {max : Nat} (hm : 0 < max) {r : Ring} {t : Trace} (h : Exec max r t) :
    ∃ q, Holds r max q ∧ t.accepted = t.delivered ++ q := by
  induction h with
  | init => exact ⟨[], holds_init hm, rfl⟩
  | accept _ hp ih =>
    obtain ⟨q, hq, e⟩ := ih
    by_cases hl : q.length = max
    · rw [(push_holds hq _).2 hl] at hp; cases hp
    · have := hq.len
      obtain ⟨r', hr, hq'⟩ := (push_holds hq _).1 (by omega)
      rw [hr] at hp; cases hp
      exact ⟨_, hq', by simp [e]⟩
  | reject _ hp ih =>
    obtain ⟨q, hq, e⟩ := ih
    by_cases hl : q.length = max
    · rw [(push_holds hq _).2 hl] at hp; cases hp
      exact ⟨q, hq, e⟩
    · have := hq.len
      obtain ⟨r', hr, hq'⟩ := (push_holds hq _).1 (by omega)
      rw [hr] at hp; cases hp
  | deliver _ hp ih =>
    obtain ⟨q, hq, e⟩ := ih
    cases q with
    | nil => rw [(pop_holds hq).1 rfl] at hp; cases hp
    | cons x q =>
      obtain ⟨r', hr, hq'⟩ := (pop_holds hq).2 x q rfl
      rw [hr] at hp; cases hp
      exact ⟨q, hq', by simp [e]⟩
  | nothing _ hp ih =>
    obtain ⟨q, hq, e⟩ := ih
    cases q with
    | nil => rw [(pop_holds hq).1 rfl] at hp; cases hp; exact ⟨[], hq, e⟩
    | cons x q =>
      obtain ⟨r', hr, hq'⟩ := (pop_holds hq).2 x q rfl
      rw [hr] at hp; cases hp

/-- **C38 (order).** In every execution the events delivered are a prefix of the events accepted: same order, none lost in between,
none duplicated, none made up. -/
theorem C38_fifo {max : Nat} (hm : 0 < max) {r : Ring} {t : Trace} (h : Exec max r t) : t.delivered <+: t.accepted := by
  obtain ⟨q, _, e⟩ := exec_holds hm h
  exact ⟨q, e.symm⟩

/-- **C38 (acceptance).** In every execution an event is rejected exactly when `max` events are pending, and no more than `max` ever are;
the call always returns and never touches memory outside of the buffer. -/
theorem C38_push {max : Nat} (hm : 0 < max) {r : Ring} {t : Trace} (h : Exec max r t) (e : Event) :
    t.accepted.length ≤ t.delivered.length + max ∧
    ∃ r' b, push r e = some (r', b) ∧ (b = false ↔ t.accepted.length = t.delivered.length + max) := by
  obtain ⟨q, hq, eq⟩ := exec_holds hm h
  have hlen : t.accepted.length = t.delivered.length + q.length := by rw [eq]; simp
  have := hq.len
  refine ⟨by omega, ?_⟩
  by_cases hl : q.length = max
  · exact ⟨r, false, (push_holds hq e).2 hl, by simp; omega⟩
  · obtain ⟨r', hr, _⟩ := (push_holds hq e).1 (by omega)
    exact ⟨r', true, hr, by simp; omega⟩

/-- **C38 (delivery).** In every execution with events pending, the next call of `pop` delivers the oldest of them; with none pending
it delivers nothing. -/
theorem C38_pop {max : Nat} (hm : 0 < max) {r : Ring} {t : Trace} (h : Exec max r t) :
    ∃ r', pop r = some (r', t.accepted[t.delivered.length]?) := by
  obtain ⟨q, hq, eq⟩ := exec_holds hm h
  rw [eq, List.getElem?_append_right (Nat.le_refl _), Nat.sub_self]
  cases q with
  | nil => exact ⟨r, (pop_holds hq).1 rfl⟩
  | cons x q =>
    obtain ⟨r', hr, _⟩ := (pop_holds hq).2 x q rfl
    exact ⟨r', hr⟩

/-- **C38 (emptiness test).** `lbm_event_queue_is_empty` says whether all accepted events are delivered. -/
theorem C38_empty {max : Nat} (hm : 0 < max) {r : Ring} {t : Trace} (h : Exec max r t) : isEmpty r = true ↔ t.delivered = t.accepted := by
  obtain ⟨q, hq, eq⟩ := exec_holds hm h
  rw [eq]
  have : t.delivered = t.delivered ++ q ↔ q = [] := by
    constructor
    · intro e; have := congrArg List.length e; simp at this; exact this
    · rintro rfl; simp
  rw [this]
  cases q with
  | nil =>
    have h1 := (pop_holds hq).1 rfl
    unfold pop at h1
    split at h1
    · rename_i hc; simp [isEmpty] at hc ⊢; exact hc
    · split at h1
      · split at h1
        · cases h1
        · simp at h1
      · cases h1
  | cons x q =>
    obtain ⟨r', h1, _⟩ := (pop_holds hq).2 x q rfl
    unfold pop at h1
    split at h1
    · cases h1
    · rename_i hc; simp [isEmpty] at hc ⊢; exact hc

/-- **C38 (without a queue or a handler).** Nothing is accepted before the queue is created, and values for the event handler are accepted only while there is
one. -/
theorem C38_not_ready (e : Event) (r : Ring) (pid : Int) (hp : pid ≤ 0) (imm : Bool) (v n : Nat) :
    push start e = some (start, false) ∧ event r pid v n = some (r, false) ∧ eventUnboxed r pid imm v = some (r, false) := by
  refine ⟨rfl, ?_, ?_⟩
  · unfold event; rw [if_neg (by omega)]
  · unfold eventUnboxed; split
    · rw [if_neg (by omega)]
    · rfl

/-- With a handler, `lbm_event` and `lbm_event_unboxed` put an event for it in the queue that carries the buffer or the value. -/
theorem C38_for_handler (r : Ring) (pid : Int) (hp : 0 < pid) (v n : Nat) :
    event r pid v n = push r ⟨0, 0, v, n⟩ ∧ eventUnboxed r pid true v = push r ⟨0, 0, v, 0⟩ := by
  refine ⟨?_, ?_⟩
  · unfold event; rw [if_pos (by omega)]
  · unfold eventUnboxed; rw [if_pos rfl, if_pos (by omega)]

/-! A queue for two events, wrapping around, with a rejected event. -/
def ev (n : Nat) : Event := ⟨1, n, 0, 0⟩

def after : List (Option Event) → Ring → Trace → Option (Ring × Trace × List Bool)
  | [], r, t => some (r, t, [])
  | some e :: l, r, t => match push r e with
    | some (r', b) => (after l r' (if b then { t with accepted := t.accepted ++ [e] } else t)).map fun x => (x.1, x.2.1, b :: x.2.2)
    | none => none
  | none :: l, r, t => match pop r with
    | some (r', some e) => (after l r' { t with delivered := t.delivered ++ [e] }).map fun x => (x.1, x.2.1, true :: x.2.2)
    | some (r', none) => (after l r' t).map fun x => (x.1, x.2.1, false :: x.2.2)
    | none => none

example : (after [some (ev 1), some (ev 2), some (ev 3), none, some (ev 4), none, none, none] (initEvents 2) ⟨[], []⟩).map (fun x => (x.2.1.accepted, x.2.1.delivered, x.2.2)) =
    some ([ev 1, ev 2, ev 4], [ev 1, ev 2, ev 4], [true, true, false, true, true, true, true, false]) := by decide

example : ∃ r t, Exec 2 r t ∧ t.accepted = [ev 1, ev 2] ∧ t.delivered = [ev 1] :=
  ⟨_, _, .deliver (e := ev 1) (.accept (e := ev 2) (.accept (e := ev 1) .init rfl) rfl) rfl, rfl, rfl⟩

end Verif.Ev
