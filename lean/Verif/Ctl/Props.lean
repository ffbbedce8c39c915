import Verif.Ctl.Spec

/-!
# C92: pausing the evaluator
-/

namespace Verif.Ctl

/-- What holds at all times if no request is made while the evaluator decides about another one. -/
structure Inv (s : S) : Prop where
  /-- the evaluator does not work while it says that it is paused -/
  quiet : s.run = .paused → s.pc ≠ .inner ∧ s.pc ≠ .pause2 ∧ s.pc ≠ .pause3
  /-- the request that is being carried out is the one that was read -/
  same : s.pc = .setRun → s.next = .none ∨ s.next = .running
  same2 : s.pc = .resetting → s.next = .reset
  same3 : s.pc = .killing → s.next = .kill
  reqs : s.next = .none ∨ s.next = .running ∨ s.next = .paused ∨ s.next = .reset ∨ s.next = .kill
  hreq : ∀ c, (s.host = .next c ∨ ∃ k, s.host = .arg k c) → c = .running ∨ c = .paused ∨ c = .reset ∨ c = .kill
  /-- a request to pause is not lost -/
  wake : s.next = .paused → (s.host = .set ∨ s.host = .cmp ∨ s.run = .paused ∨ s.changed = true ∨
    s.pc = .clear ∨ s.pc = .switch ∨ s.pc = .pause1 ∨ s.pc = .pause2 ∨ s.pc = .pause3 ∨ s.pc = .over ∨ s.pc = .killing)
  /-- nor one to end -/
  wakeK : s.next = .kill → (s.host = .set ∨ s.host = .cmp ∨ s.changed = true ∨
    s.run = .paused ∨ s.pc = .pause1 ∨ s.pc = .pause2 ∨ s.pc = .pause3 ∨ s.pc = .clear ∨ s.pc = .switch ∨ s.pc = .over ∨ s.pc = .killing)
  over : s.pc = .over → s.run = .dead
  nokill : s.run ≠ .kill

theorem inv_init (q : Nat) : Inv (init q) := by
  constructor <;> simp [init]

theorem inv_step {s s' : S} {e : Ev} (hi : Inv s) (ha : Apart s e) (hs : step s e = some s') : Inv s' := by
  obtain ⟨h1, h2, h3, h3', h4, h5, h6, h7, h8, h9⟩ := hi
  cases e with
  | call c =>
    simp only [step] at hs
    split at hs
    · next hh =>
      cases hs
      refine ⟨h1, h2, h3, h3', h4, ?_, ?_, ?_, h8, h9⟩
      · intro d hd
        cases c <;> simp [Call.start] at hd ⊢ <;> simp [← hd]
      · intro hp; have := h6 hp; rw [hh] at this; simp at this; simp [this]
      · intro hp; have := h7 hp; rw [hh] at this; simp at this; simp [this]
    · cases hs
  | host =>
    simp only [step, hostGo] at hs
    split at hs
    · cases hs
    · next k c hh =>
      cases hs
      refine ⟨h1, h2, h3, h3', h4, ?_, ?_, ?_, h8, h9⟩
      · intro d hd; simp at hd; exact h5 d (.inr ⟨k, by rw [hh, hd]⟩)
      · intro hp; have := h6 hp; rw [hh] at this; simp at this; simp [this]
      · intro hp; have := h7 hp; rw [hh] at this; simp at this; simp [this]
    · next c hh =>
      cases hs
      have hd : ¬ Deciding s := fun hd => ha rfl hd c hh
      have hc := h5 c (.inl hh)
      refine ⟨h1, ?_, ?_, ?_, .inr hc, ?_, ?_, ?_, h8, h9⟩
      · intro hp; exact absurd (.inl hp) hd
      · intro hp; exact absurd (.inr (.inl hp)) hd
      · intro hp; exact absurd (.inr (.inr hp)) hd
      · intro d hd; simp at hd
      · intro _; simp
      · intro _; simp
    · next hh =>
      cases hs
      refine ⟨h1, h2, h3, h3', h4, ?_, ?_, ?_, h8, h9⟩
      · intro d hd; simp only at hd; split at hd <;> simp at hd
      · intro hp
        simp only at hp ⊢
        by_cases hr : s.run = .paused
        · simp [hr]
        · rw [if_pos (by rw [hp]; exact Ne.symm hr)]; simp
      · intro hp
        simp only at hp ⊢
        rw [if_pos (by rw [hp]; exact Ne.symm h9)]; simp
    · next hh =>
      cases hs
      exact ⟨h1, h2, h3, h3', h4, by simp, by simp, by simp, h8, h9⟩
  | go r =>
    simp only [step, evalGo] at hs
    split at hs
    case h_12 => cases hs
    case h_5 hp =>
      have hn := h3 hp
      split at hs <;> cases hs <;> refine ⟨?_, ?_, ?_, ?_, h4, h5, ?_, ?_, ?_, ?_⟩ <;> simp_all
    case h_6 hp => split at hs <;> cases hs <;> refine ⟨?_, ?_, ?_, ?_, h4, h5, ?_, ?_, ?_, ?_⟩ <;> simp_all
    case h_11 hp => split at hs <;> cases hs <;> refine ⟨?_, ?_, ?_, ?_, h4, h5, ?_, ?_, ?_, ?_⟩ <;> simp_all
    all_goals
      rename_i hp
      cases hs
      refine ⟨?_, ?_, ?_, ?_, h4, h5, ?_, ?_, ?_, ?_⟩ <;> simp_all
    all_goals grind
  | eval f =>
    simp only [step, evalStep] at hs
    split at hs
    · next hh =>
      cases hs
      have hr : s.run ≠ .paused := fun h => (h1 h).1 hh.1
      refine ⟨?_, ?_, ?_, ?_, h4, h5, ?_, ?_, ?_, h9⟩ <;> cases f <;> simp_all
    · cases hs

theorem Exec.mono {ok ok' : S → Ev → Prop} (h : ∀ s e, ok s e → ok' s e) {s s' : S} {es : List Ev} (he : Exec ok s es s') : Exec ok' s es s' := by
  induction he with
  | nil => exact .nil
  | cons h1 h2 _ ih => exact .cons (h _ _ h1) h2 ih

theorem inv_exec {ok : S → Ev → Prop} (hok : ∀ s e, ok s e → Apart s e) {s s' : S} {es : List Ev} (he : Exec ok s es s') (hi : Inv s) : Inv s' := by
  induction he with
  | nil => exact hi
  | cons h1 h2 _ ih => exact ih (inv_step hi (hok _ _ h1) h2)

theorem alone_apart (s : S) (e : Ev) (h : Alone s e) : Apart s e := fun he => absurd he h.1

/-- A pause, with no other request. -/
structure Pausing (s : S) : Prop where
  run : s.run = .paused
  next : s.next = .paused
  host : s.host = .idle ∨ (∃ k, s.host = .arg k .paused) ∨ s.host = .next .paused ∨ s.host = .cmp ∨ s.host = .set

theorem pausing_step {s s' : S} {e : Ev} (hi : Inv s) (h : Pausing s) (ho : OnlyPause s e) (hs : step s e = some s') : Pausing s' ∧ touches s e = false := by
  obtain ⟨h1, h2, h3⟩ := h
  have hq := hi.quiet h1
  have hr : s.pc ≠ .resetting := fun h => by have := hi.same2 h; rw [h2] at this; cases this
  have hk : s.pc ≠ .killing := fun h => by have := hi.same3 h; rw [h2] at this; cases this
  have hc : s.pc ≠ .setRun := fun h => by have := hi.same h; rw [h2] at this; simp at this
  have hov : s.pc ≠ .over := fun h => by have := hi.over h; rw [h1] at this; cases this
  cases e with
  | call c =>
    simp only [step] at hs
    split at hs
    · cases hs
      refine ⟨⟨h1, h2, ?_⟩, rfl⟩
      rcases ho c rfl with rfl | ⟨k, rfl⟩ <;> simp [Call.start]
    · cases hs
  | host =>
    simp only [step, hostGo] at hs
    split at hs
    · cases hs
    · next k c hh =>
      cases hs
      refine ⟨⟨h1, h2, ?_⟩, rfl⟩
      rw [hh] at h3
      simp at h3
      simp [h3]
    · next c hh =>
      cases hs
      rw [hh] at h3
      simp at h3
      exact ⟨⟨h1, h3, by simp⟩, rfl⟩
    · cases hs
      refine ⟨⟨h1, h2, ?_⟩, rfl⟩
      simp only
      split <;> simp
    · cases hs
      exact ⟨⟨h1, h2, by simp⟩, rfl⟩
  | go r =>
    simp only [step, evalGo] at hs
    split at hs
    case h_12 => cases hs
    case h_5 hp => exact absurd hp hr
    case h_9 hp => exact absurd hp hk
    case h_10 hp => exact absurd hp hc
    case h_11 hp => exact absurd hp hq.1
    case h_7 hp => exact absurd hp hq.2.1
    case h_8 hp => exact absurd hp hq.2.2
    case h_6 hp =>
      rw [if_neg (by simp [h1])] at hs
      cases hs
      exact ⟨⟨h1, h2, h3⟩, by simp [touches, hp, h1]⟩
    all_goals
      rename_i hp
      cases hs
      exact ⟨⟨h1, h2, h3⟩, by simp [touches, hp]⟩
  | eval f =>
    simp only [step, evalStep] at hs
    rw [if_neg (fun h => hq.1 h.1)] at hs
    cases hs

/-- **C92 (partial).** From a moment at which the evaluator reports that it is paused until a request other than to pause is made, it goes on to report that it is paused, and no step that it
takes touches the heap, the memory, the queues or the events. Condition (`Apart`): before that, no request was made between the moment at which the evaluator had read another request
and the moment at which it had carried it out. (Full property: without this condition; see the violation.) -/
theorem C92_paused_quiet_partial {q : Nat} {es es' : List Ev} {s s' : S} (he : Exec Apart (init q) es s) (hp : s.run = .paused) (hn : s.next = .paused) (hh : s.host = .idle)
    (hx : Exec (fun s e => Apart s e ∧ OnlyPause s e) s es' s') : s'.run = .paused ∧ ∀ e s'', step s' e = some s'' → OnlyPause s' e → touches s' e = false := by
  have hi := inv_exec (fun _ _ h => h) he (inv_init q)
  have main : Inv s' ∧ Pausing s' := by
    have h0 : Pausing s := ⟨hp, hn, .inl hh⟩
    clear he hp hn hh
    induction hx with
    | nil => exact ⟨hi, h0⟩
    | cons h1 h2 _ ih => exact ih (inv_step hi h1.1 h2) (pausing_step hi h0 h1.2 h2).1
  exact ⟨main.2.run, fun e s'' hs ho => (pausing_step main.1 main.2 ho hs).2⟩

/-! ## Requests take effect -/

/-- The evaluator never waits for anything. -/
theorem C92_no_deadlock {s : S} (h : s.pc ≠ .over) (r : Nat) : ∃ s', step s (.go r) = some s' := by
  simp only [step, evalGo]
  split <;> first | exact ⟨_, rfl⟩ | (split <;> exact ⟨_, rfl⟩) | (rename_i hp; exact absurd hp h)

/-- A request is not lost. -/
def Wake (s : S) : Prop :=
  s.next = .none ∨ s.run = effect s.next ∨ s.host = .cmp ∨ s.host = .set ∨ s.changed = true ∨ s.run = .paused ∨ s.pc = .clear ∨ s.pc = .switch ∨
    s.pc = .pause1 ∨ s.pc = .pause2 ∨ s.pc = .pause3 ∨ s.pc = .setRun ∨ s.pc = .resetting ∨ s.pc = .killing ∨ s.pc = .over

theorem wake_step {s s' : S} {e : Ev} (hi : Inv s) (hw : Wake s) (hs : step s e = some s') : Wake s' := by
  cases e with
  | call c =>
    simp only [step] at hs
    split at hs
    · next h => cases hs; simp only [Wake, h] at hw ⊢; simp only [reduceCtorEq, false_or] at hw; grind
    · cases hs
  | host =>
    simp only [step, hostGo] at hs
    split at hs
    · cases hs
    · next h => cases hs; simp only [Wake, h] at hw ⊢; simp only [reduceCtorEq, false_or] at hw; grind
    · cases hs; simp [Wake]
    · next h =>
      cases hs
      by_cases hne : s.next = s.run
      · rw [if_neg (by simp [hne])]
        have hk := hi.nokill
        simp only [Wake]
        cases hr : s.next <;> simp_all [effect]
      · rw [if_pos hne]; simp [Wake]
    · cases hs; simp [Wake]
  | go r =>
    have e1 := hi.same; have e2 := hi.same2; have e3 := hi.same3
    simp only [step, evalGo] at hs
    split at hs <;> rename_i hpc <;> simp only [Wake, hpc] at hw ⊢
    all_goals first
      | (cases hs; done)
      | (cases hs; simp_all [effect]; done)
      | (cases hs; split <;> simp_all [effect]; done)
      | (split at hs <;> cases hs <;> simp_all [effect]; done)
      | skip
    all_goals (cases hs; rcases e1 hpc with h | h <;> simp [h, effect])
  | eval f =>
    simp only [step, evalStep] at hs
    split at hs
    · next h => cases hs; simp only [Wake, h.1] at hw ⊢; cases f <;> simp_all
    · cases hs

/-- The request has been carried out. -/
def Done (s : S) : Prop := s.run = effect s.next ∧ (s.pc = .pause1 ∨ s.pc = .pause2 ∨ s.pc = .pause3 → s.next = .paused)

instance (s : S) : Decidable (Done s) := by unfold Done; infer_instance

/-- The number of steps that the evaluator can take until it has done what was asked of it. -/
def rank (s : S) : Nat :=
  match s.pc with
    | .setRun | .resetting | .killing => 1
    | .pause3 => if s.next = .paused then 1 else 8
    | .pause2 => if s.next = .paused then 2 else 9
    | .pause1 => if s.next = .paused then 3 else 10
    | .switch => 4
    | .clear => 5
    | .top => 7
    | .inner => s.quota + 8
    | .check => if s.run = .paused then 6 else s.quota + 9
    | .over => 0

theorem rank_step {s s' : S} {e : Ev} (hi : Inv s) (hw : Wake s) (hh : s.host = .idle) (hn : s.next ≠ .none) (hd : s.run ≠ .dead) (ha : Alone s e) (hs : step s e = some s') :
    s'.host = .idle ∧ s'.next = s.next ∧ (Done s' ∨ (s'.run ≠ .dead ∧ ¬ Done s ∧ rank s' < rank s)) := by
  have e1 := hi.same; have e2 := hi.same2; have e3 := hi.same3
  have e4 := hi.over; have e5 := hi.quiet; have e6 := hi.reqs
  cases e with
  | call c => exact absurd rfl (ha.2 c)
  | host => exact absurd rfl ha.1
  | go r =>
    simp only [Wake, hh, hn, reduceCtorEq, false_or] at hw
    simp only [step, evalGo] at hs
    split at hs <;> rename_i hpc <;> simp only [hpc, reduceCtorEq, false_or, or_false, forall_const, false_implies] at hw e1 e2 e3 e4 e5
    case h_1 =>
      cases hs
      refine ⟨hh, rfl, ?_⟩
      by_cases hr : s.run = effect s.next
      · left; refine ⟨hr, ?_⟩; simp only; split <;> simp
      · right
        refine ⟨hd, fun h => hr h.1, ?_⟩
        simp only [rank, hpc]
        cases hc : s.changed <;> simp_all
    case h_2 =>
      cases hs
      refine ⟨hh, rfl, ?_⟩
      by_cases hr : s.run = effect s.next
      · left; refine ⟨hr, ?_⟩; simp only; split <;> simp
      · right
        refine ⟨hd, fun h => hr h.1, ?_⟩
        simp only [rank, hpc]
        by_cases hp : s.run = .paused <;> simp [hp]
    case h_3 =>
      cases hs
      refine ⟨hh, rfl, ?_⟩
      by_cases hr : s.run = effect s.next
      · left; exact ⟨hr, by simp⟩
      · right
        exact ⟨hd, fun h => hr h.1, by simp [rank, hpc]⟩
    case h_4 =>
      cases hs
      refine ⟨hh, rfl, ?_⟩
      by_cases hr : s.run = effect s.next
      · left; refine ⟨hr, ?_⟩; simp only; split <;> simp_all
      · right
        refine ⟨hd, fun h => hr h.1, ?_⟩
        simp only [rank, hpc]
        cases h : s.next <;> simp_all
    case h_5 =>
      split at hs <;> cases hs <;> refine ⟨hh, rfl, .inl ⟨?_, by simp⟩⟩ <;> simp_all [effect]
    case h_6 =>
      split at hs
      · next hp =>
        cases hs
        refine ⟨hh, rfl, .inr ⟨hd, ?_, ?_⟩⟩
        · rintro ⟨h1, h2⟩
          rw [h2 (.inl hpc)] at h1
          exact hp h1
        · simp only [rank, hpc]; split <;> omega
      · next hp =>
        cases hs
        simp only [ne_eq, Decidable.not_not] at hp
        refine ⟨hh, rfl, ?_⟩
        by_cases hx : s.next = .paused
        · left; exact ⟨by simp [hp, hx, effect], by simp⟩
        · right
          refine ⟨hd, fun h => hx (h.2 (.inl hpc)), ?_⟩
          simp [rank, hpc, hx]
    case h_7 =>
      cases hs
      refine ⟨hh, rfl, .inr ⟨hd, ?_, ?_⟩⟩
      · rintro ⟨h1, h2⟩
        rw [h2 (.inr (.inl hpc))] at h1
        exact absurd (e5 h1) (by simp)
      · simp only [rank, hpc]; split <;> omega
    case h_8 =>
      cases hs
      refine ⟨hh, rfl, ?_⟩
      by_cases hx : s.next = .paused
      · left; exact ⟨by simp [hx, effect], by simp⟩
      · right
        refine ⟨by simp, fun h => hx (h.2 (.inr (.inr hpc))), ?_⟩
        simp [rank, hpc, hx]
    case h_9 => cases hs; exact ⟨hh, rfl, .inl ⟨by simp [e3, effect], by simp⟩⟩
    case h_10 =>
      cases hs
      refine ⟨hh, rfl, .inl ⟨?_, by simp⟩⟩
      rcases e1 with h | h
      · exact absurd h hn
      · simp [h, effect]
    case h_11 =>
      by_cases hr : s.run = effect s.next
      · split at hs <;> cases hs <;> exact ⟨hh, rfl, .inl ⟨hr, by simp_all⟩⟩
      · have hx : s.run ≠ .paused := fun h => (e5 h).1 rfl
        simp only [hr, hx, false_or, or_false] at hw
        rw [if_pos hw] at hs
        cases hs
        exact ⟨hh, rfl, .inr ⟨hd, fun h => hr h.1, by simp [rank, hpc]⟩⟩
    case h_12 => cases hs
  | eval f =>
    simp only [step, evalStep] at hs
    split at hs
    · next h =>
      cases hs
      refine ⟨hh, rfl, ?_⟩
      by_cases hr : s.run = effect s.next
      · left; refine ⟨hr, ?_⟩; cases f <;> simp
      · right
        refine ⟨hd, fun h => hr h.1, ?_⟩
        simp only [rank, h.1]
        cases f <;> simp <;> omega
    · cases hs

theorem dead_step {s s' : S} {e : Ev} (hi : Inv s) (hw : s.run = .dead → s.pc = .over) (hs : step s e = some s') : s'.run = .dead → s'.pc = .over := by
  have e1 := hi.same
  cases e with
  | call c =>
    simp only [step] at hs
    split at hs
    · cases hs; exact hw
    · cases hs
  | host =>
    simp only [step, hostGo] at hs
    split at hs <;> cases hs <;> exact hw
  | go r =>
    simp only [step, evalGo] at hs
    split at hs <;> rename_i hpc <;> simp only [hpc, reduceCtorEq, imp_false, forall_const] at hw e1
    all_goals first
      | (cases hs; done)
      | (cases hs; simp [hw]; done)
      | (split at hs <;> cases hs <;> simp [hw]; done)
      | (cases hs; rcases e1 with h | h <;> simp [h])
  | eval f =>
    simp only [step, evalStep] at hs
    split at hs
    · next h => cases hs; intro h'; have := hw h'; rw [h.1] at this; cases this
    · cases hs

theorem over_step {s s' : S} {e : Ev} (h : s.pc = .over) (ha : Alone s e) (hs : step s e = some s') : False := by
  cases e with
  | call c => exact ha.2 c rfl
  | host => exact ha.1 rfl
  | go r => simp [step, evalGo, h] at hs
  | eval f => simp [step, evalStep, h] at hs

/-- Reachable states. -/
theorem reach_inv {q : Nat} {es : List Ev} {s : S} (he : Exec Apart (init q) es s) : Inv s ∧ Wake s ∧ (s.run = .dead → s.pc = .over) := by
  have h0 : Inv (init q) ∧ Wake (init q) ∧ ((init q).run = .dead → (init q).pc = .over) := ⟨inv_init q, .inl rfl, by simp [init]⟩
  generalize init q = s0 at he h0
  induction he with
  | nil => exact h0
  | cons h1 h2 _ ih => exact ih ⟨inv_step h0.1 h1 h2, wake_step h0.1 h0.2.1 h2, dead_step h0.1 h0.2.2 h2⟩

/-- **C92 (partial).** When a request has been made (to pause, to continue, to reset or to end), it takes effect, and stays in effect if nothing else is requested in the meantime: as long as it
has not, the evaluator can take a step, and it has taken fewer steps than evaluation steps were left of its quota and eleven more. (Missing: requests that are not `Apart`; see the
violation.) -/
theorem C92_requests_take_effect_partial {q : Nat} {es es' : List Ev} {s s' : S} (he : Exec Apart (init q) es s) (hh : s.host = .idle) (hn : s.next ≠ .none) (hd : s.run ≠ .dead)
    (hx : Exec Alone s es' s') : s'.run = effect s.next ∨ (es'.length < s.quota + 11 ∧ ∀ r, ∃ s'', step s' (.go r) = some s'') := by
  obtain ⟨hi, hw, ho⟩ := reach_inv he
  have hb : rank s < s.quota + 11 := by unfold rank; split <;> (try split) <;> omega
  clear he
  have : (rank s < s.quota + 11 ∧ s.run ≠ .dead) ∨ Done s := .inl ⟨hb, hd⟩
  clear hb hd
  generalize s.quota + 11 = B at this ⊢
  induction hx generalizing B with
  | nil =>
    rcases this with h | h
    · exact .inr ⟨by simp; omega, fun r => C92_no_deadlock (fun h' => h.2 (hi.over h')) r⟩
    · exact .inl h.1
  | @cons s s1 s' e es h1 h2 _ ih =>
    have hd : s.run ≠ .dead := fun hd => over_step (ho hd) h1 h2
    obtain ⟨a1, a2, a3⟩ := rank_step hi hw hh hn hd h1 h2
    rw [← a2]
    have := ih a1 (a2 ▸ hn) (inv_step hi (alone_apart _ _ h1) h2) (wake_step hi hw h2) (dead_step hi ho h2) (B - 1) (by
      rcases a3 with h | ⟨h, h', h''⟩
      · exact .inr h
      · rcases this with h3 | h3
        · left; exact ⟨by omega, h⟩
        · exact absurd h3 h')
    rcases this with h | h
    · exact .inl h
    · exact .inr ⟨by simp; omega, h.2⟩

/-! ## Garbage collection before a pause -/

/-- What becomes of a request to pause with `k` free cells. -/
def Ask (k : Nat) (s : S) : Prop :=
  (s.host = .arg k .paused ∧ s.next ≠ .paused ∧ s.run ≠ .paused ∧ s.pc ≠ .pause1 ∧ s.pc ≠ .pause2 ∧ s.pc ≠ .pause3) ∨
  (s.host = .next .paused ∧ s.arg = k ∧ s.next ≠ .paused ∧ s.run ≠ .paused ∧ s.pc ≠ .pause1 ∧ s.pc ≠ .pause2 ∧ s.pc ≠ .pause3) ∨
  ((s.host = .cmp ∨ s.host = .set ∨ s.host = .idle) ∧ s.next = .paused ∧
    ((s.run ≠ .paused ∧ s.arg = k ∧ s.pc ≠ .pause2 ∧ s.pc ≠ .pause3) ∨ (s.run ≠ .paused ∧ s.asked = k ∧ (s.pc = .pause2 ∨ s.pc = .pause3)) ∨
      (s.run = .paused ∧ s.asked = k ∧ s.pc ≠ .pause2 ∧ s.pc ≠ .pause3)))

theorem ask_step {k : Nat} {s s' : S} {e : Ev} (hi : Inv s) (h : Ask k s) (hc : ∀ c, e ≠ .call c) (hs : step s e = some s') : Ask k s' := by
  have e1 := hi.same; have e2 := hi.same2; have e3 := hi.same3; have e5 := hi.quiet
  cases e with
  | call c => exact absurd rfl (hc c)
  | host =>
    simp only [step, hostGo] at hs
    split at hs <;> rename_i hh <;> simp only [Ask, hh, Host.arg.injEq, Host.next.injEq, reduceCtorEq, false_and, false_or, or_false, true_and, true_or] at h ⊢
    · cases hs
    · cases hs; obtain ⟨⟨h1, h2⟩, h3⟩ := h; subst h1; subst h2; simp; exact h3
    · cases hs; obtain ⟨h1, h3⟩ := h; subst h1; simp; grind
    · cases hs; by_cases hx : s.next ≠ s.run <;> simp [hx] <;> grind
    · cases hs; simp; grind
  | go r =>
    simp only [step, evalGo] at hs
    split at hs <;> rename_i hpc <;> simp only [Ask, hpc] at h ⊢
    case h_12 => cases hs
    case h_4 => cases hs; cases hx : s.next <;> simp_all
    case h_10 =>
      cases hs
      rcases e1 hpc with hx | hx <;> simp_all <;> grind
    all_goals first
      | (cases hs; simp_all; done)
      | (cases hs; simp_all; grind)
      | (cases hs; split <;> simp_all; done)
      | (split at hs <;> cases hs <;> simp_all <;> grind)
  | eval f =>
    simp only [step, evalStep] at hs
    split at hs
    · next hx => cases hs; simp only [Ask, hx.1] at h ⊢; cases f <;> simp_all
    · cases hs

/-- **C92 (partial).** If the evaluator is evaluating, has not been asked to pause, and is now asked to pause with `k` free heap cells, then when it reports that it is paused, it has before that
compared the number of free cells with `k` to decide about garbage collection. (Missing: a further request to pause made in the meantime; see the violation.) -/
theorem C92_pause_collects_partial {q k : Nat} {es es' : List Ev} {s s1 s' : S} (he : Exec Apart (init q) es s) (hr : s.run = .running) (hp : s.pc = .inner) (hn : s.next ≠ .paused)
    (hc : step s (.call (.pauseGc k)) = some s1) (hx : Exec (fun s e => Apart s e ∧ ∀ c, e ≠ .call c) s1 es' s') (hd : s'.run = .paused) : s'.asked = k := by
  have hi := (reach_inv he).1
  have hi1 := inv_step hi (fun h => by cases h) hc
  have h1 : Ask k s1 := by
    simp only [step] at hc
    split at hc
    · cases hc; left; simp [Call.start, hr, hp, hn]
    · cases hc
  have : Ask k s' := by
    clear hc hd he hp hn hr hi
    induction hx with
    | nil => exact h1
    | cons a b _ ih => exact ih (inv_step hi1 a.1 b) (ask_step hi1 h1 a.2 b)
  simp only [Ask] at this
  grind

/-! ## Violations -/

/-- Runs a list of steps, each of which must satisfy `ok`. -/
def play (ok : S → Ev → Bool) : S → List Ev → Option S
  | s, [] => some s
  | s, e :: es => if ok s e then (step s e).bind (play ok · es) else none

theorem play_sound {ok : S → Ev → Bool} {P : S → Ev → Prop} (h : ∀ s e, ok s e = true → P s e) {es : List Ev} : ∀ {s s' : S}, play ok s es = some s' → Exec P s es s' := by
  induction es with
  | nil => intro s s' hp; simp only [play, Option.some.injEq] at hp; subst hp; exact .nil
  | cons e es ih =>
    intro s s' hp
    simp only [play] at hp
    split at hp
    · next h1 =>
      cases h2 : step s e with
      | none => rw [h2] at hp; cases hp
      | some s1 => rw [h2] at hp; exact .cons (h _ _ h1) h2 (ih hp)
    · cases hp

def patientB (s : S) : Ev → Bool
  | .call _ => s.run = effect s.next
  | _ => true

theorem patientB_sound (s : S) (e : Ev) (h : patientB s e = true) : Patient s e := by
  rintro c rfl; simpa [patientB] using h

def apartB (s : S) : Ev → Bool
  | .host => match s.host with
    | .next _ => s.pc ≠ .setRun ∧ s.pc ≠ .resetting ∧ s.pc ≠ .killing
    | _ => true
  | _ => true

theorem apartB_sound (s : S) (e : Ev) (h : apartB s e = true) : Apart s e := by
  rintro rfl hd c hc
  simp only [apartB, hc, ne_eq, decide_eq_true_eq] at h
  rcases hd with hd | hd | hd <;> simp [hd] at h

def aloneB (_ : S) : Ev → Bool
  | .go _ | .eval _ => true
  | _ => false

theorem aloneB_sound (s : S) (e : Ev) (h : aloneB s e = true) : Alone s e := by
  cases e <;> simp_all [aloneB, Alone]

/-- The evaluator starts, is asked to pause, and pauses. -/
def pauseEvs : List Ev := [.go 5, .go 5, .call .pause, .host, .host, .host, .host, .go 5, .go 5, .go 5, .go 5, .go 5, .go 5, .go 5]

/-- **C92, violated.** Another thread that makes each request only after it has seen the effect of the one before can get the evaluator to report that it is paused while it goes on with evaluation:
there is such an execution that ends in a state in which the last request, to pause, has been carried out according to `lbm_get_eval_state`, but from which the evaluator takes any number
of further evaluation steps, always reporting that it is paused. -/
theorem C92_paused_quiet_violated : ∃ es s, Exec Patient (init 5) es s ∧ s.host = .idle ∧ s.next = .paused ∧ s.run = .paused ∧
    ∀ n, ∃ es' s', Exec Alone s es' s' ∧ es'.countP (· == .eval false) = n ∧ s'.run = .paused := by
  have key : play patientB (init 5) (pauseEvs ++ [.call .continue, .host, .host, .go 5, .go 5, .go 5, .go 5, .go 5, .host, .call .pause, .host, .go 5, .go 5, .go 5, .go 5,
    .host, .go 5, .host, .go 1]) = some ⟨.paused, 0, false, .paused, 1, .inner, .idle, 0⟩ := by decide
  refine ⟨_, _, play_sound patientB_sound key, rfl, rfl, rfl, fun n => ?_⟩
  suffices h : ∃ es', Exec Alone ⟨.paused, 0, false, .paused, 1, .inner, .idle, 0⟩ es' ⟨.paused, 0, false, .paused, 1, .inner, .idle, 0⟩ ∧ es'.countP (· == .eval false) = n by
    obtain ⟨es', h1, h2⟩ := h
    exact ⟨es', _, h1, h2, rfl⟩
  induction n with
  | zero => exact ⟨[], .nil, rfl⟩
  | succ n ih =>
    obtain ⟨es', h1, h2⟩ := ih
    refine ⟨.eval false :: .go 1 :: es', .cons (by simp [Alone]) rfl (.cons (by simp [Alone]) rfl h1), ?_⟩
    simp [List.countP_cons, h2]

/-- **C92, violated.** The comment above `lbm_reset_eval` says that a reset ends in a pause, and `include/eval_cps.h` that heap and memory are to be initialised then; but an evaluator that reports that
it has been reset goes on to process events, to schedule and to collect garbage. -/
theorem C92_reset_pauses_violated : ∃ es s, Exec Patient (init 5) es s ∧ Exec Apart (init 5) es s ∧ s.host = .idle ∧ s.next = .reset ∧ s.run = .reset ∧
    ∃ es' s' e s'', Exec Alone s es' s' ∧ step s' e = some s'' ∧ Alone s' e ∧ touches s' e = true := by
  have key (ok) (h : ok = patientB ∨ ok = apartB) : play ok (init 5) [.go 5, .go 5, .call .reset, .host, .host, .host, .host, .go 5, .go 5, .go 5, .go 5, .go 5] =
      some ⟨.reset, 0, false, .reset, 5, .top, .idle, 0⟩ := by
    rcases h with rfl | rfl <;> decide
  have key2 : play aloneB ⟨.reset, 0, false, .reset, 5, .top, .idle, 0⟩ [.go 5, .go 5] = some ⟨.reset, 0, false, .reset, 5, .inner, .idle, 0⟩ := by decide
  exact ⟨_, _, play_sound patientB_sound (key _ (.inl rfl)), play_sound apartB_sound (key _ (.inr rfl)), rfl, rfl, rfl, _, _, .go 5, _, play_sound aloneB_sound key2, rfl,
    by simp [Alone], rfl⟩

/-- **C92, violated.** A request to pause with thirty free heap cells, followed by a plain request to pause before the evaluator has paused, as in the `:pause` command of `repl/repl.c:1727-1731`,
pauses without garbage collection however few cells are free. -/
theorem C92_pause_collects_violated : ∃ es s, Exec Apart (init 5) es s ∧ es.filter (fun e => e matches .call _) = [.call (.pauseGc 30), .call .pause] ∧ s.run = .paused ∧ s.asked = 0 := by
  have key : play apartB (init 5) [.go 5, .go 5, .call (.pauseGc 30), .host, .host, .host, .host, .call .pause, .host, .host, .host, .host,
      .go 5, .go 5, .go 5, .go 5, .go 5, .go 5, .go 5] = some ⟨.paused, 0, false, .paused, 5, .top, .idle, 0⟩ := by decide
  exact ⟨_, _, play_sound apartB_sound key, by decide, rfl, rfl⟩

/-! ## The conditions are met -/

/-- A pause while the evaluator is in the middle of its quota. -/
example : ∃ es s, Exec Apart (init 5) es s ∧ s.run = .paused ∧ s.next = .paused ∧ s.host = .idle ∧ s.quota = 3 := by
  have key : play apartB (init 5) [.go 5, .go 5, .eval false, .call .pause, .host, .host, .host, .host, .eval true, .go 5, .go 5, .go 5, .go 5, .go 5, .go 5] =
    some ⟨.paused, 0, false, .paused, 3, .top, .idle, 0⟩ := by decide
  exact ⟨_, _, play_sound apartB_sound key, rfl, rfl, rfl, rfl⟩

/-- A request that has not yet taken effect, and its effect. -/
example : ∃ es s es' s', Exec Apart (init 5) es s ∧ s.host = .idle ∧ s.next = .kill ∧ s.run = .running ∧ Exec Alone s es' s' ∧ s'.run = .dead := by
  have key : play apartB (init 5) [.go 5, .go 5, .call .kill, .host, .host, .host] = some ⟨.kill, 0, true, .running, 5, .inner, .idle, 0⟩ := by decide
  have key2 : play aloneB ⟨.kill, 0, true, .running, 5, .inner, .idle, 0⟩ [.eval false, .go 5, .go 5, .go 5, .go 5, .go 5] = some ⟨.kill, 0, false, .dead, 4, .over, .idle, 0⟩ := by decide
  exact ⟨_, _, _, _, play_sound apartB_sound key, rfl, rfl, rfl, play_sound aloneB_sound key2, rfl⟩

/-- A pause with garbage collection. -/
example : ∃ es s s1 es' s', Exec Apart (init 5) es s ∧ s.run = .running ∧ s.pc = .inner ∧ s.next ≠ .paused ∧ step s (.call (.pauseGc 30)) = some s1 ∧
    Exec (fun s e => Apart s e ∧ ∀ c, e ≠ .call c) s1 es' s' ∧ s'.run = .paused ∧ s'.asked = 30 := by
  have key : play apartB (init 5) [.go 5, .go 5] = some ⟨.none, 0, false, .running, 5, .inner, .idle, 0⟩ := by decide
  have key2 : play (fun s e => apartB s e && !(e matches .call _)) ⟨.none, 0, false, .running, 5, .inner, .arg 30 .paused, 0⟩
    [.host, .host, .host, .host, .go 5, .go 5, .go 5, .go 5, .go 5, .go 5, .go 5] = some ⟨.paused, 0, false, .paused, 5, .top, .idle, 30⟩ := by decide
  refine ⟨_, _, _, _, _, play_sound apartB_sound key, rfl, rfl, by decide, rfl, play_sound (fun s e h => ?_) key2, rfl, rfl⟩
  simp only [Bool.and_eq_true] at h
  refine ⟨apartB_sound _ _ h.1, ?_⟩
  rintro c rfl
  simp at h

end Verif.Ctl
