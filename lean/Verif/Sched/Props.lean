import Verif.Sched.Sim

/-! C32, C33, C34, C37 and C61: the scheduler. -/

namespace Verif.Sched

variable {w : Nat}

theorem does_unique {s s1 s2 : S} {op : Op} (h1 : Does w s op s1) (h2 : Does w s op s2) : s1 = s2 := by
  obtain ⟨n1, h1⟩ := h1
  obtain ⟨n2, h2⟩ := h2
  have a := h1 (n1 + n2) (by omega)
  rw [h2 (n1 + n2) (by omega)] at a
  injection a with a
  exact a.symm

/-- What an operation that was performed did. -/
theorem does_spec {s s' : S} {live r b : List Cid} {op : Op} (h : Placed s live r b) (ho : Allowed s live op) (hd : Does w s op s') :
    Placed s' (liveAfter s live op) (after w s r b op).ready (after w s r b op).blocked ∧ s'.running = (after w s r b op).running ∧
    s'.atomic = afterAtomic s op ∧ s'.timeouts = s.timeouts ++ timedOut w s b op := by
  obtain ⟨s2, e, p⟩ := sim (w := w) h ho
  rw [does_unique hd ⟨_, e⟩]
  exact p

theorem exec_placed {s s' : S} {live live' : List Cid} {ops : List Op} (he : Exec w s live ops s' live') :
    (∃ r b, Placed s live r b) → ∃ r b, Placed s' live' r b := by
  induction he with
  | nil => exact id
  | cons ho hd _ ih =>
    rintro ⟨r, b, h⟩
    exact ih ⟨_, _, (does_spec h ho hd).1⟩

theorem init_placed (k : Links) (info : Cid → Info) : Placed (init k info) [] [] [] :=
  ⟨⟨rfl, rfl, trivial⟩, ⟨rfl, rfl, trivial⟩, by simp [init], by simp, by simp, by simp [init]⟩

/-- **C32.** In every execution, whatever contexts and other threads do: no operation ever fails or follows a bad link, both doubly linked queues are well formed, and the running context, the ready queue and the
blocked queue together contain every existing context exactly once, and no others. -/
theorem C32_one_place {s : S} {live : List Cid} (h : Reachable w s live) :
    (∃ ready blocked, Placed s live ready blocked) ∧ ∀ op, Allowed s live op → ∃ s', Does w s op s' := by
  obtain ⟨k, info, ops, he⟩ := h
  obtain ⟨r, b, hp⟩ := exec_placed he ⟨_, _, init_placed k info⟩
  refine ⟨⟨r, b, hp⟩, fun op ho => ?_⟩
  obtain ⟨s', e, _⟩ := sim (w := w) hp ho
  exact ⟨s', _, e⟩

theorem seg_unique {k : Links} : ∀ {l m : List Cid} {p q : Option Cid}, Seg k p l none → Seg k q m none → l.head? = m.head? → l = m
  | [], [], _, _, _, _, _ => rfl
  | [], c :: m, _, _, _, _, h => by simp at h
  | c :: l, [], _, _, _, _, h => by simp at h
  | c :: l, d :: m, _, _, ⟨_, h2, h3⟩, ⟨_, g2, g3⟩, h => by
    have e : c = d := by simpa using h
    subst e
    rw [seg_unique h3 g3 (by simpa using h2.symm.trans g2)]

/-- A queue has only one list of contents. -/
theorem isQueue_unique {k : Links} {q : Queue} {l m : List Cid} (h : IsQueue k q l) (g : IsQueue k q m) : l = m :=
  seg_unique h.2.2 g.2.2 (h.1.symm.trans g.1)

theorem placed_unique {s : S} {live live' r r' b b' : List Cid} (h : Placed s live r b) (g : Placed s live' r' b') : r = r' ∧ b = b' :=
  ⟨isQueue_unique h.ready_ok g.ready_ok, isQueue_unique h.blocked_ok g.blocked_ok⟩

/-! ### C33 -/

/-- A scheduling round that is not skipped because of an atomic block. -/
def isRound (s : S) : Op → Bool
  | .round _ => !s.atomic
  | _ => false

/-- The number of scheduling rounds of an execution that are not skipped because of an atomic block. -/
inductive Rounds (w : Nat) : S → List Cid → List Op → S → List Cid → Nat → Prop
  | nil {s : S} {live : List Cid} : Rounds w s live [] s live 0
  | cons {s s1 s2 : S} {live live' : List Cid} {op : Op} {ops : List Op} {n : Nat} : Allowed s live op → Does w s op s1 →
      Rounds w s1 (liveAfter s live op) ops s2 live' n →
      Rounds w s live (op :: ops) s2 live' (n + if isRound s op then 1 else 0)

/-- At some point of the execution `p` runs. -/
inductive Runs (w : Nat) (p : Cid) : S → List Op → Prop
  | here {s : S} {ops : List Op} : s.running = some p → Runs w p s ops
  | there {s s1 : S} {op : Op} {ops : List Op} : Does w s op s1 → Runs w p s1 ops → Runs w p s (op :: ops)

theorem idx_erase {p c : Cid} : ∀ {r : List Cid} {i : Nat}, r[i]? = some p → c ≠ p → ∃ j ≤ i, (r.erase c)[j]? = some p
  | [], i, h, _ => by simp at h
  | d :: r, i, h, hc => by
    by_cases hd : d = c
    · subst hd
      cases i with
      | zero => simp at h; exact absurd h hc
      | succ i => exact ⟨i, by omega, by simpa using h⟩
    · rw [List.erase_cons_tail (by simpa using hd)]
      cases i with
      | zero => exact ⟨0, by omega, by simpa using h⟩
      | succ i =>
        obtain ⟨j, hj, e⟩ := idx_erase (r := r) (i := i) (by simpa using h) hc
        exact ⟨j + 1, by omega, by simpa using e⟩

theorem idx_append {p : Cid} {r l : List Cid} {i : Nat} (h : r[i]? = some p) : (r ++ l)[i]? = some p := by
  rw [List.getElem?_append_left]
  · exact h
  · by_cases hi : i < r.length
    · exact hi
    · rw [List.getElem?_eq_none (by omega)] at h; cases h

/-- One operation moves a ready process that is not killed only forward. -/
theorem step_forward {s s' : S} {live r b : List Cid} {op : Op} {p : Cid} {i : Nat} (h : Placed s live r b) (ho : Allowed s live op) (hd : Does w s op s')
    (hi : r[i]? = some p) (hk : op ≠ .kill p) (hres : op ≠ .reset) :
    s'.running = some p ∨ ∃ r' b' j, Placed s' (liveAfter s live op) r' b' ∧ r'[j]? = some p ∧ j + (if isRound s op then 1 else 0) ≤ i := by
  obtain ⟨h1, h2, _⟩ := does_spec h ho hd
  have stay : isRound s op = false → (∃ j ≤ i, (after w s r b op).ready[j]? = some p) →
      s'.running = some p ∨ ∃ r' b' j, Placed s' (liveAfter s live op) r' b' ∧ r'[j]? = some p ∧ j + (if isRound s op then 1 else 0) ≤ i := by
    rintro hn ⟨j, hj, e⟩
    exact .inr ⟨_, _, j, h1, e, by simp [hn, hj]⟩
  cases op with
  | create c => exact stay rfl ⟨i, Nat.le_refl _, idx_append hi⟩
  | finish => exact stay rfl ⟨i, Nat.le_refl _, hi⟩
  | block t now sl tr =>
    refine stay rfl ⟨i, Nat.le_refl _, ?_⟩
    simp only [after]; split <;> exact hi
  | send c =>
    refine stay rfl ⟨i, Nat.le_refl _, ?_⟩
    simp only [after]; split
    · exact idx_append hi
    · exact hi
  | unblock c =>
    refine stay rfl ⟨i, Nat.le_refl _, ?_⟩
    simp only [after]; split
    · exact idx_append hi
    · exact hi
  | kill c =>
    have hc : c ≠ p := by rintro rfl; exact hk rfl
    refine stay rfl ?_
    simp only [after]; split
    · exact ⟨i, Nat.le_refl _, idx_append hi⟩
    · split
      · obtain ⟨j, hj, e⟩ := idx_erase hi hc
        exact ⟨j, hj, idx_append e⟩
      · exact ⟨i, Nat.le_refl _, hi⟩
  | enterAtomic t => exact stay rfl ⟨i, Nat.le_refl _, hi⟩
  | exitAtomic => exact stay rfl ⟨i, Nat.le_refl _, hi⟩
  | reset => exact absurd rfl hres
  | round now =>
    by_cases ha : s.atomic = true
    · refine stay (by simp [isRound, ha]) ⟨i, Nat.le_refl _, ?_⟩
      simp only [after, ha, if_true]; exact hi
    · have e1 : after w s r b (.round now) = ⟨(r ++ s.running.toList ++ b.filter (fun c => due w now (s.info c))).head?,
        (r ++ s.running.toList ++ b.filter (fun c => due w now (s.info c))).tail, b.filter (fun c => !due w now (s.info c))⟩ := by simp [after, ha]
      rw [e1] at h1 h2
      have hi2 : (r ++ s.running.toList ++ b.filter (fun c => due w now (s.info c)))[i]? = some p := idx_append (idx_append hi)
      cases i with
      | zero => left; rw [h2]; simpa [List.head?_eq_getElem?] using hi2
      | succ i => exact .inr ⟨_, _, i, h1, by simpa using hi2, by split <;> omega⟩

/-- **C33 (partial).** A process at position `i` of the ready queue runs before `i + 1` further scheduling rounds (those not suspended by an atomic block) are over, whatever other contexts and threads do, unless somebody
kills it or the evaluator is reset. (Full property: also if it is killed; see the violation.) -/
theorem C33_fair_partial {p : Cid} {s s' : S} {live live' : List Cid} {ops : List Op} {n i : Nat} {r b : List Cid} (hr : Rounds w s live ops s' live' n)
    (h : Placed s live r b) (hi : r[i]? = some p) (hk : Op.kill p ∉ ops) (hres : Op.reset ∉ ops) (hn : i < n) : Runs w p s ops := by
  induction hr generalizing r b i with
  | nil => omega
  | @cons s s1 s2 live live' op ops n ho hd _ ih =>
    rcases step_forward h ho hd hi (fun e => hk (by simp [e])) (fun e => hres (by simp [e])) with g | ⟨r', b', j, g1, g2, g3⟩
    · exact .there hd (.here g)
    · exact .there hd (ih g1 g2 (fun e => hk (by simp [e])) (fun e => hres (by simp [e])) (by omega))

theorem not_runs {p : Cid} {s s1 : S} {op : Op} {ops : List Op} (hr : s.running ≠ some p) (hd : Does w s op s1) (h : ¬ Runs w p s1 ops) : ¬ Runs w p s (op :: ops) := by
  intro hh
  cases hh with
  | here e => exact hr e
  | there hd' h' => rw [does_unique hd' hd] at h'; exact h h'

/-- After a kill of the process at the head of a queue of two. -/
theorem kill_swap {x y p : Cid} {s : S} {live : List Cid} (h : Placed s live [p, y] []) (hr : s.running = some x) :
    ∃ s1, Allowed s live (.kill p) ∧ Does w s (.kill p) s1 ∧ Placed s1 live [y, p] [] ∧ s1.running = some x ∧ s1.atomic = s.atomic := by
  have hx := placed_running h hr
  have ho : Allowed s live (.kill p) := by
    refine ⟨by rw [hr]; simp, ?_⟩
    rw [hr]; rintro e; cases e; simp at hx
  obtain ⟨s1, e1, p1, r1, a1, _⟩ := sim (w := w) h ho
  have f1 : after w s [p, y] [] (.kill p) = ⟨some x, [y, p], []⟩ := by
    simp [after, hr]
  rw [f1] at p1 r1
  exact ⟨s1, ho, ⟨_, e1⟩, p1, r1, a1⟩

/-- **C33 fails for a killed process.** `kill` moves its target to the end of the ready queue. If two processes take turns in killing `p`, then for any number of rounds `p` does not run - so it also does not end. -/
theorem C33_fair_violated (n : Nat) {a b p : Cid} {s : S} {live : List Cid} (h : Placed s live [b, p] []) (hr : s.running = some a) (hat : s.atomic = false) :
    ∃ ops s' live', Rounds w s live ops s' live' n ∧ ¬ Runs w p s ops := by
  have hpa : s.running ≠ some p := by
    rw [hr]; rintro e; cases e
    have := placed_running h hr
    simp at this
  induction n generalizing a b s with
  | zero =>
    refine ⟨[], s, live, .nil, fun hh => ?_⟩
    cases hh with
    | here e => exact hpa e
  | succ n ih =>
    obtain ⟨s1, ho, hd, p1, r1, a1⟩ : ∃ s1, Allowed s live (.round 0) ∧ Does w s (.round 0) s1 ∧ Placed s1 live [p, a] [] ∧ s1.running = some b ∧ s1.atomic = false := by
      obtain ⟨s1, e1, p1, r1, a1, _⟩ := sim (w := w) (op := .round 0) h trivial
      have f1 : after w s [b, p] [] (.round 0) = ⟨some b, [p, a], []⟩ := by simp [after, hat, hr]
      rw [f1] at p1 r1
      exact ⟨s1, trivial, ⟨_, e1⟩, p1, r1, a1.trans hat⟩
    obtain ⟨s2, ho2, hd2, p2, r2, a2⟩ := kill_swap (w := w) p1 r1
    have hp1 : s1.running ≠ some p := by
      rw [r1]; rintro e; cases e
      have := placed_running p1 r1
      simp at this
    have hp2 : s2.running ≠ some p := by rw [r2, ← r1]; exact hp1
    obtain ⟨ops, s', live', g1, g2⟩ := ih (a := b) (b := a) p2 r2 (by rw [a2, a1]) hp2
    refine ⟨.round 0 :: .kill p :: ops, s', live', ?_, not_runs hpa hd (not_runs hp1 hd2 g2)⟩
    have x1 : Rounds w s1 (liveAfter s live (.round 0)) (.kill p :: ops) s' live' (n + 0) := .cons ho2 hd2 g1
    have x2 := Rounds.cons ho hd x1
    simpa [isRound, hat] using x2

/-! ### C34 -/

/-- **C34 fails.** If the running context ends while it is in an atomic block, then no context ever runs again, whatever happens, unless the evaluator is reset: the flag stays set and scheduling rounds do nothing. -/
theorem C34_atomic_violated {s s1 s' : S} {live live' : List Cid} {ops : List Op} (hat : s.atomic = true) (hd : Does w s .finish s1)
    (he : Exec w s1 live ops s' live') (hres : Op.reset ∉ ops) : s'.running = none ∧ s'.atomic = true := by
  have h1 : s1.running = none ∧ s1.atomic = true := by
    rw [does_unique hd ⟨0, fun f _ => rfl⟩]
    exact ⟨rfl, hat⟩
  clear hd
  induction he with
  | nil => exact h1
  | @cons s s1 s2 live live' op ops ho hd _ ih =>
    refine ih (fun h => hres (by simp [h])) ?_
    obtain ⟨n, hd⟩ := hd
    have e := hd n (Nat.le_refl _)
    have rel : ∀ cond c, (release cond n s c).map (·.1) = some s1 → s1.running = none ∧ s1.atomic = true := by
      intro cond c e
      unfold release at e
      split at e
      · cases e
      · cases e; exact h1
      · split at e
        · split at e
          · cases e
          · cases e; exact h1
        · cases e; exact h1
    cases op with
    | create c => cases e; exact h1
    | finish => exact absurd h1.1 ho
    | block t now sl tr => exact absurd h1.1 ho.1
    | send c => exact rel _ c e
    | unblock c => exact rel _ c e
    | kill c => exact absurd h1.1 ho.1
    | round now => simp only [step, opRound, h1.2, if_true] at e; cases e; exact h1
    | enterAtomic t => exact absurd h1.1 ho
    | exitAtomic => exact absurd h1.1 ho
    | reset => exact absurd (List.mem_cons_self ..) hres

/-- Executions in which no context ends by itself inside an atomic block. -/
inductive Calm (w : Nat) : S → List Cid → List Op → S → List Cid → Prop
  | nil {s : S} {live : List Cid} : Calm w s live [] s live
  | cons {s s1 s2 : S} {live live' : List Cid} {op : Op} {ops : List Op} : Allowed s live op → Does w s op s1 → (op = .finish → s.atomic = false) →
      Calm w s1 (liveAfter s live op) ops s2 live' → Calm w s live (op :: ops) s2 live'

/-- **C34 (partial).** As long as no context ends inside an atomic block (errors raised by operations that are forbidden in atomic blocks are fine, they leave the block first), the atomic flag is set only while a context is
running, so when none is running the next round is not skipped, and the first ready context runs. -/
theorem C34_atomic_partial {k : Links} {info : Cid → Info} {s : S} {live : List Cid} {ops : List Op} (he : Calm w (init k info) [] ops s live) :
    (s.atomic = true → s.running ≠ none) ∧ ∃ r b, Placed s live r b ∧ (s.running = none → r ≠ [] → ∀ now s', Does w s (.round now) s' → s'.running = r.head?) := by
  have main : ∀ {s s' : S} {live live' : List Cid} {ops : List Op}, Calm w s live ops s' live' → (∃ r b, Placed s live r b) → (s.atomic = true → s.running ≠ none) →
      (∃ r b, Placed s' live' r b) ∧ (s'.atomic = true → s'.running ≠ none) := by
    intro s s' live live' ops he
    induction he with
    | nil => exact fun h1 h2 => ⟨h1, h2⟩
    | @cons s s1 s2 live live' op ops ho hd hf _ ih =>
      rintro ⟨r, b, hp⟩ ha
      obtain ⟨p1, r1, a1, _⟩ := does_spec hp ho hd
      refine ih ⟨_, _, p1⟩ ?_
      rw [r1, a1]
      intro h
      cases op with
      | create c => exact ha h
      | finish => have h : s.atomic = true := h; rw [hf rfl] at h; cases h
      | block t now sl tr => cases h
      | send c => simp only [after]; split <;> exact ha h
      | unblock c => simp only [after]; split <;> exact ha h
      | kill c =>
        simp only [after]
        split
        · exact ha h
        · split <;> exact ha h
      | round now =>
        have h : s.atomic = true := h
        simp only [after, h, if_true]; exact ha h
      | enterAtomic t =>
        have h : s.atomic = false := by simpa [afterAtomic] using h
        simp only [after, h]; exact ho
      | exitAtomic => cases h
      | reset => cases h
  obtain ⟨⟨r, b, hp⟩, h2⟩ := main he ⟨_, _, init_placed k info⟩ (by simp [init])
  refine ⟨h2, r, b, hp, fun hn hr now s' hd => ?_⟩
  have ha : s.atomic = false := by
    cases h : s.atomic with
    | false => rfl
    | true => exact absurd hn (h2 h)
  obtain ⟨_, r1, _⟩ := does_spec hp (op := .round now) trivial hd
  rw [r1]
  simp only [after, ha, hn]
  cases r with
  | nil => exact absurd rfl hr
  | cons c r => simp

/-! ### C37 -/

theorem tDiff_eq {now ts : Nat} (h1 : now < 2 ^ w) (h2 : ts < 2 ^ w) : tDiff w now ts = elapsed w now ts - if now < ts then 1 else 0 := by
  unfold tDiff elapsed
  by_cases h : ts > now
  · rw [if_pos h, if_pos h, Nat.mod_eq_of_lt (by omega)]; omega
  · rw [if_neg h, if_neg h, show now + 2 ^ w - ts = (now - ts) + 2 ^ w by omega, Nat.add_mod_right, Nat.mod_eq_of_lt (by omega)]; omega

/-- **C37 (partial).** With a clock of the width of a word, a scheduling round makes ready, in queue order and behind those already ready, exactly the contexts in a sleeping or timed state whose delay has passed; all others stay blocked in
the same order; those in a timed state, and no others, are sent the message `timeout`. When the clock has wrapped since a context blocked, its time is one microsecond short. (Full property: without that microsecond, and for clocks narrower
than a word; see the violations.) -/
theorem C37_wake_partial {s s' : S} {live r b : List Cid} {now : Nat} (h : Placed s live r b) (hat : s.atomic = false) (hnow : now < 2 ^ w) (hts : ∀ c ∈ b, (s.info c).timestamp < 2 ^ w)
    (hd : Does w s (.round now) s') :
    let passed := fun c => decide ((s.info c).state ∈ delayed) && decide ((s.info c).sleep ≤ elapsed w now (s.info c).timestamp - if now < (s.info c).timestamp then 1 else 0)
    ∃ r', Placed s' live r' (b.filter fun c => !passed c) ∧ s'.running.toList ++ r' = r ++ s.running.toList ++ b.filter passed ∧
      s'.timeouts = s.timeouts ++ b.filter fun c => passed c && decide ((s.info c).state ∈ withTimeout) := by
  intro passed
  have hp : ∀ c ∈ b, due w now (s.info c) = passed c := by
    intro c hc
    have hw : (s.info c).state.wakable = decide ((s.info c).state ∈ delayed) := by cases (s.info c).state <;> decide
    simp only [due, passed, tDiff_eq hnow (hts c hc), hw]
  obtain ⟨p1, r1, _, t1⟩ := does_spec h (op := .round now) trivial hd
  have e1 : b.filter (fun c => due w now (s.info c)) = b.filter passed := List.filter_congr hp
  have e2 : b.filter (fun c => !due w now (s.info c)) = b.filter (fun c => !passed c) := List.filter_congr fun c hc => by rw [hp c hc]
  have e3 : b.filter (fun c => due w now (s.info c) && (s.info c).state.isTimeout) = b.filter (fun c => passed c && decide ((s.info c).state ∈ withTimeout)) :=
    List.filter_congr fun c hc => by rw [hp c hc, show (s.info c).state.isTimeout = decide ((s.info c).state ∈ withTimeout) by cases (s.info c).state <;> decide]
  simp only [after, hat, Bool.false_eq_true, if_false, e1, e2] at p1 r1
  simp only [timedOut, hat, Bool.false_eq_true, if_false, e3] at t1
  refine ⟨_, p1, ?_, t1⟩
  rw [r1]
  generalize r ++ s.running.toList ++ b.filter passed = l
  cases l <;> simp

/-- The operation does not concern the blocked context `c`. -/
def Spares (w : Nat) (c : Cid) (i : Info) : Op → Prop
  | .kill d => d ≠ c
  | .send d => d = c → i.state.isRecv = false
  | .unblock d => d = c → i.state.unblockable = false
  | .round now => due w now i = false
  | .reset => False
  | _ => True

theorem does_info {s s' : S} {live r b : List Cid} {op : Op} {c : Cid} (h : Placed s live r b) (ho : Allowed s live op) (hd : Does w s op s') (hc : c ∈ b)
    (hs : Spares w c (s.info c) op) : c ∈ (after w s r b op).blocked ∧ s'.info c = s.info c := by
  have hlive : c ∈ live := h.all.mem_iff.1 (List.mem_append_right _ hc)
  have hq := placed_qs h
  have hn := disj_right hq.nodup c hc
  obtain ⟨n, hd⟩ := hd
  have e := hd (n + r.length + b.length) (by omega)
  have hset : ∀ {d : Cid} {i : Info}, d ≠ c → (if c = d then i else s.info c) = s.info c := fun hne => if_neg (Ne.symm hne)
  have rel : ∀ {cond : TState → Bool} {d : Cid}, (d = c → cond (s.info c).state = false) → (release cond (n + r.length + b.length) s d).map (·.1) = some s' → s'.info c = s.info c := by
    intro cond d hs e
    unfold release at e
    split at e
    · cases e
    · cases e; rfl
    · split at e
      · rename_i hcond
        have hdc : d ≠ c := by rintro rfl; rw [hs rfl] at hcond; cases hcond
        split at e
        · cases e
        · cases e; exact hset hdc
      · cases e; rfl
  have mem : ∀ {d : Cid} {p : Prop} [Decidable p], (d = c → ¬ p) → c ∈ (if d ∈ b ∧ p then (⟨s.running, r ++ [d], b.erase d⟩ : Places) else ⟨s.running, r, b⟩).blocked := by
    intro d p _ hs
    split
    · rename_i hp
      refine (List.mem_erase_of_ne ?_).2 hc
      rintro rfl; exact hs rfl hp.2
    · exact hc
  cases op with
  | create d =>
    have hdc : d ≠ c := by rintro rfl; exact ho hlive
    cases e
    exact ⟨hc, hset hdc⟩
  | finish => cases e; exact ⟨hc, rfl⟩
  | block t now sl tr =>
    simp only [step, opBlock] at e
    split at e
    · rename_i ha
      cases e
      refine ⟨by simp only [after, ha, if_true]; exact hc, ?_⟩
      cases tr <;> rfl
    · rename_i ha
      split at e
      · cases e
      · rename_i d hr
        cases e
        have hdc : d ≠ c := by rintro rfl; exact (placed_running h hr).2 hc
        refine ⟨by simp only [after, ha, hr]; simp [hc], hset hdc⟩
  | send d => exact ⟨mem (p := (s.info d).state = .recvBl ∨ (s.info d).state = .recvTo) (by rintro rfl; have h1 := hs rfl; revert h1; cases (s.info d).state <;> simp [TState.isRecv]), rel hs e⟩
  | unblock d => exact ⟨mem (p := (s.info d).state = .blocked ∨ (s.info d).state = .timeout) (by rintro rfl; have h1 := hs rfl; revert h1; cases (s.info d).state <;> simp [TState.unblockable]), rel hs e⟩
  | kill d =>
    have hdc : d ≠ c := hs
    constructor
    · simp only [after]
      split
      · exact (List.mem_erase_of_ne (Ne.symm hdc)).2 hc
      · split <;> exact hc
    · simp only [step, opKill] at e
      split at e
      · cases e
      · split at e
        · cases e
        · split at e
          · cases e
          · cases e; exact hset hdc
      · split at e
        · cases e
        · cases e; rfl
        · split at e
          · cases e
          · cases e; exact hset hdc
  | round now =>
    have hs : due w now (s.info c) = false := hs
    by_cases ha : s.atomic = true
    · simp only [step, opRound, ha, if_true] at e
      cases e
      exact ⟨by simp only [after, ha, if_true]; exact hc, rfl⟩
    · obtain ⟨x1, x2, x3, x4, x5⟩ := requeue_spec h
      obtain ⟨t, y1, y2, y3, y4, y5, y6⟩ := wakeLoop_spec w now (y := b) (x := []) x1 (n + r.length + b.length) (by omega)
      simp only [step, opRound, wakeUp, ha, Bool.false_eq_true, if_false] at e
      rw [x1.blocked_ok.1, y1] at e
      simp only at e
      split at e
      · cases e
      · cases e
        refine ⟨by simp [after, ha, hc, hs], ?_⟩
        show t.info c = _
        rw [y5, x4]
        simp only [wokenInfo]
        rw [if_neg (fun hh => by rw [hs] at hh; exact absurd hh.2 (by simp))]
  | enterAtomic t =>
    simp only [step] at e
    split at e
    · cases e; refine ⟨hc, ?_⟩; cases t <;> rfl
    · cases e; exact ⟨hc, rfl⟩
  | exitAtomic => cases e; exact ⟨hc, rfl⟩
  | reset => exact absurd hs id

/-- **C37 (no early wake-up).** A context that goes to sleep at time `t0` for `d` microseconds stays blocked, whatever the others do, as long as nobody kills it, the evaluator is not reset, and no round takes place at a time `now` at which the
clock has advanced by `d` since `t0`. -/
theorem C37_sleeps {s s1 s2 : S} {live live' r b : List Cid} {c : Cid} {t0 d : Nat} {ops : List Op} {tr : Bool} (h : Placed s live r b) (hr : s.running = some c) (hat : s.atomic = false)
    (hd : Does w s (.block .sleeping t0 d tr) s1) (he : Exec w s1 live ops s2 live') (hk : Op.kill c ∉ ops) (hres : Op.reset ∉ ops)
    (ht : ∀ now, Op.round now ∈ ops → elapsed w now t0 < d ∧ now < 2 ^ w) (ht0 : t0 < 2 ^ w) : ∃ r' b', Placed s2 live' r' b' ∧ c ∈ b' := by
  have p1 := (does_spec h (op := .block .sleeping t0 d tr) ⟨by simp [hr], by simp⟩ hd).1
  have hb : s1.info c = ⟨.sleeping, t0, d⟩ := by
    rw [does_unique hd (s2 := { (s.setInfo c ⟨.sleeping, t0, d⟩).toBlocked c with running := none }) ⟨0, fun _ _ => by simp [step, opBlock, hr, hat]⟩]
    simp [S.toBlocked, S.setInfo]
  have e1 : liveAfter s live (.block .sleeping t0 d tr) = live := by simp [liveAfter, ends, hat]
  rw [e1] at p1
  have hm : c ∈ (after w s r b (.block .sleeping t0 d tr)).blocked := by simp [after, hat, hr]
  generalize (after w s r b (.block .sleeping t0 d tr)).ready = r1 at p1
  generalize (after w s r b (.block .sleeping t0 d tr)).blocked = b1 at p1 hm
  clear hd h hr hat e1
  induction he generalizing r1 b1 with
  | nil => exact ⟨_, _, p1, hm⟩
  | @cons s s1 s2 live live' op ops ho hd _ ih =>
    have hsp : Spares w c (s.info c) op := by
      rw [hb]
      cases op with
      | kill d' => rintro rfl; exact hk (by simp)
      | send d' => exact fun _ => rfl
      | unblock d' => exact fun _ => rfl
      | round now =>
        obtain ⟨g1, g2⟩ := ht now (by simp)
        show due w now _ = false
        simp only [due, tDiff_eq g2 ht0]
        simp
        intro _; omega
      | reset => exact hres (by simp)
      | _ => trivial
    obtain ⟨g1, g2⟩ := does_info p1 ho hd hm hsp
    exact ih (fun h => hk (by simp [h])) (fun h => hres (by simp [h])) (fun now h => ht now (by simp [h])) (by rw [g2, hb]) _ _ (does_spec p1 ho hd).1 g1

/-- **C37 fails (wrap).** If the clock has wrapped since a context blocked and exactly its delay has passed, it is not woken. -/
theorem C37_wrap_violated {now : Nat} {i : Info} (hts : i.timestamp < 2 ^ w) (hw : now < i.timestamp) (hs : i.sleep = elapsed w now i.timestamp) : due w now i = false := by
  have h1 := tDiff_eq (w := w) (now := now) (by omega) hts
  have h2 : elapsed w now i.timestamp ≠ 0 := by
    unfold elapsed; rw [Nat.mod_eq_of_lt (by omega)]; omega
  simp only [due, h1, hw, if_true, hs]
  simp
  omega

/-- **C37 fails (64-bit builds).** The clock counts 32 bits (`uint32_t (*timestamp_us_callback)(void)`) but words have 64: after the clock has wrapped, every context that blocked before is woken at once, however long it wanted to sleep
(up to 2^63 microseconds). -/
theorem C37_wide_violated {now : Nat} {i : Info} (ht : i.timestamp < 2 ^ 32) (hw : now < i.timestamp) (hst : i.state.wakable = true) (hs : i.sleep ≤ 2 ^ 63) : due 64 now i = true := by
  simp only [due, hst, tDiff, hw, if_true, Bool.true_and, decide_eq_true_eq]
  omega

/-- A context that sleeps for an hour from 2 microseconds before the clock wraps; 5 microseconds later it is woken. -/
example : due 64 3 ⟨.sleeping, 2 ^ 32 - 2, 3600000000⟩ = true ∧ elapsed 32 3 (2 ^ 32 - 2) = 5 := by decide +kernel

/-- On a 32-bit build it is not woken; but also not when exactly its delay of 5 microseconds has passed. -/
example : due 32 3 ⟨.sleeping, 2 ^ 32 - 2, 3600000000⟩ = false ∧ due 32 3 ⟨.sleeping, 2 ^ 32 - 2, 5⟩ = false ∧ due 32 4 ⟨.sleeping, 2 ^ 32 - 2, 5⟩ = true := by decide +kernel

/-! ### C61 -/

/-- **C61.** Unblocking returns true exactly for a context that an extension has blocked (with or without a timeout); then that context, and no other, moves to the end of the ready queue. For every other context, and for a number that is no
context, nothing changes at all. -/
theorem C61_unblock {s : S} {live r b : List Cid} (c : Cid) (h : Placed s live r b) :
    ∃ s' res, (∃ n, ∀ f ≥ n, release TState.unblockable f s c = some (s', res)) ∧ (res = true ↔ c ∈ b ∧ ((s.info c).state = .blocked ∨ (s.info c).state = .timeout)) ∧
      (res = true → Placed s' live (r ++ [c]) (b.erase c) ∧ s'.running = s.running ∧ s'.atomic = s.atomic) ∧ (res = false → s' = s) := by
  obtain ⟨s', res, e, p, g1, g2, _, g3⟩ := release_spec (c := c) h TState.unblockable
  have hst : (s.info c).state.unblockable = true ↔ ((s.info c).state = .blocked ∨ (s.info c).state = .timeout) := by
    cases (s.info c).state <;> simp [TState.unblockable]
  refine ⟨s', res, ⟨_, e⟩, by rw [g3, hst], fun hr => ?_, fun hr => ?_⟩
  · have := g3.1 hr
    rw [if_pos this, if_pos this] at p
    exact ⟨p, g1, g2⟩
  · have hc : ¬ (c ∈ b ∧ (s.info c).state.unblockable = true) := fun hc => by rw [g3.2 hc] at hr; cases hr
    have e' := e (r.length + b.length) (Nat.le_refl _)
    unfold release at e'
    have hq := placed_qs h
    rw [hq.blocked_ok.1, lookup_spec hq.blocked_ok.2.2 _ (by omega)] at e'
    by_cases hb : c ∈ b
    · simp only [hb, decide_true] at e'
      rw [if_neg (fun hh => hc ⟨hb, hh⟩)] at e'
      injection e' with e'
      injection e' with e1 e2
      exact e1.symm
    · simp only [hb, decide_false] at e'
      injection e' with e'
      injection e' with e1 e2
      exact e1.symm

/-! ### Non-vacuity -/

theorem reachable_step {s s' : S} {live : List Cid} {op : Op} (h : Reachable w s live) (ho : Allowed s live op) (hd : Does w s op s') :
    Reachable w s' (liveAfter s live op) := by
  obtain ⟨k, info, ops, he⟩ := h
  refine ⟨k, info, ops ++ [op], ?_⟩
  have : ∀ {a b : S} {l l' : List Cid} {ops : List Op}, Exec w a l ops b l' → Allowed b l' op → Does w b op s' → Exec w a l (ops ++ [op]) s' (liveAfter b l' op) := by
    intro a b l l' ops h
    induction h with
    | nil => intro ho hd; exact .cons ho hd .nil
    | cons h1 h2 _ ih => intro ho hd; exact .cons h1 h2 (ih ho hd)
  exact this he ho hd

/-- Three contexts are created; the first runs, the others are ready. -/
theorem demo (w : Nat) : ∃ s, Reachable w s [3, 2, 1] ∧ Placed s [3, 2, 1] [2, 3] [] ∧ s.running = some 1 ∧ s.atomic = false := by
  have h0 := init_placed ⟨fun _ => none, fun _ => none⟩ (fun _ => ⟨.ready, 0, 0⟩)
  have r0 : Reachable w (init ⟨fun _ => none, fun _ => none⟩ (fun _ => ⟨.ready, 0, 0⟩)) [] := ⟨_, _, [], .nil⟩
  have o1 : Allowed (init ⟨fun _ => none, fun _ => none⟩ (fun _ => ⟨.ready, 0, 0⟩)) [] (.create 1) := by simp [Allowed]
  obtain ⟨s1, e1, p1, q1, a1, _⟩ := sim (w := w) h0 o1
  have r1 := reachable_step r0 o1 ⟨_, e1⟩
  have o2 : Allowed s1 [1] (.create 2) := by simp [Allowed]
  obtain ⟨s2, e2, p2, q2, a2, _⟩ := sim (w := w) p1 o2
  have r2 := reachable_step r1 o2 ⟨_, e2⟩
  have o3 : Allowed s2 [2, 1] (.create 3) := by simp [Allowed]
  obtain ⟨s3, e3, p3, q3, a3, _⟩ := sim (w := w) p2 o3
  have r3 := reachable_step r2 o3 ⟨_, e3⟩
  obtain ⟨s4, e4, p4, q4, a4, _⟩ := sim (w := w) (op := .round 0) p3 trivial
  have r4 := reachable_step (op := .round 0) r3 trivial ⟨_, e4⟩
  have b3 : s3.running = none := by rw [q3]; exact q2.trans q1
  have c3 : s3.atomic = false := by rw [a3]; exact a2.trans a1
  simp [after, c3, b3] at p4 q4
  exact ⟨s4, r4, p4, q4, by rw [a4]; exact c3⟩

/-- C33 applies, and fails for a killed process, in a state that is reached. -/
example : ∃ s, Reachable 32 s [3, 2, 1] ∧ ∀ n, ∃ ops s' live', Rounds 32 s [3, 2, 1] ops s' live' n ∧ ¬ Runs 32 3 s ops := by
  obtain ⟨s, h1, h2, h3, h4⟩ := demo 32
  exact ⟨s, h1, fun n => C33_fair_violated n h2 h3 h4⟩

/-- In a state that is reached, context 1 enters an atomic block and ends; contexts 2 and 3 never run. -/
example : ∃ s s1 live, Reachable 32 s live ∧ s.running = some 1 ∧ s.atomic = true ∧ Placed s live [2, 3] [] ∧ Does 32 s .finish s1 ∧
    ∀ ops s' live', Op.reset ∉ ops → Exec 32 s1 [3, 2] ops s' live' → s'.running = none := by
  obtain ⟨s, h1, h2, h3, h4⟩ := demo 32
  have ho : Allowed s [3, 2, 1] (.enterAtomic false) := by simp [Allowed, h3]
  obtain ⟨s1, e1, p1, q1, a1, _⟩ := sim (w := 32) h2 ho
  have r1 := reachable_step h1 ho ⟨_, e1⟩
  have hr : s1.running = some 1 := by rw [q1]; simp [after, h4, h3]
  have ha : s1.atomic = true := by rw [a1]; simp [afterAtomic, h4]
  have hd : Does 32 s1 .finish { s1 with running := none } := ⟨0, fun _ _ => rfl⟩
  exact ⟨s1, _, _, r1, hr, ha, p1, hd, fun ops s' live' hres he => (C34_atomic_violated ha hd he hres).1⟩

/-- Context 1 sleeps for 10 microseconds at time 5; at time 14 it stays blocked and context 3 runs, at time 15 it is woken. -/
example : ∃ s1 s2 s3 s4, Reachable 32 s1 [3, 2, 1] ∧ Does 32 s1 (.block .sleeping 5 10 false) s2 ∧ Does 32 s2 (.round 14) s3 ∧ s3.running = some 2 ∧ Placed s3 [3, 2, 1] [3] [1] ∧
    Does 32 s3 (.round 15) s4 ∧ s4.running = some 3 ∧ Placed s4 [3, 2, 1] [2, 1] [] := by
  obtain ⟨s1, h1, h2, h3, h4⟩ := demo 32
  have hb : Does 32 s1 (.block .sleeping 5 10 false) { (s1.setInfo 1 ⟨.sleeping, 5, 10⟩).toBlocked 1 with running := none } := ⟨0, fun _ _ => by simp [step, opBlock, h3, h4]⟩
  obtain ⟨p2, q2, a2, _⟩ := does_spec h2 (op := .block .sleeping 5 10 false) ⟨by simp [h3], by simp⟩ hb
  generalize hs2 : ({ (s1.setInfo 1 ⟨.sleeping, 5, 10⟩).toBlocked 1 with running := none } : S) = s2 at *
  have i2 : s2.info 1 = ⟨.sleeping, 5, 10⟩ := by rw [← hs2]; rfl
  simp [after, h3, h4, liveAfter, ends] at p2 q2
  have a2 : s2.atomic = false := a2
  obtain ⟨s3, e3, p3, q3, a3, _⟩ := sim (w := 32) (op := .round 14) p2 trivial
  have d3 : due 32 14 (s2.info 1) = false := by rw [i2]; decide
  simp [after, a2, q2, d3, liveAfter, ends] at p3 q3
  have a3 : s3.atomic = false := a3.trans a2
  have i3 : s3.info 1 = ⟨.sleeping, 5, 10⟩ := by
    obtain ⟨x1, x2, x3, x4, x5⟩ := requeue_spec p2
    obtain ⟨t, y1, y2, y3, y4, y5, y6⟩ := wakeLoop_spec 32 14 (y := [1]) (x := []) x1 (2 + 1) (by simp)
    have := e3 3 (by simp)
    simp only [step, opRound, wakeUp, a2] at this
    rw [x1.blocked_ok.1] at this
    simp only [Bool.false_eq_true, if_false] at this
    rw [y1] at this
    simp only at this
    split at this
    · cases this
    · injection this with this
      rw [← this]
      show t.info 1 = _
      rw [y5, x4]
      simp [wokenInfo, i2]
      decide
  obtain ⟨s4, e4, p4, q4, a4, _⟩ := sim (w := 32) (op := .round 15) p3 trivial
  have d4 : due 32 15 (s3.info 1) = true := by rw [i3]; decide
  simp [after, a3, q3, d4, liveAfter, ends] at p4 q4
  exact ⟨s1, s2, s3, s4, h1, hb, ⟨_, e3⟩, q3, p3, ⟨_, e4⟩, q4, p4⟩

end Verif.Sched
