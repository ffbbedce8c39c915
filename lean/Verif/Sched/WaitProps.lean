import Verif.Sched.Wait

/-! Theorems about `wait`. -/

namespace Verif.Sched

variable {w : Nat}

theorem existsLoop_spec {k : Links} {cid : Cid} : ∀ {l : List Cid} {p : Option Cid} (found : Bool), Seg k p l none → ∀ f, l.length ≤ f →
    existsLoop k cid f l.head? found = some (found || decide (cid ∈ l))
  | [], _, found, _, f, _ => by cases f <;> simp [existsLoop]
  | d :: l, p, found, h, 0, hf => by simp at hf
  | d :: l, p, found, ⟨_, h2, h3⟩, f + 1, hf => by
    rw [List.head?_cons, existsLoop, h2, Option.or_none, existsLoop_spec _ h3 f (by simpa using hf)]
    by_cases hd : d = cid
    · simp [hd]
    · simp [hd, Ne.symm hd]

theorem mem_live {s : S} {live r b : List Cid} (h : Placed s live r b) (t : Cid) : t ∈ live ↔ s.running = some t ∨ t ∈ r ∨ t ∈ b := by
  rw [← h.all.mem_iff]
  cases hr : s.running <;> simp [eq_comm]

theorem contWait_spec {s : S} {live r b : List Cid} {c : Cid} (h : Placed s live r b) (hr : s.running = some c) (t now : Nat) (tr : Bool) (f : Nat) (hf : r.length + b.length ≤ f) :
    contWait f s t now tr = if t ∈ live then (opBlock s .sleeping now 50000 tr).map .sleeps else some .returns := by
  unfold contWait
  rw [h.blocked_ok.1, existsLoop_spec _ h.blocked_ok.2.2 f (by omega)]
  dsimp only
  rw [h.ready_ok.1, existsLoop_spec _ h.ready_ok.2.2 f (by omega), hr]
  dsimp only
  have hm := mem_live h t
  rw [hr] at hm
  by_cases ht : t ∈ live
  · rw [if_pos ht, if_pos]
    rcases hm.1 ht with e | e | e
    · cases e; simp
    · simp [e]
    · simp [e]
  · rw [if_neg ht, if_neg]
    rw [hm] at ht
    simp only [Option.some.injEq, not_or] at ht
    simp [ht]

/-- **C100.** Whatever happened before, a poll of `wait` returns exactly when no existing process has the id that is waited for: it never ends early, and not too late either. Otherwise the waiting process, and no other, is put
to sleep for 50 ms from now (in an atomic block this is an error). -/
theorem C100_poll {s : S} {live : List Cid} {c : Cid} (h : Reachable w s live) (hr : s.running = some c) (t now : Nat) (tr : Bool) :
    (Polls s t now tr .returns ↔ t ∉ live) ∧
    (t ∈ live → ∃ s', Polls s t now tr (.sleeps s') ∧ Does w s (.block .sleeping now 50000 tr) s' ∧ (s.atomic = false → s'.running = none ∧ s'.info c = ⟨.sleeping, now, 50000⟩ ∧
      ∃ r b, Placed s' live r b ∧ b.getLast? = some c)) := by
  obtain ⟨k, info, ops, he⟩ := h
  obtain ⟨r, b, hp⟩ := exec_placed he ⟨_, _, init_placed k info⟩
  have hs := contWait_spec hp hr t now tr
  refine ⟨⟨fun ⟨n, hn⟩ ht => ?_, fun ht => ⟨_, fun f hf => by rw [hs f hf, if_neg ht]⟩⟩, fun ht => ?_⟩
  · have := hn (n + r.length + b.length) (by omega)
    rw [hs _ (by omega), if_pos ht] at this
    cases ho : opBlock s .sleeping now 50000 tr <;> rw [ho] at this <;> cases this
  · obtain ⟨s', e, p, q, _⟩ := sim (w := w) (op := .block .sleeping now 50000 tr) hp ⟨by simp [hr], by simp⟩
    have ho : opBlock s .sleeping now 50000 tr = some s' := e _ (Nat.le_refl _)
    refine ⟨s', ⟨_, fun f hf => by rw [hs f hf, if_pos ht, ho]; rfl⟩, ⟨_, e⟩, fun hat => ⟨?_, ?_, (after w s r b (.block .sleeping now 50000 tr)).ready, (after w s r b (.block .sleeping now 50000 tr)).blocked, ?_, ?_⟩⟩
    · rw [q]; simp [after, hat]
    · simp only [opBlock, hat, hr, Bool.false_eq_true, if_false, Option.some.injEq] at ho
      rw [← ho]
      simp [S.toBlocked, S.setInfo]
    · have : liveAfter s live (.block .sleeping now 50000 tr) = live := by simp [liveAfter, ends, hat]
      rw [this] at p
      exact p
    · simp [after, hat, hr]

/-- **C100.** The call of `wait` itself puts the calling process, and no other, to sleep for 50 ms, whether or not there is a process with the id; so the first poll comes after that. In this state
`C100_returns_partial` applies. -/
theorem C100_start {s : S} {live : List Cid} {c : Cid} (h : Reachable w s live) (hr : s.running = some c) (ha : s.atomic = false) (now : Nat) (tr : Bool) :
    ∃ s' r b, applyWait s now tr = some s' ∧ Does w s (.block .sleeping now 50000 tr) s' ∧ s'.running = none ∧ s'.info c = ⟨.sleeping, now, 50000⟩ ∧ Placed s' live r b ∧ b.getLast? = some c := by
  obtain ⟨k, info, ops, he⟩ := h
  obtain ⟨r, b, hp⟩ := exec_placed he ⟨_, _, init_placed k info⟩
  obtain ⟨s', e, p, q, _⟩ := sim (w := w) (op := .block .sleeping now 50000 tr) hp ⟨by simp [hr], by simp⟩
  have ho : opBlock s .sleeping now 50000 tr = some s' := e _ (Nat.le_refl _)
  refine ⟨s', (after w s r b (.block .sleeping now 50000 tr)).ready, (after w s r b (.block .sleeping now 50000 tr)).blocked, ho, ⟨_, e⟩, ?_, ?_, ?_, ?_⟩
  · rw [q]; simp [after, ha]
  · simp only [opBlock, ha, hr, Bool.false_eq_true, if_false, Option.some.injEq] at ho
    rw [← ho]
    simp [S.toBlocked, S.setInfo]
  · have : liveAfter s live (.block .sleeping now 50000 tr) = live := by simp [liveAfter, ends, ha]
    rw [this] at p
    exact p
  · simp [after, ha, hr]

/-- An id that is not in use stays so unless a process is created with it. -/
theorem not_live_after {s : S} {live : List Cid} {op : Op} {t : Cid} (ht : t ∉ live) (hc : op ≠ .create t) : t ∉ liveAfter s live op := by
  cases op with
  | create c =>
    simp only [liveAfter, List.mem_cons, not_or]
    exact ⟨fun e => hc (by rw [e]), ht⟩
  | reset => simp [liveAfter]
  | _ =>
    simp only [liveAfter]
    split
    · exact fun h => ht (List.mem_filter.1 h).1
    · exact ht

theorem poll_returns {s : S} {live r b : List Cid} {c t : Cid} (h : Placed s live r b) (hr : s.running = some c) (ht : t ∉ live) (now : Nat) (tr : Bool) : Polls s t now tr .returns :=
  ⟨_, fun f hf => by rw [contWait_spec h hr t now tr f hf, if_neg ht]⟩

/-- A waiting process that is ready. -/
theorem ready_returns {c t : Cid} {s s' : S} {live live' : List Cid} {ops : List Op} {n i : Nat} {r b : List Cid} (hr : Rounds w s live ops s' live' n)
    (h : Placed s live r b) (hi : r[i]? = some c) (ht : t ∉ live) (hc : Op.create t ∉ ops) (hk : Op.kill c ∉ ops) (hres : Op.reset ∉ ops) (hn : i < n) : Returns w c t s ops := by
  induction hr generalizing r b i with
  | nil => omega
  | @cons s s1 s2 live live' op ops n ho hd _ ih =>
    have ht' : t ∉ liveAfter s live op := not_live_after ht (fun e => hc (by simp [e]))
    rcases step_forward h ho hd hi (fun e => hk (by simp [e])) (fun e => hres (by simp [e])) with g | ⟨r', b', j, g1, g2, g3⟩
    · exact .there hd (.here g (poll_returns (does_spec h ho hd).1 g ht'))
    · exact .there hd (ih g1 g2 ht' (fun e => hc (by simp [e])) (fun e => hk (by simp [e])) (fun e => hres (by simp [e])) (by omega))

/-- The waiting process `c` sleeps, as its last poll left it, or is ready to poll again. -/
def Waiting (s : S) (live : List Cid) (c : Cid) (t0 : Nat) : Prop :=
  ∃ r b, Placed s live r b ∧ (c ∈ r ∨ c ∈ b ∧ s.info c = ⟨.sleeping, t0, 50000⟩)

theorem waiting_step {s s' : S} {live : List Cid} {c : Cid} {t0 : Nat} {op : Op} (h : Waiting s live c t0) (ho : Allowed s live op) (hd : Does w s op s') (hk : op ≠ .kill c) (hres : op ≠ .reset) :
    s'.running = some c ∨ Waiting s' (liveAfter s live op) c t0 := by
  obtain ⟨r, b, hp, hc | ⟨hc, hi⟩⟩ := h
  · obtain ⟨i, hi⟩ := List.getElem?_of_mem hc
    rcases step_forward hp ho hd hi hk hres with g | ⟨r', b', j, g1, g2, _⟩
    · exact .inl g
    · exact .inr ⟨r', b', g1, .inl (List.mem_of_getElem? g2)⟩
  · by_cases hs : Spares w c (s.info c) op
    · obtain ⟨g1, g2⟩ := does_info hp ho hd hc hs
      exact .inr ⟨_, _, (does_spec hp ho hd).1, .inr ⟨g1, by rw [g2, hi]⟩⟩
    · obtain ⟨p1, q1, _⟩ := does_spec hp ho hd
      rw [hi] at hs
      cases op with
      | kill d => exact absurd (fun e => hk (by rw [e])) hs
      | send d => exact absurd (fun _ => rfl) hs
      | unblock d => exact absurd (fun _ => rfl) hs
      | reset => exact absurd rfl hres
      | round now =>
        have hdue : due w now (s.info c) = true := by rw [hi]; exact (Bool.not_eq_false _).mp hs
        by_cases hat : s.atomic = true
        · refine .inr ⟨_, _, p1, .inr ⟨by simp only [after, hat, if_true]; exact hc, ?_⟩⟩
          obtain ⟨n, hn⟩ := hd
          have := hn n (Nat.le_refl _)
          simp only [step, opRound, hat, if_true, Option.some.injEq] at this
          rw [← this, hi]
        · have hm : c ∈ r ++ s.running.toList ++ b.filter (fun c => due w now (s.info c)) := List.mem_append_right _ (List.mem_filter.2 ⟨hc, hdue⟩)
          simp only [after, if_neg hat] at p1 q1
          generalize r ++ s.running.toList ++ b.filter (fun c => due w now (s.info c)) = l at p1 q1 hm
          cases l with
          | nil => cases hm
          | cons d l =>
            rcases List.mem_cons.1 hm with e | e
            · left; rw [q1, e]; rfl
            · exact .inr ⟨_, _, p1, .inl e⟩
      | create d => exact absurd trivial hs
      | finish => exact absurd trivial hs
      | block => exact absurd trivial hs
      | enterAtomic => exact absurd trivial hs
      | exitAtomic => exact absurd trivial hs

theorem index_lt {s : S} {live r b : List Cid} {i c : Nat} (h : Placed s live r b) (hi : r[i]? = some c) : i < live.length := by
  have := h.all.length_eq
  simp only [List.length_append] at this
  have : i < r.length := by
    by_cases hi' : i < r.length
    · exact hi'
    · rw [List.getElem?_eq_none (by omega)] at hi; cases hi
  omega

/-- **C100 (partial).** A `wait` comes to an end: suppose the process `t` that `c` waits for is gone and no new process gets its id. Whatever other processes and threads do - except killing `c` or resetting the evaluator - if a
scheduling round comes 50 ms after the last poll (the clock has at most wrapped once) and after it one more round per process, then `c` has run and its poll returned. Rounds suspended by an atomic block do not count. (Full
property: also if the id is reused; see the violation.) -/
theorem C100_returns_partial {c t : Cid} {s s1 s2 s' : S} {live live1 live' : List Cid} {ops ops' : List Op} {t0 now n : Nat}
    (hw : Waiting s live c t0) (ht0 : t0 < 2 ^ w) (ht : t ∉ live) (h1 : Exec w s live ops s1 live1) (hat : s1.atomic = false) (hd : Does w s1 (.round now) s2) (hnow : now < 2 ^ w)
    (hlate : 50000 < elapsed w now t0) (h2 : Rounds w s2 live1 ops' s' live' n) (hn : live1.length ≤ n)
    (hc : Op.create t ∉ ops ++ ops') (hk : Op.kill c ∉ ops ++ ops') (hres : Op.reset ∉ ops ++ ops') : Returns w c t s (ops ++ .round now :: ops') := by
  induction h1 with
  | @nil s live =>
    obtain ⟨r, b, hp, hm⟩ := hw
    obtain ⟨p1, q1, _⟩ := does_spec hp (op := .round now) trivial hd
    have ht' : t ∉ liveAfter s live (.round now) := not_live_after ht (by simp)
    have hl : liveAfter s live (.round now) = live := by simp [liveAfter, ends]
    have hc2 : c ∈ r ++ s.running.toList ++ b.filter (fun c => due w now (s.info c)) := by
      rcases hm with e | ⟨e, hi⟩
      · simp [e]
      · refine List.mem_append_right _ (List.mem_filter.2 ⟨e, ?_⟩)
        rw [hi]
        simp only [due, tDiff_eq hnow ht0, TState.wakable, Bool.true_and, decide_eq_true_eq]
        split <;> omega
    rw [hl] at p1 ht'
    have done : s2.running = some c ∨ c ∈ (after w s r b (.round now)).ready := by
      rw [q1]
      simp only [after, hat, Bool.false_eq_true, if_false]
      generalize r ++ s.running.toList ++ b.filter (fun c => due w now (s.info c)) = l at hc2
      cases l with
      | nil => cases hc2
      | cons d l => rcases List.mem_cons.1 hc2 with e | e <;> simp [e]
    refine .there hd ?_
    rcases done with e | e
    · exact .here e (poll_returns p1 e ht')
    · obtain ⟨i, hi⟩ := List.getElem?_of_mem e
      exact ready_returns h2 p1 hi ht' hc hk hres (Nat.lt_of_lt_of_le (index_lt p1 hi) hn)
  | @cons s sm s1 live live1 op ops ho hd1 _ ih =>
    simp only [List.cons_append, List.mem_cons, not_or] at hc hk hres
    have ht' : t ∉ liveAfter s live op := not_live_after ht (fun e => hc.1 e.symm)
    refine .there hd1 ?_
    rcases waiting_step hw ho hd1 (fun e => hk.1 e.symm) (fun e => hres.1 e.symm) with g | g
    · obtain ⟨r, b, hp, _⟩ := hw
      exact .here g (poll_returns (does_spec hp ho hd1).1 g ht')
    · exact ih g ht' hat hd h2 hn hc.2 hk.2 hres.2

/-! ### An id that is used again -/

theorem exec_trans {s s1 s2 : S} {live live1 live2 : List Cid} {ops ops' : List Op} (h : Exec w s live ops s1 live1) (g : Exec w s1 live1 ops' s2 live2) : Exec w s live (ops ++ ops') s2 live2 := by
  induction h with
  | nil => exact g
  | cons h1 h2 _ ih => exact .cons h1 h2 (ih g)

theorem not_returns {c t : Cid} {s s1 : S} {live r b : List Cid} {op : Op} {ops : List Op} (h : Placed s live r b) (hr : s.running ≠ some c ∨ t ∈ live) (hd : Does w s op s1)
    (hn : ¬ Returns w c t s1 ops) : ¬ Returns w c t s (op :: ops) := by
  intro hh
  cases hh with
  | here e hp =>
    rcases hr with g | g
    · exact g e
    · obtain ⟨n, hn⟩ := hp 0 false
      have := hn (n + r.length + b.length) (by omega)
      rw [contWait_spec h e t 0 false _ (by omega), if_pos g] at this
      cases ho : opBlock s .sleeping 0 50000 false <;> rw [ho] at this <;> cases this
  | there hd' h' => rw [does_unique hd' hd] at h'; exact hn h'

/-- Process `t` runs, `c` sleeps after a poll of its `wait` for `t` at `t0`, and there are no other processes. -/
def Pair (s : S) (c t : Cid) (t0 : Nat) : Prop :=
  Placed s [t, c] [] [c] ∧ s.running = some t ∧ s.atomic = false ∧ s.info c = ⟨.sleeping, t0, 50000⟩

/-- The process ends, a new one is created in the same memory and so gets the same id, and the waiting process polls before that one ends. -/
def reuse (t now : Nat) : List Op := [.finish, .create t, .round now, .round now, .block .sleeping now 50000 false, .round now]

theorem reuse_pair {c t : Cid} {s : S} {t0 : Nat} (h : Pair s c t t0) (ht0 : t0 < 2 ^ 32) : ∃ s', Exec 32 s [t, c] (reuse t ((t0 + 50001) % 2 ^ 32)) s' [t, c] ∧ Pair s' c t ((t0 + 50001) % 2 ^ 32) ∧
    ∀ ops, ¬ Returns 32 c t s' ops → ¬ Returns 32 c t s (reuse t ((t0 + 50001) % 2 ^ 32) ++ ops) := by
  generalize hnow : (t0 + 50001) % 2 ^ 32 = now
  have hnow2 : now < 2 ^ 32 := by rw [← hnow]; exact Nat.mod_lt _ (by decide)
  obtain ⟨p0, r0, a0, i0⟩ := h
  have hct : t ≠ c := by
    have := p0.nodup
    simpa using this
  -- the process ends
  have o1 : Allowed s [t, c] .finish := by simp [Allowed, r0]
  obtain ⟨s1, e1, p1, q1, a1, _⟩ := sim (w := 32) p0 o1
  have i1 := (does_info p0 o1 ⟨_, e1⟩ (by simp) (by simp [Spares])).2.trans i0
  have l1 : liveAfter s [t, c] .finish = [c] := by simp [liveAfter, ends, r0, hct]
  rw [l1] at p1
  simp only [after, afterAtomic, a0] at p1 q1 a1
  -- a new one gets its id
  have o2 : Allowed s1 [c] (.create t) := by simpa [Allowed] using hct
  obtain ⟨s2, e2, p2, q2, a2, _⟩ := sim (w := 32) p1 o2
  have i2 := (does_info p1 o2 ⟨_, e2⟩ (by simp) (by simp [Spares])).2.trans i1
  simp only [after, afterAtomic, a1, q1, liveAfter, List.nil_append] at p2 q2 a2
  have due2 : due 32 now (s2.info c) = true := by
    rw [i2]
    simp only [due, tDiff_eq hnow2 ht0, TState.wakable, Bool.true_and, decide_eq_true_eq]
    unfold elapsed
    rw [← hnow]
    split <;> omega
  -- the waiting process wakes up
  obtain ⟨s3, e3, p3, q3, a3, _⟩ := sim (w := 32) (op := .round now) p2 trivial
  simp [after, afterAtomic, a2, q2, liveAfter, ends, due2] at p3 q3 a3
  obtain ⟨s4, e4, p4, q4, a4, _⟩ := sim (w := 32) (op := .round now) p3 trivial
  simp [after, afterAtomic, a3, q3, liveAfter, ends] at p4 q4 a4
  -- its poll finds the new process
  have o5 : Allowed s4 [t, c] (.block .sleeping now 50000 false) := ⟨by simp [q4], by simp⟩
  obtain ⟨s5, e5, p5, q5, a5, _⟩ := sim (w := 32) p4 o5
  have i5 : s5.info c = ⟨.sleeping, now, 50000⟩ := by
    have := e5 _ (Nat.le_refl _)
    simp only [step, opBlock, a4, q4, Bool.false_eq_true, if_false, Option.some.injEq] at this
    rw [← this]
    simp [S.toBlocked, S.setInfo]
  simp [after, afterAtomic, a4, q4, liveAfter, ends] at p5 q5 a5
  have due5 : due 32 now (s5.info c) = false := by
    rw [i5]; simp [due, tDiff]
  obtain ⟨s6, e6, p6, q6, a6, _⟩ := sim (w := 32) (op := .round now) p5 trivial
  have i6 := (does_info p5 (op := .round now) trivial ⟨_, e6⟩ (by simp) due5).2.trans i5
  simp [after, afterAtomic, a5, q5, liveAfter, ends, due5] at p6 q6 a6
  refine ⟨s6, ?_, ⟨p6, q6, a6, i6⟩, fun ops hn => ?_⟩
  · refine .cons o1 ⟨_, e1⟩ ?_
    rw [l1]
    refine .cons o2 ⟨_, e2⟩ (.cons (op := .round now) trivial ⟨_, e3⟩ (.cons (op := .round now) trivial ⟨_, e4⟩ ?_))
    refine .cons (by simpa [liveAfter, ends] using o5) ⟨_, e5⟩ (.cons (op := .round now) trivial ⟨_, e6⟩ ?_)
    have : liveAfter s5 (liveAfter s4 (liveAfter s3 (liveAfter s2 (liveAfter s1 [c] (.create t)) (.round now)) (.round now)) (.block .sleeping now 50000 false)) (.round now) = [t, c] := by
      simp [liveAfter, ends, a4]
    rw [this]
    exact .nil
  · have ne : ∀ {x : Option Cid}, x = some t ∨ x = none → x ≠ some c := by
      rintro x (rfl | rfl)
      · simpa using hct
      · simp
    refine not_returns p0 (.inl (ne (.inl r0))) ⟨_, e1⟩ (not_returns p1 (.inl (ne (.inr q1))) ⟨_, e2⟩ (not_returns p2 (.inl (ne (.inr q2))) ⟨_, e3⟩ ?_))
    exact not_returns p3 (.inl (ne (.inl q3))) ⟨_, e4⟩ (not_returns p4 (.inr (by simp)) ⟨_, e5⟩ (not_returns p5 (.inl (ne (.inr q5))) ⟨_, e6⟩ hn))

/-- **C100 fails when an id is used again.** The id of a process is the place of its context in memory. For every `n` there is an execution in which the process that `c` waits for ends `n` times - each time another process that
is created at the same place - and `c`, which polls each time more than 50 ms after its last poll, is still waiting: the `wait` is for processes that `c` never heard of. -/
theorem C100_reuse_violated (n : Nat) {c t : Cid} {s : S} {t0 : Nat} (h : Pair s c t t0) (ht0 : t0 < 2 ^ 32) :
    ∃ ops s' live', Exec 32 s [t, c] ops s' live' ∧ ops.count .finish = n ∧ ¬ Returns 32 c t s ops := by
  induction n generalizing s t0 with
  | zero =>
    refine ⟨[], s, _, .nil, rfl, fun hh => ?_⟩
    cases hh with
    | here e _ =>
      rw [h.2.1] at e; cases e
      have := h.1.nodup
      simp at this
  | succ n ih =>
    obtain ⟨s1, h1, h2, h3⟩ := reuse_pair h ht0
    obtain ⟨ops, s', live', g1, g2, g3⟩ := ih h2 (Nat.mod_lt _ (by decide))
    refine ⟨_, s', live', exec_trans h1 g1, ?_, h3 ops g3⟩
    rw [List.count_append, g2]
    simp [reuse, List.count_cons]
    omega

/-- A process that waits for itself waits for ever: no poll returns. -/
theorem C100_self {s : S} {live : List Cid} {c : Cid} (h : Reachable w s live) (hr : s.running = some c) (now : Nat) (tr : Bool) : ¬ Polls s c now tr .returns := by
  rw [(C100_poll h hr c now tr).1]
  obtain ⟨k, info, ops, he⟩ := h
  obtain ⟨r, b, hp⟩ := exec_placed he ⟨_, _, init_placed k info⟩
  exact fun hn => hn ((mem_live hp c).2 (.inl hr))

/-! ### The hypotheses are met -/

/-- Context 1 waits for context 2 in a state that is reached. -/
theorem demo_pair : ∃ s, Reachable 32 s [2, 1] ∧ Pair s 1 2 7 := by
  have h0 := init_placed ⟨fun _ => none, fun _ => none⟩ (fun _ => ⟨.ready, 0, 0⟩)
  have r0 : Reachable 32 (init ⟨fun _ => none, fun _ => none⟩ (fun _ => ⟨.ready, 0, 0⟩)) [] := ⟨_, _, [], .nil⟩
  have o1 : Allowed (init ⟨fun _ => none, fun _ => none⟩ (fun _ => ⟨.ready, 0, 0⟩)) [] (.create 1) := by simp [Allowed]
  obtain ⟨s1, e1, p1, q1, a1, _⟩ := sim (w := 32) h0 o1
  have r1 := reachable_step r0 o1 ⟨_, e1⟩
  have o2 : Allowed s1 [1] (.create 2) := by simp [Allowed]
  obtain ⟨s2, e2, p2, q2, a2, _⟩ := sim (w := 32) p1 o2
  have r2 := reachable_step r1 o2 ⟨_, e2⟩
  have b2 : s2.running = none := q2.trans q1
  have c2 : s2.atomic = false := a2.trans a1
  obtain ⟨s3, e3, p3, q3, a3, _⟩ := sim (w := 32) (op := .round 5) p2 trivial
  have r3 := reachable_step (op := .round 5) r2 trivial ⟨_, e3⟩
  simp [after, afterAtomic, c2, b2, liveAfter, ends] at p3 q3 a3 r3
  obtain ⟨s4, g1, g2, g3⟩ := (C100_poll r3 q3 2 7 false).2 (by simp)
  have o4 : Allowed s3 [2, 1] (.block .sleeping 7 50000 false) := ⟨by simp [q3], by simp⟩
  obtain ⟨p4, q4, a4, _⟩ := does_spec p3 o4 g2
  have i4 := (g3 a3).2.1
  have r4 := reachable_step r3 o4 g2
  simp [after, afterAtomic, a3, q3, liveAfter, ends] at p4 q4 a4 r4
  obtain ⟨s5, e5, p5, q5, a5, _⟩ := sim (w := 32) (op := .round 8) p4 trivial
  have r5 := reachable_step (op := .round 8) r4 trivial ⟨_, e5⟩
  have d4 : due 32 8 (s4.info 1) = false := by rw [i4]; decide
  have i5 := (does_info p4 (op := .round 8) (c := 1) trivial ⟨_, e5⟩ (by simp) d4).2
  simp [after, afterAtomic, a4, q4, liveAfter, ends, d4] at p5 q5 a5 r5
  exact ⟨s5, r5, p5, q5, a5, i5.trans i4⟩

example : ∃ s, Reachable 32 s [2, 1] ∧ ∀ n, ∃ ops s' live', Exec 32 s [2, 1] ops s' live' ∧ ops.count .finish = n ∧ ¬ Returns 32 1 2 s ops := by
  obtain ⟨s, h1, h2⟩ := demo_pair
  exact ⟨s, h1, fun n => C100_reuse_violated n h2 (by decide)⟩

/-- The hypotheses of `C100_start` hold in that state: context 2 may wait as well. -/
example : ∃ s s', Reachable 32 s [2, 1] ∧ s.running = some 2 ∧ applyWait s 9 false = some s' ∧ s'.running = none := by
  obtain ⟨s, h, hp⟩ := demo_pair
  obtain ⟨s', _, _, e, _, q, _⟩ := C100_start h hp.2.1 hp.2.2.1 9 false
  exact ⟨s, s', h, hp.2.1, e, q⟩

/-- Context 2 ends at last; a round 50 ms later and one more, and the `wait` of context 1 returns. -/
example : ∃ s s1 s2 s3, Reachable 32 s [2, 1] ∧ s.running = some 2 ∧ Does 32 s .finish s1 ∧ Does 32 s1 (.round 60000) s2 ∧ Does 32 s2 (.round 60001) s3 ∧
    Returns 32 1 2 s1 [.round 60000, .round 60001] := by
  obtain ⟨s, h1, h2, h3, h4, h5⟩ := demo_pair
  have o1 : Allowed s [2, 1] .finish := by simp [Allowed, h3]
  obtain ⟨s1, e1, p1, q1, a1, _⟩ := sim (w := 32) h2 o1
  have r1 := reachable_step h1 o1 ⟨_, e1⟩
  have i1 := (does_info h2 (c := 1) o1 ⟨_, e1⟩ (by simp) (by simp [Spares])).2.trans h5
  simp [after, afterAtomic, h4, h3, liveAfter, ends] at p1 q1 a1 r1
  obtain ⟨s2, e2, p2, q2, a2, _⟩ := sim (w := 32) (op := .round 60000) p1 trivial
  simp [liveAfter, ends, afterAtomic, a1] at p2 a2
  obtain ⟨s3, e3, p3, q3, a3, _⟩ := sim (w := 32) (op := .round 60001) p2 trivial
  refine ⟨s, s1, s2, s3, h1, h3, ⟨_, e1⟩, ⟨_, e2⟩, ⟨_, e3⟩, ?_⟩
  exact C100_returns_partial (ops := []) (ops' := [.round 60001]) (n := 1) ⟨_, _, p1, .inr ⟨by simp, i1⟩⟩ (by decide) (by simp) .nil a1 ⟨_, e2⟩ (by decide) (by decide)
    (by simpa [isRound, a2] using Rounds.cons (w := 32) (op := .round 60001) trivial ⟨_, e3⟩ .nil) (by simp) (by simp) (by simp) (by simp)

end Verif.Sched
