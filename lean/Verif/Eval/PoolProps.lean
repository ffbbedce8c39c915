import Verif.Eval.Pool

/-!
# Properties: processes that do not change common data

C93.
-/

namespace Verif.Eval

variable {P : Prims}

/-- C93: if the other processes do not change what process `i` can use, then process `i` computes what it computes alone, in whatever order the steps of all processes are taken and
whenever memory is collected: if it ends alone after `n` steps with a value or an error, then among the others it has either ended with the same value or error, or
it is running, has taken fewer than `n` steps, and can take another one whenever no other process is in an atomic block. -/
theorem C93_same_result (hP : Blind P) {sz : Nat → Option Nat} {p0 p : Pool} {i : Nat} {c0 : Ctx} (hs : p0.slot i = .run c0) (ha : Allocated (c0.mach p0.st))
    (hat : p0.st.atomic = false) {n : Nat} {s : St} {v : V} {b : Bool} (hf : steps (sz i) P n (.next (c0.mach p0.st)) = .fin s v b) {ls : List (Option Nat)}
    (h : Runs sz P (Polite i) p0 ls p) :
    (∃ s' v', p.slot i = .ended s' v' b ∧ SameResult s v s' v') ∨
    ((∃ c, p.slot i = .run c) ∧ ls.count (some i) < n ∧ ((p.st.atomic = true → p.cur = i) → ∃ p', PStep sz P p (some i) p')) := by
  have e0 : c0.mach (p0.seen i) = c0.mach p0.st := by
    have : p0.seen i = p0.st := by simp only [Pool.seen, hat, Bool.false_and]; rw [← hat]
    rw [this]
  obtain ⟨o, ho, hi⟩ := interrupted_of_runs (o0 := .next (c0.mach p0.st)) h (by simp only [Pool.out, hs, e0])
  generalize hk : ls.count (some i) = k at hi ⊢
  -- alone, nothing is undefined
  have stay : ∀ d, steps (sz i) P (n + d) (.next (c0.mach p0.st)) = .fin s v b := by
    intro d
    induction d with
    | zero => exact hf
    | succ d ih => rw [show n + (d + 1) = (n + d) + 1 from rfl, steps_succ, ih]; rfl
  have hdef : ∀ k, (∃ m, k < n ∧ steps (sz i) P k (.next (c0.mach p0.st)) = .next m) ∨ steps (sz i) P k (.next (c0.mach p0.st)) = .fin s v b := by
    intro k
    by_cases hkn : k < n
    · cases e : steps (sz i) P k (.next (c0.mach p0.st)) with
      | next m => exact .inl ⟨m, hkn, rfl⟩
      | _ =>
        have : ∀ d, steps (sz i) P (k + d) (.next (c0.mach p0.st)) = steps (sz i) P k (.next (c0.mach p0.st)) := by
          intro d
          induction d with
          | zero => rfl
          | succ d ih => rw [show k + (d + 1) = (k + d) + 1 from rfl, steps_succ, ih, e]; rfl
        have := this (n - k)
        rw [show k + (n - k) = n by omega, hf, e] at this
        right
        exact this.symm
    · right
      rw [show k = n + (k - n) by omega]
      exact stay _
  obtain ⟨ρ, hr⟩ := interrupted_growing hP (sz i) ha hi
  rcases hdef k with ⟨m, hkn, e⟩ | e
  · -- still running
    rw [e] at hr
    cases hr with
    | @next _ m' hm =>
      right
      cases hsl : p.slot i with
      | free => rw [Pool.out, hsl] at ho; cases ho
      | ended s v ok => rw [Pool.out, hsl] at ho; cases ho
      | run c =>
        refine ⟨⟨c, rfl⟩, hkn, fun hc => ?_⟩
        simp only [Pool.out, hsl, Option.some.injEq, Out.next.injEq] at ho
        have es : p.seen i = p.st := by
          simp only [Pool.seen]
          cases hat : p.st.atomic with
          | false => simp only [Bool.false_and]; rw [← hat]
          | true => simp only [hc hat, decide_true, Bool.and_true]; rw [← hat]
        rw [es] at ho
        obtain ⟨ρ', hr'⟩ := interrupted_growing hP (sz i) ha hi.step
        rw [← ho] at hr'
        rcases hdef (k + 1) with ⟨m1, _, e1⟩ | e1
        · rw [e1] at hr'
          cases h2 : step (sz i) P (c.mach p.st) with
          | next m2 => exact ⟨_, .go hsl hc h2⟩
          | fin s2 v2 b2 => exact ⟨_, .fin hsl hc h2⟩
          | ub => rw [h2] at hr'; cases hr'
          | out => rw [h2] at hr'; cases hr'
        · rw [e1] at hr'
          cases h2 : step (sz i) P (c.mach p.st) with
          | next m2 => exact ⟨_, .go hsl hc h2⟩
          | fin s2 v2 b2 => exact ⟨_, .fin hsl hc h2⟩
          | ub => rw [h2] at hr'; cases hr'
          | out => rw [h2] at hr'; cases hr'
  · -- ended
    rw [e] at hr
    obtain ⟨s', v', rfl, hsame⟩ := hr.same
    left
    refine ⟨s', v', ?_, hsame⟩
    cases hsl : p.slot i with
    | free => rw [Pool.out, hsl] at ho; cases ho
    | ended s2 v2 ok =>
      simp only [Pool.out, hsl, Option.some.injEq, Out.fin.injEq] at ho
      obtain ⟨rfl, rfl, rfl⟩ := ho
      rfl
    | run c => rw [Pool.out, hsl] at ho; cases ho

/-! ## Processes with data in common that no one changes -/

/-- The cells that process `i` can reach. -/
def Pool.reach (p : Pool) (i a : Nat) : Prop := ∃ c, p.slot i = .run c ∧ Reaches p.st (c.mach p.st).roots a

/-- The cells that two processes can reach. -/
def Pool.common (p : Pool) (a : Nat) : Prop := ∃ i j, i ≠ j ∧ p.reach i a ∧ p.reach j a

/-- A step of a process that changes no cell in `S` and no global variable, and captures no continuation. -/
def Harmless (S : Nat → Prop) (p : Pool) (l : Option Nat) (p' : Pool) : Prop :=
  l ≠ none ∧ (∀ a, S a → p'.st.car a = p.st.car a ∧ p'.st.cdr a = p.st.cdr a) ∧ (∀ n, p'.st.globals n = p.st.globals n) ∧
  (∀ k, p'.st.konts k = p.st.konts k) ∧ p'.st.nk = p.st.nk

/-- The cells `N i` belong to process `i` alone, the cells `S` to all of them. -/
structure Owned (S : Nat → Prop) (N : Nat → Nat → Prop) (p : Pool) : Prop where
  apart : ∀ i j a, N i a → N j a → i = j
  own : ∀ i a, N i a → ¬ S a
  old : ∀ i a, N i a → a < p.st.next
  away : ∀ i c, p.slot i = .run c → MAway (fun a => a < p.st.next ∧ ¬ N i a ∧ ¬ S a) (c.mach p.st)

theorem away_congr {N N' : Nat → Prop} {k k' : Nat} {v : V} (h : Away N k v) (hn : ∀ a, ¬ N a → a < k → ¬ N' a ∧ a < k') : Away N' k' v :=
  fun a e => hn a (h a e).1 (h a e).2

theorem owned_step (hP : Local P) {sz : Nat → Option Nat} {S : Nat → Prop} {N : Nat → Nat → Prop} {p p' : Pool} {l : Option Nat} (h : Owned S N p) (hS : ∀ a, S a → a < p.st.next)
    (hs : PStep sz P p l p') (hq : Harmless S p l p') :
    ∃ N', Owned S N' p' ∧ p.st.next ≤ p'.st.next ∧ ∀ j, l = some j → ∀ i a, i ≠ j → N i a → p'.st.car a = p.st.car a ∧ p'.st.cdr a = p.st.cdr a := by
  -- the process that takes the step, and the store afterwards
  have key : ∀ j x s', l = some j → p' = p.put j x s' → Kept (fun a => a < p.st.next ∧ ¬ N j a ∧ ¬ S a) p.st s' →
      (∀ c', x = .run c' → MAway (fun a => a < p.st.next ∧ ¬ N j a ∧ ¬ S a) (c'.mach s')) →
      ∃ N', Owned S N' p' ∧ p.st.next ≤ p'.st.next ∧ ∀ j, l = some j → ∀ i a, i ≠ j → N i a → p'.st.car a = p.st.car a ∧ p'.st.cdr a = p.st.cdr a := by
    rintro j x s' rfl rfl hkept hmx
    have hother : ∀ i a, i ≠ j → N i a → s'.car a = p.st.car a ∧ s'.cdr a = p.st.cdr a := fun i a hij hN =>
      hkept.1 a ⟨h.old i a hN, fun hj => hij (h.apart i j a hN hj), h.own i a hN⟩
    refine ⟨fun i a => N i a ∨ (i = j ∧ p.st.next ≤ a ∧ a < s'.next), ⟨?_, ?_, ?_, ?_⟩, hkept.2, fun k hk i a hik hN => ?_⟩
    · rintro i k a (h1 | ⟨rfl, h1, h1'⟩) (h2 | ⟨rfl, h2, h2'⟩)
      · exact h.apart i k a h1 h2
      · exact absurd (h.old i a h1) (by omega)
      · exact absurd (h.old k a h2) (by omega)
      · rfl
    · rintro i a (h1 | ⟨rfl, h1, h1'⟩) hSa
      · exact h.own i a h1 hSa
      · exact absurd (hS a hSa) (by omega)
    · rintro i a (h1 | ⟨rfl, h1, h1'⟩)
      · exact Nat.lt_of_lt_of_le (h.old i a h1) hkept.2
      · exact h1'
    · intro i c' hi
      by_cases hij : i = j
      · subst hij
        simp only [Pool.put, if_true] at hi
        have hm := hmx c' hi
        have conv : ∀ {v : V}, Away (fun a => a < p.st.next ∧ ¬ N i a ∧ ¬ S a) s'.next v →
            Away (fun a => a < s'.next ∧ ¬ (N i a ∨ (i = i ∧ p.st.next ≤ a ∧ a < s'.next)) ∧ ¬ S a) s'.next v := by
          intro v hv
          refine away_congr hv fun a h1 h2 => ⟨?_, h2⟩
          rintro ⟨h3, h4, h6⟩
          apply h1
          refine ⟨?_, fun hN => h4 (.inl hN), h6⟩
          rcases Nat.lt_or_ge a p.st.next with h5 | h5
          · exact h5
          · exact absurd (.inr ⟨rfl, h5, h3⟩) h4
        refine ⟨⟨fun a ha hn => ?_, fun n => conv (hm.st.globals n), fun k v hv => conv (hm.st.konts k v hv), fun a ha => ha.1⟩, fun v hv => conv (hm.K v hv), conv hm.r, conv hm.exp,
          conv hm.env, conv hm.program⟩
        have := hm.st.cells a ha fun hx => hn ⟨ha, by
          rintro (h1 | ⟨_, h1, _⟩)
          · exact hx.2.1 h1
          · exact absurd hx.1 (by omega), hx.2.2⟩
        exact ⟨conv this.1, conv this.2⟩
      · simp only [Pool.put, hij, if_false] at hi
        have hm := h.away i c' hi
        have conv : ∀ {v : V}, Away (fun a => a < p.st.next ∧ ¬ N i a ∧ ¬ S a) p.st.next v →
            Away (fun a => a < s'.next ∧ ¬ (N i a ∨ (i = j ∧ p.st.next ≤ a ∧ a < s'.next)) ∧ ¬ S a) s'.next v := by
          intro v hv
          refine away_congr hv fun a h1 h2 => ⟨?_, Nat.lt_of_lt_of_le h2 hkept.2⟩
          rintro ⟨h3, h4, h5⟩
          exact h1 ⟨h2, fun hN => h4 (.inl hN), h5⟩
        refine ⟨⟨fun a ha hn => ?_, fun n => ?_, fun k v hv => ?_, fun a ha => ha.1⟩, fun v hv => conv (hm.K v hv), conv hm.r, conv hm.exp, conv hm.env, conv hm.program⟩
        · have hN : N i a ∨ S a := Classical.byContradiction fun hc => hn ⟨ha, by
            rintro (h1 | ⟨h1, _⟩)
            · exact hc (.inl h1)
            · exact hij h1, fun h1 => hc (.inr h1)⟩
          have hE : s'.car a = p.st.car a ∧ s'.cdr a = p.st.cdr a := hN.elim (hother i a hij) (hq.2.1 a)
          have := hm.st.cells a (hN.elim (h.old i a) (hS a)) fun hx => hN.elim hx.2.1 hx.2.2
          simp only [Ctx.mach, Pool.put]
          rw [hE.1, hE.2]
          exact ⟨conv this.1, conv this.2⟩
        · have := hq.2.2.1 n
          simp only [Pool.put] at this
          simp only [Ctx.mach, Pool.put]
          rw [this]
          exact conv (hm.st.globals n)
        · have := hq.2.2.2.1 k
          simp only [Pool.put] at this
          simp only [Ctx.mach, Pool.put] at hv
          rw [this] at hv
          exact conv (hm.st.konts k v hv)
    · cases hk
      exact hother i a hik hN
  cases hs with
  | @go j c m hsl hat hst =>
    have hm := h.away j c hsl
    have hfine := fine_step hm (sz := sz j) hP
    rw [hst] at hfine
    exact key j (.run m.ctx) m.st rfl rfl hfine.2 (by rintro c' ⟨⟩; exact hfine.1)
  | @fin j c s v ok hsl hat hst =>
    have hm := h.away j c hsl
    have hfine := fine_step hm (sz := sz j) hP
    rw [hst] at hfine
    exact key j (.ended s v ok) s rfl rfl hfine.2.2 (by rintro c' ⟨⟩)
  | new => exact absurd rfl hq.1
  | collect => exact absurd rfl hq.1

/-- At first, what a process can reach and no other one can is its own. -/
theorem owned_start {p : Pool} (h : ∀ i c, p.slot i = .run c → Sound (c.mach p.st)) :
    Owned p.common (fun i a => p.reach i a ∧ ¬ p.common a) p ∧ ∀ a, p.common a → a < p.st.next := by
  have old : ∀ i a, p.reach i a → a < p.st.next := fun i a ⟨c, hc, hr⟩ => h i c hc a hr
  refine ⟨⟨fun i j a h1 h2 => Classical.byContradiction fun hij => h1.2 ⟨i, j, hij, h1.1, h2.1⟩, fun i a h1 => h1.2, fun i a h1 => old i a h1.1, fun i c hc => ?_⟩,
    fun a ⟨i, _, _, hi, _⟩ => old i a hi⟩
  have hv : ∀ v, (∀ a, v = .cons a → p.reach i a ∨ p.common a) → Away (fun a => a < p.st.next ∧ ¬ (p.reach i a ∧ ¬ p.common a) ∧ ¬ p.common a) p.st.next v := by
    intro v hr a e
    rcases hr a e with h1 | h1
    · exact ⟨fun h2 => h2.2.1 ⟨h1, h2.2.2⟩, old i a h1⟩
    · obtain ⟨k, _, _, hk, _⟩ := id h1
      exact ⟨fun h2 => h2.2.2 h1, old k a hk⟩
  have hroot : ∀ v, (c.mach p.st).roots v → Away (fun a => a < p.st.next ∧ ¬ (p.reach i a ∧ ¬ p.common a) ∧ ¬ p.common a) p.st.next v :=
    fun v hr => hv v fun a e => .inl ⟨c, hc, .root (e ▸ hr)⟩
  refine ⟨⟨fun a ha hn => ?_, fun n => hroot _ (.inr (.inr (.inr (.inr (.inr (.inl ⟨n, rfl⟩)))))), fun k v hk => hroot _ (.inr (.inr (.inr (.inr (.inr (.inr ⟨k, hk⟩)))))),
    fun a ha => ha.1⟩, fun v hk => hroot _ (.inr (.inr (.inr (.inr (.inl hk))))), hroot _ (.inl rfl), hroot _ (.inr (.inl rfl)), hroot _ (.inr (.inr (.inl rfl))),
    hroot _ (.inr (.inr (.inr (.inl rfl))))⟩
  by_cases hcm : p.common a
  · obtain ⟨j, k, hjk, ⟨d, hd, hj⟩, ⟨e, he, hk⟩⟩ := hcm
    exact ⟨hv _ fun b eb => .inr ⟨j, k, hjk, ⟨d, hd, .car hj eb⟩, ⟨e, he, .car hk eb⟩⟩, hv _ fun b eb => .inr ⟨j, k, hjk, ⟨d, hd, .cdr hj eb⟩, ⟨e, he, .cdr hk eb⟩⟩⟩
  · have hra : p.reach i a := Classical.byContradiction fun hx => hn ⟨ha, fun h1 => hx h1.1, hcm⟩
    obtain ⟨d, hd, hr⟩ := hra
    exact ⟨hv _ fun b eb => .inl ⟨d, hd, .car hr eb⟩, hv _ fun b eb => .inl ⟨d, hd, .cdr hr eb⟩⟩

theorem inUse_owned {S : Nat → Prop} {N : Nat → Nat → Prop} {p : Pool} (h : Owned S N p) {i : Nat} {c : Ctx} (hc : p.slot i = .run c) {a : Nat}
    (ha : InUse (c.mach p.st) (.cons a)) : N i a ∨ S a := by
  have hm := h.away i c hc
  have key : ∀ v, InUse (c.mach p.st) v → Away (fun a => a < p.st.next ∧ ¬ N i a ∧ ¬ S a) p.st.next v := by
    intro v hv
    induction hv with
    | root hr =>
      rcases hr with rfl | rfl | rfl | rfl | hk | ⟨n, rfl⟩
      · exact hm.r
      · exact hm.exp
      · exact hm.env
      · exact hm.program
      · exact hm.K _ hk
      · exact hm.st.globals n
    | car _ ih => exact (hm.st.cells _ (ih _ rfl).2 (ih _ rfl).1).1
    | cdr _ ih => exact (hm.st.cells _ (ih _ rfl).2 (ih _ rfl).1).2
    | kont _ hk _ => exact hm.st.konts _ _ hk
  have := key _ ha a rfl
  exact Classical.byContradiction fun hx => this.1 ⟨this.2, fun h1 => hx (.inl h1), fun h1 => hx (.inr h1)⟩

/-- No process changes what another one can use, if no process changes a cell that two of them could reach in the beginning, or a global variable. -/
theorem polite_of_harmless (hP : Local P) (hB : Blind P) {sz : Nat → Option Nat} {p0 p : Pool} (hs : ∀ i c, p0.slot i = .run c → Sound (c.mach p0.st)) {i : Nat} {c0 : Ctx}
    (hi : p0.slot i = .run c0) (ha : Allocated (c0.mach p0.st)) (hat : p0.st.atomic = false) (hub : ∀ k, steps (sz i) P k (.next (c0.mach p0.st)) ≠ .ub)
    {ls : List (Option Nat)} (h : Runs sz P (Harmless p0.common) p0 ls p) : Runs sz P (Polite i) p0 ls p := by
  have e0 : c0.mach (p0.seen i) = c0.mach p0.st := by
    have : p0.seen i = p0.st := by simp only [Pool.seen, hat, Bool.false_and]; rw [← hat]
    rw [this]
  obtain ⟨hown0, hS0⟩ := owned_start hs
  suffices hx : Runs sz P (Polite i) p0 ls p ∧ (∃ N, Owned p0.common N p) ∧ ∀ a, p0.common a → a < p.st.next from hx.1
  induction h with
  | nil => exact ⟨.nil, ⟨_, hown0⟩, hS0⟩
  | @snoc ls p l p' _ hst hq ih =>
    obtain ⟨hr, ⟨N, hown⟩, hS⟩ := ih
    obtain ⟨N', hown', hle, hoth⟩ := owned_step hP hown hS hst hq
    refine ⟨.snoc hr hst ?_, ⟨N', hown'⟩, fun a h1 => Nat.lt_of_lt_of_le (hS a h1) hle⟩
    intro j c hl hj hc
    -- what is in use was allocated
    have hall : Allocated (c.mach p.st) := by
      obtain ⟨o, ho, hint⟩ := interrupted_of_runs (o0 := .next (c0.mach p0.st)) hr (by simp only [Pool.out, hi, e0])
      obtain ⟨ρ, hro⟩ := interrupted_growing hB (sz i) ha hint
      simp only [Pool.out, hc, Option.some.injEq] at ho
      subst ho
      have hne := hub (ls.count (some i))
      generalize steps (sz i) P _ _ = o at hro hne
      cases hro with
      | ub => exact absurd rfl hne
      | next hm =>
        have := hm.rel.flip.allocated
        exact ⟨fun a h1 => this.1 a (inUse_atomic.2 h1), fun a h1 => this.2 a (inUse_atomic.2 h1)⟩
    refine ⟨fun a h1 => ⟨Nat.lt_of_lt_of_le (hall.1 a h1) hle, ?_⟩, fun k h1 => ⟨by rw [hq.2.2.2.2]; exact hall.2 k h1, hq.2.2.2.1 k⟩, hq.2.2.1, hle⟩
    rcases inUse_owned hown hc h1 with h2 | h2
    · exact hoth j hl i a (Ne.symm hj) h2
    · exact hq.2.1 a h2

/-- C93: the processes may use the same data, as long as they do not change it: if no step changes a cell that two processes could reach in the beginning, changes
a global variable, or captures a continuation, then each process computes what it computes alone, in whatever order the steps are taken. What a process
makes itself it may change. -/
theorem C93_common_data (hP : Local P) (hB : Blind P) {sz : Nat → Option Nat} {p0 p : Pool} (hs : ∀ i c, p0.slot i = .run c → Sound (c.mach p0.st)) {i : Nat} {c0 : Ctx}
    (hi : p0.slot i = .run c0) (ha : Allocated (c0.mach p0.st)) (hat : p0.st.atomic = false) {n : Nat} {s : St} {v : V} {b : Bool}
    (hf : steps (sz i) P n (.next (c0.mach p0.st)) = .fin s v b) {ls : List (Option Nat)} (h : Runs sz P (Harmless p0.common) p0 ls p) :
    (∃ s' v', p.slot i = .ended s' v' b ∧ SameResult s v s' v') ∨
    ((∃ c, p.slot i = .run c) ∧ ls.count (some i) < n ∧ ((p.st.atomic = true → p.cur = i) → ∃ p', PStep sz P p (some i) p')) := by
  refine C93_same_result hB hi ha hat hf (polite_of_harmless hP hB hs hi ha hat (fun k hk => ?_) h)
  have stay : ∀ k d o, steps (sz i) P k (.next (c0.mach p0.st)) = o → (∀ m, o ≠ .next m) → steps (sz i) P (k + d) (.next (c0.mach p0.st)) = o := by
    intro k d o h1 h2
    induction d with
    | zero => exact h1
    | succ d ih =>
      rw [show k + (d + 1) = (k + d) + 1 from rfl, steps_succ, ih]
      cases o with
      | next m => exact absurd rfl (h2 m)
      | _ => rfl
  have e1 := stay k n .ub hk (fun _ h => by cases h)
  have e2 := stay n k _ hf (fun _ h => by cases h)
  rw [Nat.add_comm, e2] at e1
  cases e1

/-! ## Examples -/

/-- A step of process `i`, if it can take one. -/
def Pool.play (sz : Nat → Option Nat) (P : Prims) (p : Pool) (i : Nat) : Pool :=
  match p.slot i with
  | .run c =>
    match step (sz i) P (c.mach p.st) with
    | .next m => p.put i (.run m.ctx) m.st
    | .fin s v ok => p.put i (.ended s v ok) s
    | _ => p
  | _ => p

/-- Process `i` can take a step. -/
def Pool.able (sz : Nat → Option Nat) (P : Prims) (p : Pool) (i : Nat) : Bool :=
  match p.slot i with
  | .run c =>
    (!p.st.atomic || p.cur == i) &&
    match step (sz i) P (c.mach p.st) with
    | .next _ => true
    | .fin _ _ _ => true
    | _ => false
  | _ => false

theorem play_step {sz : Nat → Option Nat} {p : Pool} {i : Nat} (h : p.able sz P i = true) : PStep sz P p (some i) (p.play sz P i) := by
  unfold Pool.able at h
  unfold Pool.play
  cases hs : p.slot i with
  | run c =>
    rw [hs] at h
    simp only [Bool.and_eq_true, Bool.or_eq_true, Bool.not_eq_true', beq_iff_eq] at h
    have hat : p.st.atomic = true → p.cur = i := fun h1 => h.1.elim (fun h2 => by rw [h1] at h2; cases h2) id
    simp only
    cases h2 : step (sz i) P (c.mach p.st) with
    | next m => exact .go hs hat h2
    | fin s v ok => exact .fin hs hat h2
    | ub => rw [h2] at h; simp at h
    | out => rw [h2] at h; simp at h
  | free => rw [hs] at h; cases h
  | ended s v ok => rw [hs] at h; cases h

/-- Processes take steps in the given order. -/
def Pool.plays (sz : Nat → Option Nat) (P : Prims) : Pool → List Nat → Pool
  | p, [] => p
  | p, i :: l => (p.play sz P i).plays sz P l

/-- They can. -/
def Pool.ables (sz : Nat → Option Nat) (P : Prims) : Pool → List Nat → Bool
  | _, [] => true
  | p, i :: l => p.able sz P i && (p.play sz P i).ables sz P l

/-- The result of process `i`, if it is a number. -/
def Pool.number (p : Pool) (i : Nat) : Option Nat :=
  match p.slot i with
  | .ended _ (.atom n) true => some n
  | _ => none

theorem plays_runs {sz : Nat → Option Nat} {Q : Pool → Option Nat → Pool → Prop} {p0 : Pool} : ∀ (l : List Nat) {ls : List (Option Nat)} {p : Pool}, Runs sz P Q p0 ls p →
    p.ables sz P l = true → (∀ l1 i l2, l = l1 ++ i :: l2 → Q (p.plays sz P l1) (some i) ((p.plays sz P l1).play sz P i)) →
    Runs sz P Q p0 (ls ++ l.map some) (p.plays sz P l)
  | [], ls, p, h, _, _ => by simpa [Pool.plays] using h
  | i :: l, ls, p, h, ha, hq => by
    simp only [Pool.ables, Bool.and_eq_true] at ha
    have := plays_runs l (h.snoc (play_step ha.1) (hq [] i l rfl)) ha.2 fun l1 j l2 e => by
      have := hq (i :: l1) j l2 (by rw [e]; rfl)
      simpa [Pool.plays] using this
    simpa [Pool.plays] using this

section
open Sx

/-- `((x . (1 2)))`, the list of the global variables with the hash of `x` -/
def poolList : Sx := l [.c (v 0) (l [n 1, n 2])]
/-- `(setcar x 5)` -/
def poolSet : Sx := l [s 0x2001C, v 0, n 5]
/-- `(car x)` -/
def poolGet : Sx := l [s 0x20012, v 0]
/-- `(let ((y (cons 1 2))) (progn (setcar y x) y))` -/
def poolLet : Sx := l [s 0x105, l [l [v 1, l [s 0x20011, n 1, n 2]]], l [s 0x102, l [s 0x2001C, v 1, v 0], v 1]]

end

/-- Two processes that evaluate the two expressions, where the global variable `x` has the value `(1 2)`. -/
def poolOf (x y : Sx) : Pool :=
  let (s1, a) := load poolList st0
  let (s2, b) := load x s1
  let (s3, c) := load y s2
  { st := { s3 with globals := fun k => if k = 0 then a else s3.globals k },
    slot := fun i => if i = 0 then .run (ready s3 b).ctx else if i = 1 then .run (ready s3 c).ctx else .free, cur := 0 }

theorem poolOf_apart (x y : Sx) (hx : x.plain = true) (hy : y.plain = true) (i : Nat) (c : Ctx) (h : (poolOf x y).slot i = .run c) :
    MAway (fun _ => False) (c.mach (poolOf x y).st) := by
  obtain ⟨a1, a2, a3⟩ := load_apart (N := fun _ => False) poolList st0 (by decide) st0_apart
  obtain ⟨b1, b2, b3⟩ := load_apart x _ hx a1
  obtain ⟨c1, c2, c3⟩ := load_apart y _ hy b1
  have hst : Apart (fun _ => False) (poolOf x y).st := by
    refine ⟨c1.cells, fun n => ?_, c1.konts, c1.old⟩
    simp only [poolOf]
    split
    · exact (a2.up b3).up c3
    · exact c1.globals n
  have e : c = (ready (poolOf x y).st (load x (load poolList st0).1).2).ctx ∨ c = (ready (poolOf x y).st (load y (load x (load poolList st0).1).1).2).ctx := by
    simp only [poolOf] at h
    split at h
    · cases h; exact .inl rfl
    · split at h
      · cases h; exact .inr rfl
      · cases h
  rcases e with rfl | rfl
  · exact ready_away hst (b2.up c3)
  · exact ready_away hst c2

theorem poolOf_sound (x y : Sx) (hx : x.plain = true) (hy : y.plain = true) (i : Nat) (c : Ctx) (h : (poolOf x y).slot i = .run c) : Sound (c.mach (poolOf x y).st) :=
  (poolOf_apart x y hx hy i c h).sound

/-- Why it matters that common data is not changed: one process evaluates `(car x)`, the other one `(setcar x 5)`; if the first one runs first its result is `1`, if the
second one runs first it is `5`. -/
theorem C93_changes_are_seen :
    ∃ (p0 p1 p2 : Pool) (l1 l2 : List (Option Nat)), (∀ i c, p0.slot i = .run c → Sound (c.mach p0.st)) ∧
      Runs (fun _ => none) cellPrims (fun _ l _ => l ≠ none) p0 l1 p1 ∧ Runs (fun _ => none) cellPrims (fun _ l _ => l ≠ none) p0 l2 p2 ∧
      p1.number 0 = some 1 ∧ p2.number 0 = some 5 := by
  refine ⟨poolOf poolGet poolSet, _, _, _, _, poolOf_sound _ _ (by decide) (by decide),
    plays_runs (List.replicate 6 0) .nil (by decide +kernel) (fun _ _ _ _ h => by cases h), 
    plays_runs (List.replicate 8 1 ++ List.replicate 6 0) .nil (by decide +kernel) (fun _ _ _ _ h => by cases h), by decide +kernel, by decide +kernel⟩

/-- No step in this order changes one of the first `k` cells, a list of global variables, or a captured stack. -/
def Pool.calm (sz : Nat → Option Nat) (P : Prims) (k : Nat) : Pool → List Nat → Prop
  | _, [] => True
  | p, i :: l => (∀ a, a < k → (p.play sz P i).st.car a = p.st.car a ∧ (p.play sz P i).st.cdr a = p.st.cdr a) ∧ (p.play sz P i).st.globals = p.st.globals ∧
      (p.play sz P i).st.konts = p.st.konts ∧ (p.play sz P i).st.nk = p.st.nk ∧ (p.play sz P i).calm sz P k l

theorem calm_harmless {sz : Nat → Option Nat} {k : Nat} {S : Nat → Prop} (hS : ∀ a, S a → a < k) : ∀ (l : List Nat) {p : Pool}, p.calm sz P k l → ∀ l1 i l2, l = l1 ++ i :: l2 →
    Harmless S (p.plays sz P l1) (some i) ((p.plays sz P l1).play sz P i)
  | [], _, _, l1, i, l2, e => by cases l1 <;> cases e
  | j :: l, p, ⟨h1, h2, h3, h4, h⟩, [], i, l2, e => by
    cases e
    exact ⟨by simp, fun a ha => h1 a (hS a ha), fun n => by rw [Pool.plays, h2], fun n => by rw [Pool.plays, h3], h4⟩
  | j :: l, p, ⟨h1, h2, h3, h4, h⟩, j' :: l1, i, l2, e => by
    cases e
    exact calm_harmless hS _ h l1 i l2 rfl

/-- The first process of the example. -/
def poolFirst : Ctx := (ready (poolOf poolLet poolLet).st (load poolLet (load poolList st0).1).2).ctx

theorem poolFirst_allocated : Allocated (poolFirst.mach (poolOf poolLet poolLet).st) := by
  refine allocated_of_check ?_ (by decide +kernel) (fun v hv => by simp [poolFirst, Ctx.mach, M.ctx, ready] at hv) fun n => ?_
  · have : ∀ a, a < 34 → ((poolOf poolLet poolLet).st.car a).below (poolOf poolLet poolLet).st.next = true ∧ ((poolOf poolLet poolLet).st.cdr a).below (poolOf poolLet poolLet).st.next = true := by
      decide +kernel
    exact fun a ha => this a (by rw [show (34 : Nat) = (poolOf poolLet poolLet).st.next by decide +kernel]; exact ha)
  · by_cases h : n = 0
    · subst h
      decide +kernel
    · have : (poolOf poolLet poolLet).st.globals n = .nil := by
        simp only [poolOf, h, if_false]
        rfl
      simp only [Ctx.mach, this]
      rfl

/-- The order of the example: in turns, and then the first process alone. -/
def poolTurns : List Nat := [0, 1, 0, 1, 0, 1, 0, 1, 0, 1, 0, 1, 0, 1, 0, 1, 0, 0, 0, 0, 0, 0, 0, 0, 0, 0, 0, 0]

/-- Example: both processes evaluate `(let ((y (cons 1 2))) (progn (setcar y x) y))`, where `x` is a global variable with a list for its value. They take turns;
the first one changes the cell that it has made, and ends. -/
example : (∃ s v, steps none cellPrims 20 (.next (poolFirst.mach (poolOf poolLet poolLet).st)) = .fin s v true) ∧
    (∀ i c, (poolOf poolLet poolLet).slot i = .run c → Sound (c.mach (poolOf poolLet poolLet).st)) ∧ (poolOf poolLet poolLet).slot 0 = .run poolFirst ∧
    Allocated (poolFirst.mach (poolOf poolLet poolLet).st) ∧
    (∃ a, (poolOf poolLet poolLet).common a) ∧
    Runs (fun _ => none) cellPrims (Harmless (poolOf poolLet poolLet).common) (poolOf poolLet poolLet) (poolTurns.map some) ((poolOf poolLet poolLet).plays (fun _ => none) cellPrims poolTurns) ∧
    ∃ s v, ((poolOf poolLet poolLet).plays (fun _ => none) cellPrims poolTurns).slot 0 = .ended s v true := by
  have hsound := poolOf_sound poolLet poolLet (by decide) (by decide)
  have hS : ∀ a, (poolOf poolLet poolLet).common a → a < 34 := fun a ha => by
    have := (owned_start hsound).2 a ha
    rwa [show (poolOf poolLet poolLet).st.next = 34 by decide +kernel] at this
  refine ⟨?_, hsound, rfl, poolFirst_allocated, ⟨3, 0, 1, by decide, ⟨_, rfl, .root (.inr (.inr (.inr (.inr (.inr (.inl ⟨0, by decide +kernel⟩))))))⟩, ⟨_, rfl, .root (.inr (.inr (.inr (.inr (.inr (.inl ⟨0, by decide +kernel⟩))))))⟩⟩, ?_, ?_⟩
  · have : (match steps none cellPrims 20 (.next (poolFirst.mach (poolOf poolLet poolLet).st)) with
      | .fin _ _ true => true | _ => false) = true := by decide +kernel
    revert this
    generalize steps none cellPrims 20 _ = o
    intro this
    split at this
    · exact ⟨_, _, rfl⟩
    · cases this
  · refine plays_runs poolTurns .nil (by decide +kernel) (calm_harmless hS _ ?_)
    unfold poolTurns
    repeat' first | exact trivial | refine ⟨?_, rfl, rfl, rfl, ?_⟩ | decide +kernel
  · have : (match ((poolOf poolLet poolLet).plays (fun _ => none) cellPrims poolTurns).slot 0 with | .ended _ _ true => true | _ => false) = true := by decide +kernel
    revert this
    generalize ((poolOf poolLet poolLet).plays (fun _ => none) cellPrims poolTurns).slot 0 = o
    intro this
    split at this
    · exact ⟨_, _, rfl⟩
    · cases this

end Verif.Eval
