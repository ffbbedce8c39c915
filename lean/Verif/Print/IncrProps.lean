import Verif.Print.IncrSpec

/-!
# C104: evaluating a text expression by expression
-/

namespace Verif.Print

open Verif.Tok (Byte ascii Token Stream)
open Verif.Eq (T NTy Val Heap Obj)

variable {G : Type} {D : Dev} {ev : Evaluator G}

/-! ## Steps of the reader are steps of the whole -/

/-- The last frame does not read a token. -/
def LastOk (K : List RF) : Prop := K.getLast? ≠ some .next

theorem lastOk_append {pre K : List RF} (h : K ≠ []) : LastOk (pre ++ K) ↔ LastOk K := by
  unfold LastOk
  rw [List.getLast?_append]
  cases hk : K.getLast? with
  | none => exact absurd (List.getLast?_eq_none_iff.1 hk) h
  | some a => rfl

theorem number_facts (m : RS) (D : Dev) (t : NTy) (z : Int) : (m.number D t z).1.total = m.total ∧ (m.number D t z).1.K = m.K := by
  unfold RS.number
  split <;> exact ⟨rfl, rfl⟩

/-- What a token does to the stack: frames are added. -/
theorem tok_facts {m q : RS} {K : List RF} {t : Token} (h : tokStep D m K t = .run q) :
    q.total = m.total ∧ ∃ pre, q.K = pre ++ K ∧ (isMark t = false → LastOk pre) := by
  unfold tokStep at h
  split at h
  · unfold syntaxToken at h
    split at h
    case h_1 => cases h; exact ⟨rfl, [.next, .append (.sym 0) (.sym 0)], rfl, fun _ => by simp [LastOk]⟩
    case h_2 => cases h; exact ⟨rfl, [], rfl, fun _ => by simp [LastOk]⟩
    case h_3 => cases h; exact ⟨rfl, [.next, .startArray], rfl, fun _ => by simp [LastOk]⟩
    case h_4 => cases h; exact ⟨rfl, [], rfl, fun _ => by simp [LastOk]⟩
    case h_5 => cases h; exact ⟨rfl, [], rfl, fun _ => by simp [LastOk]⟩
    case h_6 => cases h; exact ⟨rfl, [], rfl, fun _ => by simp [LastOk]⟩
    case h_7 => cases h; exact ⟨rfl, [.next, .wrap _], rfl, fun _ => by simp [LastOk]⟩
    case h_8 => cases h
    case h_9 => cases h; exact ⟨rfl, [.next, .wrap _], rfl, fun _ => by simp [LastOk]⟩
    case h_10 => cases h; exact ⟨rfl, [.next, .wrap _], rfl, fun _ => by simp [LastOk]⟩
    case h_11 => cases h; exact ⟨rfl, [], rfl, fun _ => by simp [LastOk]⟩
    case h_12 => cases h; exact ⟨rfl, [.append _ _], rfl, fun _ => by simp [LastOk]⟩
    case h_13 => cases h; exact ⟨rfl, [], rfl, fun _ => by simp [LastOk]⟩
    case h_14 => cases h; exact ⟨rfl, [.next], rfl, fun h => by cases h⟩
    case h_15 => cases h; exact ⟨rfl, [.next], rfl, fun h => by cases h⟩
    case h_16 => cases h
  · cases h; exact ⟨rfl, [], rfl, fun _ => by simp [LastOk]⟩
  · simp only [RRes.run.injEq] at h
    rw [← h]
    exact ⟨(number_facts _ _ _ _).1, [], rfl, fun _ => by simp [LastOk]⟩
  · split at h
    · simp only [RRes.run.injEq] at h
      rw [← h]
      exact ⟨(number_facts _ _ _ _).1, [], rfl, fun _ => by simp [LastOk]⟩
    · cases h
  · simp only at h
    split at h
    · cases h; exact ⟨rfl, [], rfl, fun _ => by simp [LastOk]⟩
    · cases h
  · cases h; exact ⟨rfl, [], rfl, fun _ => by simp [LastOk]⟩

theorem nextStep_tok {m : RS} {K : List RF} {t : Token} {s : Stream} (h : Tok.nextToken m.s = (.token t, s)) : nextStep D m K = tokStep D { m with s := s } K t := by
  simp only [nextStep, h]
  rfl

theorem finish_facts {m q : RS} (h : readFinish m = .run q) : q.total = m.total ∧ q.K = m.K := by
  unfold readFinish at h
  split at h
  · cases h
  · split at h
    · cases h; exact ⟨rfl, rfl⟩
    · split at h
      · cases h; exact ⟨rfl, rfl⟩
      · cases h

theorem next_facts' {m q : RS} {K : List RF} (hm : m.K = .next :: K) (h : nextStep D m K = .run q) : q.total = m.total ∧ ∃ pre, q.K = pre ++ K := by
  rcases hn : Tok.nextToken m.s with ⟨o, s⟩
  cases o with
  | token t =>
    rw [nextStep_tok hn] at h
    obtain ⟨h1, pre, h2, _⟩ := tok_facts h
    exact ⟨h1, pre, h2⟩
  | finished =>
    simp only [nextStep, hn] at h
    obtain ⟨h1, h2⟩ := finish_facts h
    exact ⟨h1, [], h2⟩
  | again =>
    simp only [nextStep, hn, RRes.run.injEq] at h
    rw [← h]
    exact ⟨rfl, [.next], hm⟩
  | error => simp only [nextStep, hn] at h; cases h
  | ub => simp only [nextStep, hn] at h; cases h
  | fuel => simp only [nextStep, hn] at h; cases h

/-- A step takes the first frame away and adds others. -/
theorem rstep_facts {m q : RS} (h : rstep D m = .run q) : q.total = m.total ∧ ∃ f K pre, m.K = f :: K ∧ q.K = pre ++ K ∧ (f ≠ .next → LastOk pre) := by
  unfold rstep at h
  split at h
  · cases h
  · rename_i K hK
    obtain ⟨h1, pre, h2⟩ := next_facts' hK h
    exact ⟨h1, _, K, pre, hK, h2, fun hf => absurd rfl hf⟩
  · rename_i f l K hK
    split at h
    · split at h <;> (cases h; exact ⟨rfl, _, K, [], hK, rfl, fun _ => by simp [LastOk]⟩)
    · split at h
      · cases h; exact ⟨rfl, _, K, [.next, .dotTerm _ _], hK, rfl, fun _ => by simp [LastOk]⟩
      · simp only at h
        split at h <;> (cases h; exact ⟨rfl, _, K, [.next, .append _ _], hK, rfl, fun _ => by simp [LastOk]⟩)
  · rename_i K hK
    split at h
    · cases h; exact ⟨rfl, _, K, [], hK, rfl, fun _ => by simp [LastOk]⟩
    · split at h
      · cases h; exact ⟨rfl, _, K, [.appendArray _ _ _], hK, rfl, fun _ => by simp [LastOk]⟩
      · cases h
  · rename_i a size ix K hK
    split at h
    · cases h
    · split at h
      · split at h
        · cases h; exact ⟨rfl, _, K, [.next, .appendArray _ _ _], hK, rfl, fun _ => by simp [LastOk]⟩
        · split at h
          · cases h; exact ⟨rfl, _, K, [], hK, rfl, fun _ => by simp [LastOk]⟩
          · cases h
      · cases h
  · rename_i f l K hK
    split at h
    · cases h
    · split at h
      · cases h; exact ⟨rfl, _, K, [.next, .expectClose _], hK, rfl, fun _ => by simp [LastOk]⟩
      · cases h
  · rename_i v K hK
    split at h
    · cases h; exact ⟨rfl, _, K, [], hK, rfl, fun _ => by simp [LastOk]⟩
    · cases h
  · rename_i w K hK
    cases h; exact ⟨rfl, _, K, [], hK, rfl, fun _ => by simp [LastOk]⟩
  · split at h <;> cases h

theorem rstep_last {m q : RS} (h : rstep D m = .run q) (hl : LastOk m.K) : LastOk q.K := by
  obtain ⟨_, f, K, pre, h1, h2, h3⟩ := rstep_facts h
  rw [h2]
  cases K with
  | nil =>
    rw [List.append_nil]
    refine h3 fun hf => hl ?_
    rw [h1, hf]
    rfl
  | cons g K =>
    rw [lastOk_append (List.cons_ne_nil _ _)]
    rw [h1] at hl
    exact (lastOk_append (pre := [f]) (List.cons_ne_nil _ _)).1 hl

/-- If the reader does not come to the end of the text between two expressions, the whole does what the reader does. -/
theorem istep_lift {s : IS G} (hK : s.m.K ≠ []) (h : s.m.K = [.next] → ∀ s', Tok.nextToken s.m.s ≠ (.finished, s')) : istep D ev s = s.lift (rstep D s.m) := by
  unfold istep
  split
  · rename_i h0
    exact absurd h0 hK
  · rename_i h1
    split
    · rename_i s' h2
      exact absurd h2 (h h1 s')
    · rfl
  · rfl

theorem istep_run {s : IS G} {q : RS} (ht : s.m.total ≠ 0) (h : rstep D s.m = .run q) : istep D ev s = .run { s with m := q } := by
  rw [istep_lift, h]
  · rfl
  · intro h0
    unfold rstep at h
    rw [h0] at h
    cases h
  · intro h1 s' h2
    have : rstep D s.m = readFinish { s.m with s := s', K := [] } := by
      unfold rstep
      rw [h1]
      simp only [nextStep, h2]
    rw [this, finish_error ht (nextToken_finished h2) (by intro f l K' e; cases e)] at h
    cases h

/-- The whole comes to this result. -/
def ITo (D : Dev) (ev : Evaluator G) (s : IS G) (res : IRes G) : Prop := ∃ n, irun D ev (n + 1) s = res

theorem ITo.one {s : IS G} {res : IRes G} (h : istep D ev s = res) : ITo D ev s res := by
  refine ⟨0, ?_⟩
  simp only [irun, h]
  cases res <;> rfl

theorem irun_add (n k : Nat) (s : IS G) : irun D ev (n + k) s = match irun D ev n s with | .run q => irun D ev k q | r => r := by
  induction n generalizing s with
  | zero => rw [Nat.zero_add]; rfl
  | succ n ih =>
    rw [Nat.succ_add]
    simp only [irun]
    cases istep D ev s with
    | run q => exact ih q
    | done q => rfl
    | stop y c => rfl

theorem ITo.trans {s q : IS G} {res : IRes G} (h1 : ITo D ev s (.run q)) (h2 : ITo D ev q res) : ITo D ev s res := by
  obtain ⟨n, h1⟩ := h1
  obtain ⟨k, h2⟩ := h2
  refine ⟨n + 1 + k, ?_⟩
  rw [show n + 1 + k + 1 = (n + 1) + (k + 1) by omega, irun_add, h1]
  exact h2

/-- Runs of the reader. -/
theorem ito_run {rest : G} {cs : List (World G × Val)} : ∀ (n : Nat) (m q : RS), m.total ≠ 0 → rrun D (n + 1) m = .run q → ITo D ev ⟨m, rest, cs⟩ (.run ⟨q, rest, cs⟩)
  | 0, m, q, ht, h => by
    refine .one (istep_run ht ?_)
    simp only [rrun] at h
    split at h
    · rename_i m' h1
      cases h
      exact h1
    · exact h
  | n + 1, m, q, ht, h => by
    rw [rrun] at h
    split at h
    · rename_i m' h1
      refine (ITo.one (istep_run (s := ⟨m, rest, cs⟩) ht h1)).trans (ito_run n m' q ?_ h)
      rw [(rstep_facts h1).1]
      exact ht
    · rename_i h1
      exact absurd h (h1 q)

/-- What the reader says when it stops. -/
def RRes.why : RRes → Option Why
  | .error => some .error
  | .ub => some .ub
  | .unmodelled => some .unmodelled
  | _ => none

theorem lift_why {s : IS G} {r : RRes} {y : Why} (h : r.why = some y) : s.lift r = .stop y s.calls ∧ y ≠ .failed := by
  cases r <;> simp only [RRes.why, Option.some.injEq, reduceCtorEq] at h <;> subst h <;> exact ⟨rfl, by decide⟩

/-- The reader stops inside of an expression. -/
theorem ito_stop {rest : G} {cs : List (World G × Val)} : ∀ (n : Nat) (m : RS) (r : RRes) (y : Why), LastOk m.K → rrun D n m = r → r.why = some y → ITo D ev ⟨m, rest, cs⟩ (.stop y cs)
  | 0, m, r, y, _, h, hw => by
    rw [← h] at hw
    cases hw
  | n + 1, m, r, y, hl, h, hw => by
    have hK : m.K ≠ [] := by
      intro h0
      have : rstep D m = .done m := by unfold rstep; rw [h0]
      rw [rrun, this] at h
      rw [← h] at hw
      cases hw
    have hlift := istep_lift (D := D) (ev := ev) (s := ⟨m, rest, cs⟩) hK (fun h1 => absurd (by rw [h1]; rfl) hl)
    rw [rrun] at h
    split at h
    · rename_i m' h1
      rw [h1] at hlift
      exact (ITo.one hlift).trans (ito_stop n m' r y (rstep_last h1 hl) h hw)
    · rename_i h1
      rw [h] at hlift
      exact .one (by rw [hlift]; exact (lift_why hw).1)

theorem mark_step {s s1 : Stream} {k' : Token} (h : Tok.nextToken s = (.token k', s1)) (hk : isMark k' = true) {hp : Heap} {n tot : Nat} {tab : Sym.Tab} {K : List RF} {r : Val} :
    rstep D ⟨hp, n, tab, s, tot, .next :: K, r⟩ = .run ⟨hp, n, tab, s1, tot, .next :: K, r⟩ := by
  simp only [rstep, nextStep, h]
  revert hk
  unfold isMark
  split
  · intro _; rfl
  · intro _; rfl
  · intro h; cases h

theorem ito_next {s s' : Stream} {k : Token} (h : Next s k s') {hp : Heap} {n tot : Nat} {tab : Sym.Tab} {K : List RF} {r : Val} {rest : G} {cs : List (World G × Val)} {m0 : RS} :
    ITo D ev ⟨⟨hp, n, tab, s, tot, .next :: K, r⟩, rest, cs⟩ (IS.lift ⟨m0, rest, cs⟩ (tokStep D ⟨hp, n, tab, s', tot, .next :: K, r⟩ K k)) := by
  induction h with
  | tok h hk =>
    refine .one ?_
    rw [istep_lift (by simp) (by intro _ s'; simp only; rw [h]; intro e; cases e)]
    have : rstep D ⟨hp, n, tab, _, tot, .next :: K, r⟩ = _ := (nextStep_tok (D := D) (m := ⟨hp, n, tab, _, tot, .next :: K, r⟩) (K := K) h)
    rw [this]
    generalize tokStep D _ K _ = x
    cases x <;> rfl
  | mark h hk _ ih =>
    refine .trans (.one ?_) ih
    rw [istep_lift (by simp) (by intro _ s'; simp only; rw [h]; intro e; cases e), mark_step h hk]
    rfl

theorem ito_end {s s' : Stream} {o : Tok.Out} (h : AtEnd s o s') {hp : Heap} {n tot : Nat} {tab : Sym.Tab} {r : Val} {rest : G} {cs : List (World G × Val)} :
    (o = .finished → isTokSym r = true → ITo D ev ⟨⟨hp, n, tab, s, tot, [.next], r⟩, rest, cs⟩ (.stop .error cs)) ∧
    (o = .finished → isTokSym r = false → ∃ s1, ITo D ev ⟨⟨hp, n, tab, s, tot, [.next], r⟩, rest, cs⟩ (.done ⟨⟨hp, n, tab, s1, tot, [.next], r⟩, rest, cs⟩)) ∧
    (o = .error → ITo D ev ⟨⟨hp, n, tab, s, tot, [.next], r⟩, rest, cs⟩ (.stop .error cs)) ∧
    (o = .ub → ITo D ev ⟨⟨hp, n, tab, s, tot, [.next], r⟩, rest, cs⟩ (.stop .ub cs)) := by
  induction h with
  | stop h ho =>
    refine ⟨?_, ?_, ?_, ?_⟩
    · rintro rfl hr
      refine .one ?_
      simp only [istep, h, hr, if_true]
    · rintro rfl hr
      rename_i s0 s2
      refine ⟨s0, .one ?_⟩
      simp only [istep, h, hr]
      rfl
    · rintro rfl
      refine .one ?_
      simp only [istep, h, rstep, nextStep]
      rfl
    · rintro rfl
      refine .one ?_
      simp only [istep, h, rstep, nextStep]
      rfl
  | mark h hk _ ih =>
    have h1 : ITo D ev ⟨⟨hp, n, tab, _, tot, [.next], r⟩, rest, cs⟩ (.run ⟨⟨hp, n, tab, _, tot, [.next], r⟩, rest, cs⟩) := .one (by
      rw [istep_lift (by simp) (by intro _ s'; simp only; rw [h]; intro e; cases e), mark_step h hk]
      rfl)
    exact ⟨fun a b => h1.trans (ih.1 a b), fun a b => let ⟨s1, h2⟩ := ih.2.1 a b; ⟨s1, h1.trans h2⟩, fun a => h1.trans (ih.2.2.1 a), fun a => h1.trans (ih.2.2.2 a)⟩

theorem stops_why {m : RS} (h : Stops D m) : ∃ n r y, rrun D n m = r ∧ r.why = some y := by
  rcases h with ⟨n, h⟩ | ⟨n, h⟩ | ⟨n, h⟩
  · exact ⟨_, _, .error, h, rfl⟩
  · exact ⟨_, _, .ub, h, rfl⟩
  · exact ⟨_, _, .unmodelled, h, rfl⟩

theorem why_of_to {m q : RS} {n : Nat} {r : RRes} {y : Why} (h1 : To D m (.run q)) (h2 : rrun D n m = r) (hw : r.why = some y) : ∃ k, rrun D k q = r := by
  obtain ⟨j, h1⟩ := h1
  have h3 : rrun D (n + (j + 1)) m = r := by
    rw [rrun_add, h2]
    cases r <;> first | rfl | cases hw
  rw [show n + (j + 1) = (j + 1) + n by omega, rrun_add, h1] at h3
  exact ⟨n, h3⟩

/-- The reader stops when the next expression is read. -/
theorem ito_stops {s : Stream} (hs : s.ended = true) {hp : Heap} {n tot : Nat} {tab : Sym.Tab} {r : Val} {rest : G} {cs : List (World G × Val)} (ht : tot ≠ 0)
    (h : Stops D ⟨hp, n, tab, s, tot, [.next], r⟩) : (∃ s1, AtEnd s .finished s1) ∨
    ∃ y, y ≠ .failed ∧ ITo D ev ⟨⟨hp, n, tab, s, tot, [.next], r⟩, rest, cs⟩ (.stop y cs) := by
  rcases next_or_end _ s hs (Nat.le_refl _) with ⟨k, s', hn⟩ | ⟨s', hn | hn | hn⟩
  · right
    have h1 := ito_next (D := D) (ev := ev) hn (hp := hp) (n := n) (tot := tot) (tab := tab) (K := []) (r := r) (rest := rest) (cs := cs) (m0 := ⟨hp, n, tab, s, tot, [.next], r⟩)
    have h2 := to_next (D := D) (tot := tot) hn (hp := hp) (n := n) (tab := tab) (K := []) (r := r)
    obtain ⟨j, x, y, h3, h4⟩ := stops_why h
    generalize hx : tokStep D ⟨hp, n, tab, s', tot, [.next], r⟩ [] k = z at h1 h2
    cases z with
    | run q =>
      obtain ⟨j', h5⟩ := why_of_to h2 h3 h4
      obtain ⟨_, pre, h6, h7⟩ := tok_facts hx
      have hl : LastOk q.K := by
        rw [h6, List.append_nil]
        exact h7 (by simpa using next_not_mark hn)
      exact ⟨y, (lift_why (s := (⟨q, rest, cs⟩ : IS G)) h4).2, h1.trans (ito_stop j' q x y hl h5 h4)⟩
    | done q =>
      obtain ⟨j', h2⟩ := h2
      exact (not_stops h h2).elim
    | error => exact ⟨.error, by decide, h1⟩
    | ub => exact ⟨.ub, by decide, h1⟩
    | unmodelled => exact ⟨.unmodelled, by decide, h1⟩
  · exact .inl ⟨s', hn⟩
  · exact .inr ⟨.error, by decide, (ito_end hn).2.2.1 rfl⟩
  · exact .inr ⟨.ub, by decide, (ito_end hn).2.2.2 rfl⟩

/-! ## The loop -/

/-- `Outcome` for a stream. -/
inductive OutS (D : Dev) (ev : Evaluator G) (s : Stream) (cs : List (World G × Val)) (w : World G) (v : Val) : IRes G → Prop
  | done {d s1} : AtEnd s .finished s1 → isTokSym v = false → d.world = w → d.m.r = v → d.calls = cs → OutS D ev s cs w v (.done d)
  | mark {s1} : AtEnd s .finished s1 → isTokSym v = true → OutS D ev s cs w v (.stop .error cs)
  | failed {p x w1 a s1} : Took s p s1 → s1.ended = true → Item D true [tCloseArray] p x → w1.rest = w.rest → w.nxt ≤ w1.nxt → Old w.nxt w.h w1.h → Later w.tab w1.tab → Means w1.tab w1.h a x →
      ev w1 a = none → OutS D ev s cs w v (.stop .failed (cs ++ [(w1, a)]))
  | stopped {y} : y ≠ .failed → (∀ s1, ¬ AtEnd s .finished s1) → (∀ p x s1 tab', Took s p s1 → Item D true [tCloseArray] p x → ¬ Enters w.tab p tab') → OutS D ev s cs w v (.stop y cs)

/-- The state in which the next expression is to be read. -/
def between (w : World G) (s : Stream) (tot : Nat) (v : Val) (cs : List (World G × Val)) : IS G := ⟨⟨w.h, w.nxt, w.tab, s, tot, [.next], v⟩, w.rest, cs⟩

theorem go_item {tot : Nat} {p : List Token} {x : X} (h : Item D true [tCloseArray] p x) : GoI D tot true [tCloseArray] p x := by
  cases h with
  | expr h => exact goI_expr (go_expr h)
  | stray h1 h2 h3 => exact goI_stray h1 h2 h3

theorem atEnd_not_next {s s1 s2 : Stream} {o : Tok.Out} {k : Token} (h1 : AtEnd s o s1) (h2 : Next s k s2) : False := by
  induction h1 with
  | stop h ho =>
    cases h2 with
    | tok h' _ => rw [h] at h'; cases h'; exact ho _ rfl
    | mark h' _ _ => rw [h] at h'; cases h'; exact ho _ rfl
  | mark h hk _ ih =>
    cases h2 with
    | tok h' hk' => rw [h] at h'; cases h'; rw [hk] at hk'; cases hk'
    | mark h' _ h2 => rw [h] at h'; cases h'; exact ih h2

theorem next_unique {s s1 s2 : Stream} {k k' : Token} (h1 : Next s k s1) (h2 : Next s k' s2) : k = k' := by
  induction h1 with
  | tok h hk =>
    cases h2 with
    | tok h' _ => rw [h] at h'; cases h'; rfl
    | mark h' hk' _ => rw [h] at h'; cases h'; rw [hk] at hk'; cases hk'
  | mark h hk _ ih =>
    cases h2 with
    | tok h' hk' => rw [h] at h'; cases h'; rw [hk] at hk'; cases hk'
    | mark h' _ h2 => rw [h] at h'; cases h'; exact ih h2

/-- One expression has been read. -/
theorem item_step {tot : Nat} {w : World G} {s s' : Stream} {v a : Val} {cs : List (World G × Val)} {h' : Heap} {n' : Nat} {tab' : Sym.Tab} (ht : tot ≠ 0)
    (hto : To D ⟨w.h, w.nxt, w.tab, s, tot, [.next], v⟩ (.run ⟨h', n', tab', s', tot, [], a⟩)) (ha : a ≠ symClosePar) (hd : a ≠ symDot) :
    (∀ w2 v2, ev ⟨h', n', tab', w.rest⟩ a = some (w2, v2) → ITo D ev (between w s tot v cs) (.run (between w2 s' tot v2 (cs ++ [(⟨h', n', tab', w.rest⟩, a)])))) ∧
    (ev ⟨h', n', tab', w.rest⟩ a = none → ITo D ev (between w s tot v cs) (.stop .failed (cs ++ [(⟨h', n', tab', w.rest⟩, a)]))) := by
  obtain ⟨n, hto⟩ := hto
  have h1 : ITo D ev (between w s tot v cs) _ := ito_run (rest := w.rest) (cs := cs) n ⟨w.h, w.nxt, w.tab, s, tot, [.next], v⟩ _ ht hto
  constructor
  · intro w2 v2 he
    refine h1.trans (.one ?_)
    simp only [istep, if_neg ha, if_neg hd, IS.world, he]
    rfl
  · intro he
    refine h1.trans (.one ?_)
    simp only [istep, if_neg ha, if_neg hd, IS.world, he]

theorem not_mark_ne {a : Val} (h : isTokSym a = false) : a ≠ symClosePar ∧ a ≠ symDot := by
  constructor <;> (rintro rfl; cases h)

theorem incr_loop {tot : Nat} (ht : tot ≠ 0) (hev : ev.Orderly) (N : Nat) : ∀ (s : Stream), s.ended = true → s.avail.length ≤ N → ∀ (w : World G) (v : Val) (cs : List (World G × Val)), Sym.Inv w.tab →
    ∃ res ps xs cs' w' v' s', ITo D ev (between w s tot v cs) res ∧ Evals D ev w v ps xs cs' w' v' ∧ Took s ps.flatten s' ∧ s'.ended = true ∧ OutS D ev s' (cs ++ cs') w' v' res := by
  induction N using Nat.strongRecOn with
  | ind N ih =>
    intro s hs hN w v cs hi
    -- an expression has been read
    have step : ∀ {p x s' h' n' tab' a}, Item D true [tCloseArray] p x → Took s p s' → s'.ended = true → s'.avail.length < s.avail.length → w.nxt ≤ n' → Old w.nxt w.h h' → Later w.tab tab' →
        Means tab' h' a x → a ≠ symClosePar → a ≠ symDot → To D ⟨w.h, w.nxt, w.tab, s, tot, [.next], v⟩ (.run ⟨h', n', tab', s', tot, [], a⟩) →
        ∃ res ps xs cs' w' v' s', ITo D ev (between w s tot v cs) res ∧ Evals D ev w v ps xs cs' w' v' ∧ Took s ps.flatten s' ∧ s'.ended = true ∧ OutS D ev s' (cs ++ cs') w' v' res := by
      intro p x s' h' n' tab' a h1 h2 h3 h4 h5 h6 h7 h8 ha hd hto
      obtain ⟨e1, e2⟩ := item_step (ev := ev) (w := w) (cs := cs) ht hto ha hd
      cases he : ev ⟨h', n', tab', w.rest⟩ a with
      | none =>
        refine ⟨_, [], [], [], w, v, s, e2 he, .nil, rfl, hs, ?_⟩
        rw [List.append_nil]
        exact .failed h2 h3 h1 rfl h5 h6 h7 h8 he
      | some y =>
        obtain ⟨w2, v2⟩ := y
        obtain ⟨res, ps, xs, cs', w', v', s'', f1, f2, f3, f4, f5⟩ := ih _ (by omega) s' h3 (Nat.le_refl _) w2 v2 (cs ++ [(⟨h', n', tab', w.rest⟩, a)]) (hev _ _ _ _ he h7.inv)
        refine ⟨res, p :: ps, x :: xs, (⟨h', n', tab', w.rest⟩, a) :: cs', w', v', s'', (e1 _ _ he).trans f1, .cons h1 rfl h5 h6 h7 h8 he f2, ?_, f4, ?_⟩
        · rw [List.flatten_cons]
          exact h2.append f3
        · rw [List.append_assoc] at f5
          exact f5
    -- the end of the text
    have ends : ∀ {s1}, AtEnd s .finished s1 →
        ∃ res ps xs cs' w' v' s', ITo D ev (between w s tot v cs) res ∧ Evals D ev w v ps xs cs' w' v' ∧ Took s ps.flatten s' ∧ s'.ended = true ∧ OutS D ev s' (cs ++ cs') w' v' res := by
      intro s1 he
      cases hv : isTokSym v with
      | true =>
        refine ⟨_, [], [], [], w, v, s, (ito_end he).1 rfl hv, .nil, rfl, hs, ?_⟩
        rw [List.append_nil]
        exact .mark he hv
      | false =>
        obtain ⟨s2, h2⟩ := (ito_end (D := D) (ev := ev) he (hp := w.h) (n := w.nxt) (tot := tot) (tab := w.tab) (r := v) (rest := w.rest) (cs := cs)).2.1 rfl hv
        refine ⟨_, [], [], [], w, v, s, h2, .nil, rfl, hs, ?_⟩
        rw [List.append_nil]
        exact .done he hv rfl rfl rfl
    cases (got_all (D := D) ht N).1 s hs hN w.tab w.h w.nxt [] v hi (fun _ e => by cases e) with
    | @stray k sid s' hk hn hto =>
      obtain ⟨n1, n2⟩ := next_facts hn hs
      by_cases h4 : k = tCloseArray
      · subst h4
        cases hk
        exact step (.stray rfl (by simp) rfl) ⟨s', hn, rfl⟩ n1 n2 (Nat.le_refl _) (fun _ _ _ => rfl) (.refl hi) ⟨trivial, .sym⟩ (by decide) (by decide) hto
      · -- a closing bracket or a dot
        have hend : Ender k ∧ (Val.sym sid = symClosePar ∨ Val.sym sid = symDot) := by
          revert hk h4
          unfold strayOf
          split
          · intro h _; cases h; exact ⟨.inl rfl, .inl rfl⟩
          · intro h _; cases h; exact ⟨.inr (.inl rfl), .inl rfl⟩
          · intro _ h; exact absurd rfl h
          · intro h _; cases h; exact ⟨.inr (.inr rfl), .inr rfl⟩
          · intro h; cases h
        obtain ⟨j, hto⟩ := hto
        have h1 : ITo D ev (between w s tot v cs) _ := ito_run (rest := w.rest) (cs := cs) j ⟨w.h, w.nxt, w.tab, s, tot, [.next], v⟩ _ ht hto
        refine ⟨.stop .error cs, [], [], [], w, v, s, h1.trans (.one ?_), .nil, rfl, hs, ?_⟩
        · simp only [istep]
          rcases hend.2 with h | h
          · rw [h, if_pos rfl]
          · rw [h, if_neg (by decide), if_pos rfl]
        · rw [List.append_nil]
          refine .stopped (by decide) (fun s1 he => atEnd_not_next he hn) ?_
          rintro p x s1 tab' hp hx _
          obtain ⟨k', ts, rfl, hk'⟩ := item_head hx
          obtain ⟨s3, h3, _⟩ := hp
          exact hk' (next_unique h3 hn ▸ hend.1)
    | expr h1 h2 h3 h4 h5 hto =>
      obtain ⟨ha, hd⟩ := not_mark_ne h5.mark
      exact step (.expr h1) h2 h3 h4 h5.le h5.old h5.later ⟨h5.known, h5.built _ fun _ _ _ => rfl⟩ ha hd hto
    | eof he _ => exact ends he
    | stops hst =>
      rcases ito_stops (ev := ev) hs ht hst (rest := w.rest) (cs := cs) with ⟨s1, he⟩ | ⟨y, hy, hto⟩
      · exact ends he
      · by_cases he : ∃ s1, AtEnd s .finished s1
        · obtain ⟨s1, he⟩ := he
          exact ends he
        · refine ⟨_, [], [], [], w, v, s, hto, .nil, rfl, hs, ?_⟩
          rw [List.append_nil]
          refine .stopped hy (fun s1 h => he ⟨s1, h⟩) ?_
          intro p x s1 tab' hp hx hen
          obtain ⟨h', n', v', hto', _⟩ := go_item (tot := tot) hx s s1 w.tab tab' w.h w.nxt [] v hp hen hi
          obtain ⟨j, hj⟩ := hto'.trans (.one (show rstep D ⟨h', n', tab', s1, tot, [], v'⟩ = .done _ from rfl))
          exact not_stops hst hj

/-! ## The property -/

/-- Every run of `(read-eval-program text)` evaluates expressions with which the text begins, in their order, each in the world that the one before has left, and ends in one of four ways: with the value of
the last one at the end of the text, with an error because that value is a symbol of the reader, with the first evaluation that has no result, or where the text goes on with something that is no expression. -/
theorem C104_incremental {extMax : Nat} (hm : extMax ≤ 0x10000) {w : World G} (hr : Sym.Reach extMax w.tab) (hev : ev.Orderly) {text : List Byte} {ts : List Token} {o : Tok.Out} (htok : Tokens text ts o) :
    ∃ n res ps xs cs w' v' rest, irun D ev n (incrStart w text) = res ∧ ts = ps.flatten ++ rest ∧ Evals D ev w (.sym 0) ps xs cs w' v' ∧ Outcome D ev rest o cs w' v' res := by
  have hi := hr.inv hm
  obtain ⟨raw, hlex, rfl⟩ := htok
  by_cases he : cstr text = []
  · rw [he] at hlex
    have h1 : Tok.Lexes ⟨[], true, false⟩ [] .finished := .stop (s' := ⟨[], true, false⟩) rfl (fun _ h => by cases h)
    obtain ⟨rfl, rfl⟩ := Tok.Lexes.unique hlex h1
    refine ⟨1, .done (incrStart w text), [], [], [], w, .sym 0, [], ?_, rfl, .nil, .done rfl rfl rfl rfl rfl rfl⟩
    have : istep D ev (incrStart w text) = .done (incrStart w text) := by
      unfold incrStart istep
      simp only [he]
      rfl
    simp only [irun, this]
  · have ht : (cstr text).length ≠ 0 := by simpa using he
    obtain ⟨res, ps, xs, cs, w', v', s', ⟨n, h1⟩, h2, h3, h4, h5⟩ := incr_loop (D := D) (ev := ev) ht hev _ ⟨cstr text, true, false⟩ rfl (Nat.le_refl _) w (.sym 0) [] hi
    obtain ⟨raw1, hr1⟩ : ∃ raw1, raw1 = Tok.lexN (s'.avail.length + 1) s' := ⟨_, rfl⟩
    have hl1 := Tok.lexN_lexes (s'.avail.length + 1) s' h4 (by omega)
    rw [← hr1] at hl1
    obtain ⟨raw2, h6, h7⟩ := lexes_raw h3 hl1
    obtain ⟨rfl, rfl⟩ := Tok.Lexes.unique hlex h6
    refine ⟨n + 1, res, ps, xs, cs, w', v', raw1.1.filter (!isMark ·), h1, h7, h2, ?_⟩
    rw [List.nil_append] at h5
    cases h5 with
    | done c1 c2 c3 c4 c5 =>
      obtain ⟨raw3, d1, d2⟩ := lexes_end c1
      obtain ⟨e1, e2⟩ := Tok.Lexes.unique hl1 d1
      exact .done (by rw [e1]; exact d2) e2 c2 c3 c4 c5
    | mark c1 c2 =>
      obtain ⟨raw3, d1, d2⟩ := lexes_end c1
      obtain ⟨e1, e2⟩ := Tok.Lexes.unique hl1 d1
      exact .mark (by rw [e1]; exact d2) e2 c2
    | @failed p x w1 a s1 c1 c2 c3 c4 c5 c6 c7 c8 c9 =>
      have hl2 := Tok.lexN_lexes (s1.avail.length + 1) s1 c2 (by omega)
      obtain ⟨raw3, d1, d2⟩ := lexes_raw c1 hl2
      obtain ⟨e1, e2⟩ := Tok.Lexes.unique hl1 d1
      exact .failed (rest' := (Tok.lexN (s1.avail.length + 1) s1).1.filter (!isMark ·)) (by rw [e1]; exact d2) c3 c4 c5 c6 c7 c8 c9
    | stopped c1 c2 c3 =>
      refine .stopped c1 ?_ ?_
      · rintro ⟨d1, d2⟩
        rw [d2] at hl1
        obtain ⟨s1, d3⟩ := end_of_lexes hl1 d1
        exact c2 s1 d3
      · intro p x rest' tab' d1 d2 d3
        obtain ⟨s1, raw3, d4, _, _⟩ := took_of_lexes hl1 d1
        exact c3 p x s1 tab' d4 d2 d3

theorem un_items {p p' r r' : List Token} {x x' : X} (h : Item D true [tCloseArray] p x) (h' : Item D true [tCloseArray] p' x') (e : p ++ r = p' ++ r') : p = p' ∧ x = x' ∧ r = r' := by
  cases h with
  | expr h => exact un_item h (un_expr h) _ _ _ _ h' e
  | stray h1 h2 h3 => exact un_stray h3 _ _ _ _ h' e

theorem evals_seq {w w' : World G} {v v' : Val} {ps : List (List Token)} {xs : List X} {cs : List (World G × Val)} (h : Evals D ev w v ps xs cs w' v') : ∀ {ts rest : List Token} {ys : List X},
    Seq D true ts ys → ts = ps.flatten ++ rest → ∃ zs, ys = xs ++ zs ∧ Seq D true rest zs := by
  induction h with
  | nil =>
    intro ts rest ys hs e
    rw [List.flatten_nil, List.nil_append] at e
    exact ⟨ys, rfl, e ▸ hs⟩
  | cons h1 _ _ _ _ _ _ _ ih =>
    intro ts rest ys hs e
    rw [List.flatten_cons, List.append_assoc] at e
    cases hs with
    | nil =>
      obtain ⟨k, t, rfl, _⟩ := item_head h1
      cases e
    | cons hi hs =>
      obtain ⟨_, rfl, e⟩ := un_items hi h1 e
      obtain ⟨zs, rfl, h4⟩ := ih hs e
      exact ⟨zs, rfl, h4⟩

theorem seq_loosen {ts : List Token} {xs : List X} (h : Seq D false ts xs) : Seq D true ts xs := by
  have : ∀ {xs : List X} {ts : List Token}, Seq D false ts xs → Seq D true ts xs := by
    intro xs
    induction xs with
    | nil => intro ts h; cases h; exact .nil
    | cons x xs ih =>
      intro ts h
      cases h with
      | cons hi hs =>
        refine .cons ?_ (ih hs)
        cases hi with
        | expr h => exact .expr (expr_loosen h)
        | stray h => cases h
  exact this h

/-- No name in the text is that of an extension that might not exist. -/
def NoExt (ts : List Token) : Prop := ∀ x, Token.symbol x ∈ ts → x.take 4 ≠ ascii "ext-"

/-- A text that is a sequence of expressions `ys`, the same ones that `read-program` gives for it (`C91_program_accepts`): they are evaluated one by one. Either all are evaluated and the result is the value
of the last one, or an evaluation has no result and no later expression is evaluated, or the last value is a symbol of the reader and this is taken for an error. -/
theorem C104_program {extMax : Nat} (hm : extMax ≤ 0x10000) {w : World G} (hr : Sym.Reach extMax w.tab) (hev : ev.Orderly) {text : List Byte} {ts : List Token} {ys : List X}
    (htok : Tokens text ts .finished) (hx : Seq D false ts ys) (hn : NoExt ts) :
    ∃ n res ps xs cs w' v', irun D ev n (incrStart w text) = res ∧ Evals D ev w (.sym 0) ps xs cs w' v' ∧
      ((xs = ys ∧ isTokSym v' = false ∧ ∃ s, res = .done s ∧ s.world = w' ∧ s.m.r = v' ∧ s.calls = cs) ∨
       (xs = ys ∧ isTokSym v' = true ∧ res = .stop .error cs) ∨
       ∃ x zs w1 a, ys = xs ++ x :: zs ∧ w1.rest = w'.rest ∧ Old w'.nxt w'.h w1.h ∧ Means w1.tab w1.h a x ∧ ev w1 a = none ∧ res = .stop .failed (cs ++ [(w1, a)])) := by
  obtain ⟨n, res, ps, xs, cs, w', v', rest, h1, h2, h3, h4⟩ := C104_incremental (D := D) (ev := ev) hm hr hev htok
  obtain ⟨zs, hz, hs⟩ := evals_seq h3 (seq_loosen hx) h2
  refine ⟨n, res, ps, xs, cs, w', v', h1, h3, ?_⟩
  cases h4 with
  | @done s c1 c2 c3 c4 c5 c6 =>
    left
    subst c1
    have : zs = [] := by
      cases zs with
      | nil => rfl
      | cons z zs =>
        generalize ht : ([] : List Token) = t at hs
        cases hs with
        | cons hi _ =>
          obtain ⟨k, t, rfl, _⟩ := item_head hi
          cases ht
    rw [this, List.append_nil] at hz
    exact ⟨hz.symm, c3, s, rfl, c4, c5, c6⟩
  | mark c1 c2 c3 =>
    right; left
    subst c1
    have : zs = [] := by
      cases zs with
      | nil => rfl
      | cons z zs =>
        generalize ht : ([] : List Token) = t at hs
        cases hs with
        | cons hi _ =>
          obtain ⟨k, t, rfl, _⟩ := item_head hi
          cases ht
    rw [this, List.append_nil] at hz
    exact ⟨hz.symm, c3, rfl⟩
  | @failed p x w1 a rest' c1 c2 c3 c4 c5 c6 c7 c8 =>
    right; right
    subst c1
    generalize ht : p ++ rest' = t at hs
    cases hs with
    | nil =>
      obtain ⟨k, t, rfl, _⟩ := item_head c2
      cases ht
    | cons hi _ =>
      obtain ⟨_, rfl, _⟩ := un_items c2 hi ht
      exact ⟨_, _, w1, a, hz, c3, c5, c7, c8, rfl⟩
  | stopped c1 c2 c3 =>
    exfalso
    have inv' : ∀ {w v ps xs cs w' v'}, Evals D ev w v ps xs cs w' v' → Sym.Inv w.tab → Sym.Inv w'.tab := by
      intro w v ps xs cs w' v' h
      induction h with
      | nil => exact id
      | cons _ _ _ _ hl _ he _ ih => exact fun _ => ih (hev _ _ _ _ he hl.inv)
    have hi' := inv' h3 (hr.inv hm)
    cases hs with
    | nil => exact c2 ⟨rfl, rfl⟩
    | @cons p rest' x zs hi hs =>
      obtain ⟨raw, hlex, hf⟩ := htok
      obtain ⟨s1, raw1, d1, d2, d3⟩ := took_of_lexes (ts := ps.flatten) (ts' := p ++ rest') hlex (by rw [← hf, h2])
      obtain ⟨s2, raw2, d4, _, _⟩ := took_of_lexes (ts := p) (ts' := rest') d2 d3
      have hfit : NamesFit w'.tab p := by
        intro y hy hy4
        exact absurd hy4 (hn y (by rw [h2]; simp [hy]))
      obtain ⟨tab', hen⟩ := enters_of_fit hi' d4 hfit
      exact c3 p x rest' tab' rfl hi hen

/-! ## Witnesses -/

/-- An evaluator for the examples: a number and a symbol are their own values, a list `(quote x)` has the value `x`, everything else has no value. It counts its calls. -/
def demoEv : Evaluator Nat := fun w a =>
  match a with
  | .imm .. | .sym _ => some ({ w with rest := w.rest + 1 }, a)
  | .ptr .cons k i =>
    match w.h k i with
    | .pair (.sym 0x100) (.ptr .cons k' j) =>
      match w.h k' j with
      | .pair x _ => some ({ w with rest := w.rest + 1 }, x)
      | _ => none
    | _ => none
  | _ => none

theorem demoEv_orderly : demoEv.Orderly := by
  intro w a w' v h hi
  unfold demoEv at h
  split at h
  · cases h; exact hi
  · cases h; exact hi
  · split at h
    · split at h
      · cases h; exact hi
      · cases h
    · cases h
  · cases h

/-- The world of the examples. -/
def demoWorld : World Nat := ⟨demoHeap, 20, demoTab, 0⟩

/-- What comes out for a text: how it ends, with which value, and the values that were evaluated. -/
def incrAs (text : String) : Option Why × Option Val × List Val :=
  match irun demoDev demoEv 200 (incrStart demoWorld (ascii text)) with
  | .done s => (none, some s.m.r, s.calls.map (·.2))
  | .stop y cs => (some y, none, cs.map (·.2))
  | .run s => (none, none, s.calls.map (·.2))

/-- A lone `]` is evaluated: it is read as a symbol that the reader uses for itself. -/
theorem C104_stray_bracket_violated : incrAs "] 1" = (none, some (.imm .i 1), [.sym 0x81, .imm .i 1]) := by decide +kernel

/-- All expressions have been evaluated, and there is an error because the last one has a symbol of the reader as its value. -/
theorem C104_last_value_violated : incrAs "1 ']" = (some .error, none, [.imm .i 1, .ptr .cons false 21]) := by decide +kernel

/-- A text that is not well formed at its end has been evaluated up to there; `read-program` ends with the same text as if it were complete. -/
theorem C104_rest_not_ignored : incrAs "1 ) 2 (" = (some .error, none, [.imm .i 1]) ∧ readsAs true "1 ) 2 (" = some [.imm .i 1] := by decide +kernel

/-- Two numbers are evaluated before the end of the text turns out to be missing. -/
example : incrAs "1 2 (3" = (some .error, none, [.imm .i 1, .imm .i 2]) := by decide +kernel
example : incrAs "1 (2) 3" = (some .failed, none, [.imm .i 1, .ptr .cons false 20]) := by decide +kernel
example : incrAs "1 2" = (none, some (.imm .i 2), [.imm .i 1, .imm .i 2]) := by decide +kernel

/-- The hypotheses of `C104_incremental` hold for every text over the demo world. -/
example (text : List Byte) : ∃ n res ps xs cs w' v' rest, irun demoDev demoEv n (incrStart demoWorld text) = res ∧ (Tok.lexAll (cstr text)).1.filter (!isMark ·) = ps.flatten ++ rest ∧
    Evals demoDev demoEv demoWorld (.sym 0) ps xs cs w' v' ∧ Outcome demoDev demoEv rest (Tok.lexAll (cstr text)).2 cs w' v' res :=
  C104_incremental (by decide) demo_reach demoEv_orderly ⟨_, Tok.lexAll_lexes _, rfl⟩

/-- Those of `C104_program` hold for the program of `C91`. -/
example := C104_program (ev := demoEv) (w := demoWorld) (by decide) demo_reach demoEv_orderly demo_tokens demo_seq (by
  intro x hx he
  simp [tOpen, tDot, tOpenArray, tCloseArray, tClose, tOpenBlock, tCloseBlock] at hx
  rcases hx with rfl | rfl <;> exact absurd he (by decide))

end Verif.Print
