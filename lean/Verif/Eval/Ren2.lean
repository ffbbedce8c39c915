import Verif.Eval.Ren

/-!
# Evaluation does not depend on the addresses of cells: the steps of the machine
-/

namespace Verif.Eval

variable {ρ ρ' : Ren}

theorem ro_ite {p p' : Prop} [Decidable p] [Decidable p'] {a a' b b' : Out} (hp : p ↔ p') (h1 : p → p' → RO ρ a a') (h2 : ¬ p → ¬ p' → RO ρ b b') :
    RO ρ (if p then a else b) (if p' then a' else b') := by
  by_cases c : p
  · rw [if_pos c, if_pos (hp.1 c)]; exact h1 c (hp.1 c)
  · rw [if_neg c, if_neg (fun e => c (hp.2 e))]; exact h2 c (fun e => c (hp.2 e))

theorem unwind_k (m : M) (e : V) (n : Nat) (K : List W) (hn : n ≠ 45) : unwind m e (.k n :: K) = unwind m e K := by
  conv => lhs; unfold unwind
  split <;> simp_all

section
variable {m m' : M} (h : RM ρ m m')
include h

theorem RM.unwind {e e' : V} (he : RV ρ e e') {K K' : List W} (hK : RK ρ K K') : RO ρ (unwind m e K) (unwind m' e' K') := by
  induction hK with
  | nil => exact ROut.ro (.fin h.st (.sym _))
  | cons hw hK ih =>
    cases hw with
    | v hx => exact ih
    | raw => exact ih
    | junk => exact RO.ub
    | k n =>
      by_cases hn : n = 45
      · subst hn
        rcases hK with _ | ⟨(_ | _ | _ | _), _ | ⟨(h2 | _ | _ | _), hK⟩⟩ <;> first | exact RO.ub | skip
        exact RM.next ⟨h.st.setCar h2 (.sym _), .cons (.k _) (.cons (.raw _) (.cons (.v h2) hK)), he, h.exp, h.env, h.program, rfl, h.flags⟩
      · rw [unwind_k _ _ _ _ hn, unwind_k _ _ _ _ hn]; exact ih

theorem RM.raise {e e' : V} (he : RV ρ e e') : RO ρ (raise m e) (raise m' e') := by
  unfold Verif.Eval.raise
  rw [← h.flags]
  refine ro_ite Iff.rfl (fun _ _ => ROut.ro (.fin h.st he)) (fun _ _ => ?_)
  refine ro_ite ?_ (fun _ _ => h.unwind he h.K) (fun _ _ => ROut.ro (.fin h.st he))
  simp only [Bool.and_eq_true, decide_eq_true_eq, ne_eq, he.eq_sym]

theorem RM.raiseSym (n : Nat) : RO ρ (Verif.Eval.raise m (.sym n)) (Verif.Eval.raise m' (.sym n)) := h.raise (.sym n)

theorem RM.ret {v v' : V} (hv : RV ρ v v') : RO ρ (m.ret v) (m'.ret v') :=
  RM.next ⟨h.st, h.K, hv, h.exp, h.env, h.program, rfl, h.flags⟩

theorem RM.go {e e' env env' : V} (he : RV ρ e e') (hv : RV ρ env env') : RO ρ (m.go e env) (m'.go e' env') :=
  RM.next ⟨h.st, h.K, h.r, he, hv, h.program, rfl, h.flags⟩

theorem RM.setK {K K' : List W} (hK : RK ρ K K') : RM ρ { m with K := K } { m' with K := K' } :=
  ⟨h.st, hK, h.r, h.exp, h.env, h.program, h.app, h.flags⟩

theorem RM.upd {s s' : St} {K K' : List W} (hl : ρ.Le ρ') (hs : RS ρ' s s') (hK : RK ρ' K K') :
    RM ρ' { m with st := s, K := K } { m' with st := s', K := K' } :=
  ⟨hs, hK, h.r.le hl, h.exp.le hl, h.env.le hl, h.program.le hl, h.app, h.flags⟩

theorem RM.setSt {s s' : St} (hl : ρ.Le ρ') (hs : RS ρ' s s') : RM ρ' { m with st := s } { m' with st := s' } :=
  ⟨hs, h.K.le hl, h.r.le hl, h.exp.le hl, h.env.le hl, h.program.le hl, h.app, h.flags⟩

theorem ro_reserve {sz : Option Nat} {ws ws' : List W} {c c' : M → Out} (hw : RK ρ ws ws')
    (hc : RM ρ { m with K := ws ++ m.K } { m' with K := ws' ++ m'.K } → RO ρ (c { m with K := ws ++ m.K }) (c' { m' with K := ws' ++ m'.K })) :
    RO ρ (reserve sz m ws c) (reserve sz m' ws' c') := by
  unfold reserve
  rw [← h.K.length, ← hw.length]
  exact ro_ite Iff.rfl (fun _ _ => hc (h.setK (hw.append h.K))) (fun _ _ => h.raise (.sym _))

theorem ro_evalSymbol (n : Nat) : RO ρ (evalSymbol m n) (evalSymbol m' n) := by
  unfold evalSymbol
  refine ro_ite Iff.rfl (fun _ _ => ?_) (fun _ _ => h.ret (.sym n))
  cases h1 : m.st.lookup (.sym n) (m.st.next + 1) m.env with
  | none => exact RO.ub
  | some o =>
    obtain ⟨o', e', ho⟩ := h.st.lookup (.sym n) (Nat.succ_le_succ h.st.next) h.env h1
    rw [e']
    cases ho with
    | some hv => exact h.ret hv
    | none =>
      simp only
      cases h2 : m.st.glookup n with
      | none => exact RO.ub
      | some o =>
        obtain ⟨o', e', ho⟩ := h.st.glookup h2
        rw [e']
        cases ho with
        | some hv => exact h.ret hv
        | none => exact h.raise (.sym _)

theorem ro_evalQuote : RO ρ (evalQuote m) (evalQuote m') := by
  unfold evalQuote
  rcases ropt_cases (h.st.gcadr h.exp) with ⟨e1, e2⟩ | ⟨d, d', e1, e2, hd⟩
  · rw [e1, e2]; exact h.raise (.sym _)
  · rw [e1, e2]; exact h.ret hd

variable (sz : Option Nat) (P : Prims)

theorem ro_evalProgn : RO ρ (evalProgn sz m) (evalProgn sz m') := by
  unfold evalProgn
  rcases ropt_cases (h.st.gcdr h.exp) with ⟨e1, e2⟩ | ⟨d, d', e1, e2, hd⟩
  · rw [e1, e2]; exact h.raise (.sym _)
  · rw [e1, e2]
    cases hd with
    | cons hc =>
      refine ro_ite (by rw [(h.st.cdr hc).isCons]) (fun _ _ => ?_) (fun _ _ => h.go (h.st.car hc) h.env)
      refine ro_reserve h (.cons (.k 4) (.cons (.v (h.st.cdr hc)) (.cons (.v (.u 0)) (.cons (.v h.env) .nil)))) (fun h1 => ?_)
      exact h1.go (h.st.car hc) h.env
    | sym n =>
      obtain _ | n := n
      · exact h.ret (.sym 0)
      · exact h.raise (.sym _)
    | _ => exact h.raise (.sym _)

theorem ro_evalCallcc : RO ρ (evalCallcc sz m) (evalCallcc sz m') := by
  unfold evalCallcc
  refine ro_reserve h (.cons (.v (by rw [h.st.atomic]; split <;> exact .sym _)) .nil) (fun h1 => ?_)
  obtain ⟨ρ1, l1, a1, a2⟩ := h1.st.kont h1.K
  obtain ⟨ρ2, l2, b1, b2⟩ := a1.cons (.sym 0x10E) a2
  obtain ⟨ρ3, l3, c1, c2⟩ := b1.cons b2 (.sym 0)
  have le := (l1.trans l2).trans l3
  refine RO.le ?_ le
  refine ro_reserve (h1.upd le c1 (.cons (.v (h1.env.le le)) (h1.K.tail.le le))) (.cons (.k 10) (.cons (.v c2) .nil)) (fun h2 => ?_)
  show RO ρ3 (match St.gcadr _ _ with | none => _ | some f => _) (match St.gcadr _ _ with | none => _ | some f => _)
  rcases ropt_cases (h2.st.gcadr h2.exp) with ⟨e1, e2⟩ | ⟨d, d', e1, e2, hd⟩
  · rw [e1, e2]; exact h2.raise (.sym _)
  · rw [e1, e2]; exact h2.go hd h2.env

theorem ro_evalAtomic : RO ρ (evalAtomic sz m) (evalAtomic sz m') := by
  unfold evalAtomic
  refine ro_ite (by rw [h.st.atomic]) (fun _ _ => (h.setSt (.refl ρ) (h.st.setAtomic false)).raise (.sym _)) (fun _ _ => ?_)
  refine ro_reserve h (.cons (.k 14) .nil) (fun h1 => ?_)
  exact ro_evalProgn (h1.setSt (.refl ρ) (h1.st.setAtomic true)) sz

theorem ro_evalDefine : RO ρ (evalDefine sz m) (evalDefine sz m') := by
  unfold evalDefine
  have hk := h.st.hd (h.st.tl h.exp)
  have hv := h.st.hd (h.st.tl (h.st.tl h.exp))
  have hr := h.st.tl (h.st.tl (h.st.tl h.exp))
  refine ro_reserve h (.cons .junk (.cons .junk .nil)) (fun h1 => ?_)
  dsimp only
  generalize m.st.hd (m.st.tl m.exp) = key at hk
  generalize m'.st.hd (m'.st.tl m'.exp) = key' at hk
  cases hk with
  | sym n =>
    refine ro_ite (hr.eq_sym 0) (fun _ _ => ?_) (fun _ _ => h1.raise (.sym _))
    refine ro_ite Iff.rfl (fun _ _ => ?_) (fun _ _ => (h1.setK (.cons .junk (.cons (.v (.sym n)) h.K))).raise (.sym _))
    refine ro_ite (by rw [h.flags]) (fun _ _ => RO.out) (fun _ _ => ?_)
    exact (h1.setK (.cons (.k 1) (.cons (.v (.sym n)) h.K))).go hv h1.env
  | _ => exact h1.raise (.sym _)

theorem ro_evalLambda : RO ρ (evalLambda m) (evalLambda m') := by
  unfold evalLambda
  obtain ⟨ρ1, l1, a1, a2⟩ := h.st.allocClosure (h.st.hd (h.st.tl h.exp)) (h.st.hd (h.st.tl (h.st.tl h.exp))) h.env
  exact RO.le ((h.setSt l1 a1).ret a2) l1

theorem ro_evalIf : RO ρ (evalIf sz m) (evalIf sz m') := by
  unfold evalIf
  rcases ropt_cases (h.st.gcdr h.exp) with ⟨e1, e2⟩ | ⟨d, d', e1, e2, hd⟩
  · rw [e1, e2]; exact h.raise (.sym _)
  · rw [e1, e2]
    refine ro_reserve h (.cons .junk (.cons .junk (.cons .junk .nil))) (fun h1 => ?_)
    dsimp only
    rcases ropt_cases (h.st.gcdr hd) with ⟨e1, e2⟩ | ⟨x, x', e1, e2, hx⟩
    · rw [e1, e2]; exact h1.raise (.sym _)
    rcases ropt_cases (h.st.gcar hd) with ⟨e3, e4⟩ | ⟨y, y', e3, e4, hy⟩
    · rw [e1, e2, e3, e4]; exact h1.raise (.sym _)
    rw [e1, e2, e3, e4]
    exact (h1.setK (.cons (.k 3) (.cons (.v h.env) (.cons (.v hx) h.K)))).go hy h.env

theorem ro_evalCond : RO ρ (evalCond sz m) (evalCond sz m') := by
  unfold evalCond
  have hc := h.st.hd (h.st.tl h.exp)
  have hr := h.st.tl (h.st.tl h.exp)
  refine ro_ite (hc.eq_sym 0) (fun _ _ => h.ret (.sym 0)) (fun _ _ => ?_)
  cases h1 : m.st.len (m.st.next + 1) (m.st.hd (m.st.tl m.exp)) with
  | none => exact RO.ub
  | some n =>
    rw [h.st.len (Nat.succ_le_succ h.st.next) hc h1]
    refine ro_ite Iff.rfl (fun _ _ => h.raise (.sym _)) (fun _ _ => ?_)
    obtain ⟨ρ1, l1, a1, a2⟩ := h.st.cons (.sym 0x110) hr
    obtain ⟨ρ2, l2, b1, b2⟩ := a1.cons a2 (.sym 0)
    obtain ⟨ρ3, l3, c1, c2⟩ := b1.cons ((h.st.hd (h.st.tl hc)).le (l1.trans l2)) b2
    have le := (l1.trans l2).trans l3
    refine RO.le ?_ le
    refine ro_reserve (h.setSt le c1) (.cons (.k 3) (.cons (.v (h.env.le le)) (.cons (.v c2) .nil))) (fun h2 => ?_)
    exact h2.go ((h.st.hd hc).le le) (h.env.le le)

theorem ro_evalAppCont : RO ρ (evalAppCont m) (evalAppCont m') := by
  unfold evalAppCont
  have hK := h.K
  generalize m.K = K at hK
  generalize m'.K = K' at hK
  cases hK with
  | nil => exact RO.ub
  | cons hw hK => exact RM.next ⟨h.st, hK, h.r, h.exp, h.env, h.program, rfl, h.flags⟩

theorem ro_letBind {binds binds' body body' : V} (hb : RV ρ binds binds') (hy : RV ρ body body') : RO ρ (letBind sz m binds body) (letBind sz m' binds' body') := by
  unfold letBind
  cases hb with
  | cons hc =>
    dsimp only
    cases h1 : letLocs m.st (m.st.next + 1) (.cons _) m.env with
    | none => exact RO.ub
    | some o =>
      rcases h.st.letLocs (Nat.succ_le_succ h.st.next) (.cons hc) h.env h1 with ⟨rfl, e⟩ | ⟨s1, env1, ρ1, s1', env1', rfl, l1, e, hs, he⟩
      · rw [e]; exact h.raise (.sym _)
      · rw [e]
        refine RO.le ?_ l1
        have hb := hs.hd (.cons (l1.c hc))
        refine ro_reserve (h.setSt l1 hs) (.cons (.k 2) (.cons (.v (hs.hd hb)) (.cons (.v he) (.cons (.v (hs.tl (.cons (l1.c hc)))) (.cons (.v (hy.le l1)) .nil))))) (fun h2 => ?_)
        exact h2.go (hs.hd (hs.tl hb)) he
  | _ => exact h.go hy h.env

theorem ro_evalLet : RO ρ (evalLet sz m) (evalLet sz m') :=
  ro_letBind h sz (h.st.hd (h.st.tl h.exp)) (h.st.hd (h.st.tl (h.st.tl h.exp)))

/-- The case of `var` in a `progn`. -/
theorem ro_evalVar_good {rest rest' : W} {penv penv' : V} {c : Nat} {K K' : List W} (hr : RW ρ rest rest') (hp : RV ρ penv penv') (hK : RK ρ K K')
    (e : m.K = .k 4 :: rest :: .v (.u c) :: .v penv :: K) (e' : m'.K = .k 4 :: rest' :: .v (.u c) :: .v penv' :: K') :
    RO ρ (evalVar sz m) (evalVar sz m') := by
  unfold evalVar
  simp only [e, e']
  have hcp : ∀ s1 p1, (if c = 0 then m.st.copySpine (m.st.next + 1) penv else some (m.st, penv)) = some (s1, p1) →
      ∃ ρ1 s1' p1', ρ.Le ρ1 ∧ (if c = 0 then m'.st.copySpine (m'.st.next + 1) penv' else some (m'.st, penv')) = some (s1', p1') ∧ RS ρ1 s1 s1' ∧ RV ρ1 p1 p1' := by
    intro s1 p1 e
    by_cases hc : c = 0
    · rw [if_pos hc] at e ⊢
      exact h.st.copySpine (Nat.succ_le_succ h.st.next) hp e
    · rw [if_neg hc] at e ⊢
      cases e
      exact ⟨ρ, _, _, .refl ρ, rfl, h.st, hp⟩
  revert hcp
  generalize (if c = 0 then m.st.copySpine (m.st.next + 1) penv else some (m.st, penv)) = x
  generalize (if c = 0 then m'.st.copySpine (m'.st.next + 1) penv' else some (m'.st, penv')) = x'
  generalize (if c = 0 then 1 else c) = c1
  intro hcp
  cases x with
  | none => exact RO.ub
  | some q =>
    obtain ⟨s1, p1⟩ := q
    obtain ⟨ρ1, s1', p1', l1, rfl, hs, hp1⟩ := hcp s1 p1 rfl
    refine RO.le ?_ l1
    have h1 : RM ρ1 { m with st := s1, K := .k 4 :: rest :: .v (.u c1) :: .v p1 :: K } { m' with st := s1', K := .k 4 :: rest' :: .v (.u c1) :: .v p1' :: K' } :=
      h.upd l1 hs (.cons (.k 4) (.cons (hr.le l1) (.cons (.v (.u c1)) (.cons (.v hp1) (hK.le l1)))))
    dsimp only
    rcases ropt_cases (hs.gcdr (h.exp.le l1)) with ⟨e1, e2⟩ | ⟨d, d', e1, e2, hd⟩
    · rw [e1, e2]; exact h1.raise (.sym _)
    rw [e1, e2]
    dsimp only
    rcases ropt_cases (hs.gcar hd) with ⟨e1, e2⟩ | ⟨key, key', e1, e2, hkey⟩
    · rw [e1, e2]; exact h1.raise (.sym _)
    rw [e1, e2]
    dsimp only
    cases e3 : s1.createLoc (s1.next + 1) key p1 with
    | none => exact RO.ub
    | some q =>
      obtain ⟨s2, p2⟩ := q
      obtain ⟨ρ2, s2', p2', l2, e4, hs2, hp2⟩ := hs.createLoc (Nat.succ_le_succ hs.next) hkey hp1 e3
      rw [e4]
      refine RO.le ?_ l2
      have h2 : RM ρ2 { m with st := s2, K := .k 4 :: rest :: .v (.u c1) :: .v p2 :: K } { m' with st := s2', K := .k 4 :: rest' :: .v (.u c1) :: .v p2' :: K' } :=
        h.upd (l1.trans l2) hs2 (.cons (.k 4) (.cons (hr.le (l1.trans l2)) (.cons (.v (.u c1)) (.cons (.v hp2) (hK.le (l1.trans l2))))))
      dsimp only
      rcases ropt_cases (hs2.gcadr (hd.le l2)) with ⟨e1, e2⟩ | ⟨x, x', e1, e2, hx⟩
      · rw [e1, e2]; exact h2.raise (.sym _)
      rw [e1, e2]
      refine ro_reserve h2 (.cons (.k 26) (.cons (.v (hkey.le l2)) (.cons (.v hp2) .nil))) (fun h3 => ?_)
      exact h3.go hx hp2

theorem ro_evalVar : RO ρ (evalVar sz m) (evalVar sz m') := by
  by_cases c : ∃ rest c penv K, m.K = .k 4 :: rest :: .v (.u c) :: .v penv :: K
  · obtain ⟨rest, c, penv, K, e⟩ := c
    have hK := h.K
    rw [e] at hK
    generalize e' : m'.K = K' at hK
    rcases hK with _ | ⟨⟨⟩, _ | ⟨hr, _ | ⟨⟨⟨⟩⟩, _ | ⟨⟨hp⟩, hK⟩⟩⟩⟩
    exact ro_evalVar_good h sz hr hp hK e e'
  · have c' : ¬ ∃ rest c penv K, m'.K = .k 4 :: rest :: .v (.u c) :: .v penv :: K := by
      rintro ⟨rest, x, penv, K, e'⟩
      refine c ?_
      have hK := h.K
      rw [e'] at hK
      generalize e : m.K = K' at hK
      rcases hK with _ | ⟨⟨⟩, _ | ⟨hr, _ | ⟨⟨⟨⟩⟩, _ | ⟨⟨hp⟩, hK⟩⟩⟩⟩
      exact ⟨_, _, _, _, rfl⟩
    unfold evalVar
    split
    · rename_i e; exact absurd ⟨_, _, _, _, e⟩ c
    · split
      · rename_i e; exact absurd ⟨_, _, _, _, e⟩ c'
      · exact h.raise (.sym _)

theorem ro_evalSetq : RO ρ (evalSetq sz m) (evalSetq sz m') := by
  unfold evalSetq
  refine ro_reserve h (.cons (.k 27) (.cons (.v (h.st.hd (h.st.tl h.exp))) (.cons (.v h.env) .nil))) (fun h1 => ?_)
  exact h1.go (h.st.hd (h.st.tl (h.st.tl h.exp))) h.env

theorem ro_evalLoop : RO ρ (evalLoop sz m) (evalLoop sz m') := by
  unfold evalLoop
  rcases ropt_cases (h.st.gcdr h.exp) with ⟨e1, e2⟩ | ⟨d, d', e1, e2, hd⟩
  · rw [e1, e2]; exact h.raise (.sym _)
  · rw [e1, e2]
    have hc := h.st.hd (h.st.tl hd)
    refine ro_reserve h (.cons (.k 39) (.cons (.v hc) (.cons (.v (h.st.hd (h.st.tl (h.st.tl hd)))) .nil))) (fun h1 => ?_)
    exact ro_letBind h1 sz (h.st.hd hd) hc

theorem ro_evalTrap : RO ρ (evalTrap sz m) (evalTrap sz m') := by
  unfold evalTrap
  rcases ropt_cases (h.st.gcadr h.exp) with ⟨e1, e2⟩ | ⟨d, d', e1, e2, hd⟩
  · rw [e1, e2]; exact h.raise (.sym _)
  · rw [e1, e2]
    obtain ⟨ρ1, l1, a1, a2⟩ := h.st.cons (.sym 0) (.sym 0)
    obtain ⟨ρ2, l2, b1, b2⟩ := a1.cons (.sym 0x3000B) a2
    have le := l1.trans l2
    refine RO.le ?_ le
    refine ro_reserve (h.setSt le b1) (.cons (.k 45) (.cons (by rw [h.flags]; exact .raw _) (.cons (.v b2) .nil))) (fun h2 => ?_)
    exact RM.next ⟨h2.st, h2.K, h2.r, hd.le le, h.env.le le, h2.program, rfl, congrArg setUnroll h.flags⟩

theorem ro_evalJunct (code : Nat) (n : Nat) : RO ρ (evalJunct sz code (.sym n) m) (evalJunct sz code (.sym n) m') := by
  unfold evalJunct
  rcases ropt_cases (h.st.gcdr h.exp) with ⟨e1, e2⟩ | ⟨d, d', e1, e2, hd⟩
  · rw [e1, e2]; exact h.raise (.sym _)
  · rw [e1, e2]
    refine ro_ite (hd.eq_sym 0) (fun _ _ => h.ret (.sym n)) (fun _ _ => ?_)
    refine ro_reserve h (.cons .junk (.cons .junk (.cons .junk .nil))) (fun h1 => ?_)
    dsimp only
    rcases ropt_cases (h.st.gcdr hd) with ⟨e1, e2⟩ | ⟨x, x', e1, e2, hx⟩
    · rw [e1, e2]; exact h1.raise (.sym _)
    rcases ropt_cases (h.st.gcar hd) with ⟨e3, e4⟩ | ⟨y, y', e3, e4, hy⟩
    · rw [e1, e2, e3, e4]; exact h1.raise (.sym _)
    rw [e1, e2, e3, e4]
    exact (h1.setK (.cons (.k code) (.cons (.v hx) (.cons (.v h.env) h.K)))).go hy h.env

theorem ro_evalMatch : RO ρ (evalMatch sz m) (evalMatch sz m') := by
  unfold evalMatch
  rcases ropt_cases (h.st.gcdr h.exp) with ⟨e1, e2⟩ | ⟨d, d', e1, e2, hd⟩
  · rw [e1, e2]; exact h.raise (.sym _)
  · rw [e1, e2]
    cases hd with
    | cons hc =>
      refine ro_reserve h (.cons (.k 9) (.cons (.v h.env) (.cons (.v (h.st.cdr hc)) .nil))) (fun h1 => ?_)
      exact h1.go (h.st.car hc) h.env
    | _ => exact h.raise (.sym _)

theorem ro_evalSpecial (i : Nat) : RO ρ (evalSpecial sz i m) (evalSpecial sz i m') := by
  unfold evalSpecial
  split
  · exact ro_evalQuote h
  · exact ro_evalDefine h sz
  · exact ro_evalProgn h sz
  · exact ro_evalLambda h
  · exact ro_evalIf h sz
  · exact ro_evalLet h sz
  · exact ro_evalJunct h sz 6 2
  · exact ro_evalJunct h sz 7 0
  · exact ro_evalMatch h sz
  · exact ro_evalCallcc h sz
  · exact ro_evalAtomic h sz
  · exact h.ret h.exp
  · exact h.ret h.exp
  · exact h.ret h.exp
  · exact ro_evalCond h sz
  · exact ro_evalAppCont h
  · exact ro_evalVar h sz
  · exact ro_evalSetq h sz
  · exact ro_evalLoop h sz
  · exact ro_evalTrap h sz
  · exact RO.out

theorem ro_applySetvar {args args' : List V} {K K' : List W} (ha : RL ρ args args') (hK : RK ρ K K') : RO ρ (applySetvar m args K) (applySetvar m' args' K') := by
  unfold applySetvar
  rcases ha with _ | ⟨(n | _ | _ | _ | _), _ | ⟨hv, _ | ⟨_, _⟩⟩⟩ <;> first | exact h.raiseSym 0x22 | skip
  rename_i v v'
  refine ro_ite Iff.rfl (fun _ _ => ?_) (fun _ _ => h.raise (.sym _))
  cases h1 : m.st.setvar n v m.env with
  | none => exact RO.ub
  | some q =>
    obtain ⟨s1, b⟩ := q
    obtain ⟨s1', e, hs⟩ := h.st.setvar h.env hv h1
    rw [e]
    cases b with
    | true => exact (h.upd (.refl ρ) hs hK).ret hv
    | false => exact (h.setSt (.refl ρ) hs).raise (.sym _)

theorem ro_applyEval {args args' : List V} {K K' : List W} (ha : RL ρ args args') (hK : RK ρ K K') : RO ρ (applyEval m args K) (applyEval m' args' K') := by
  unfold applyEval
  rcases ha with _ | ⟨h1, _ | ⟨h2, _ | ⟨_, _⟩⟩⟩
  · exact h.raise (.sym _)
  · exact (h.setK hK).go h1 h.env
  · exact (h.setK hK).go h2 h1
  · exact h.raise (.sym _)

theorem ro_applyError {args args' : List V} (ha : RL ρ args args') : RO ρ (applyError m args) (applyError m' args') := by
  unfold applyError
  cases ha with
  | nil => exact h.raise (.sym _)
  | cons h1 _ => exact h.raise h1

theorem ro_applyMap {args args' : List V} {K K' : List W} (ha : RL ρ args args') (hK : RK ρ K K') : RO ρ (applyMap sz m args K) (applyMap sz m' args' K') := by
  unfold applyMap
  rcases ha with _ | ⟨hf, _ | ⟨(n | _ | _ | hc | _), _ | ⟨_, _⟩⟩⟩ <;> first | exact h.raiseSym 0x22 | skip
  · obtain _ | n := n
    · exact (h.setK hK).ret (.sym 0)
    · exact h.raise (.sym _)
  · obtain _ | n := n
    · exact h.raise (.sym _)
    · exact h.raise (.sym _)
  · obtain ⟨ρ1, l1, a1, a2⟩ := h.st.cons (h.st.car hc) (.sym 0)
    obtain ⟨ρ2, l2, b1, b2⟩ := a1.cons (.sym 0x100) a2
    obtain ⟨ρ3, l3, c1, c2⟩ := b1.cons b2 (.sym 0)
    have le3 := (l1.trans l2).trans l3
    obtain ⟨ρ4, l4, d1, d2⟩ := c1.cons (hf.le le3) c2
    have le4 := le3.trans l4
    obtain ⟨ρ5, l5, f1, f2⟩ := d1.cons (h.r.le le4) (.sym 0)
    have le := le4.trans l5
    refine RO.le ?_ le
    refine ro_reserve (h.upd le f1 (.cons (.v f2) (.cons (.v (h.env.le le)) (.cons (.v ((h.st.cdr hc).le le)) (hK.le le)))))
      (.cons (.k 23) (.cons (.v (a2.le (((l2.trans l3).trans l4).trans l5))) (.cons (.v (d2.le l5)) (.cons (.v f2) .nil)))) (fun h2 => ?_)
    exact h2.go (d2.le l5) (h.env.le le)

theorem ro_applyRestArgs {args args' : List V} {K K' : List W} (ha : RL ρ args args') (hK : RK ρ K K') : RO ρ (applyRestArgs m args K) (applyRestArgs m' args' K') := by
  unfold applyRestArgs
  cases ha with
  | cons _ _ => exact RO.out
  | nil =>
    dsimp only
    cases h1 : m.st.lookup .restArgs (m.st.next + 1) m.env with
    | none => exact RO.ub
    | some o =>
      obtain ⟨o', e', ho⟩ := h.st.lookup (.sym _) (Nat.succ_le_succ h.st.next) h.env h1
      rw [e']
      cases ho with
      | some hv => exact (h.setK hK).ret hv
      | none => exact (h.setK hK).ret (.sym 0)

end

theorem RK.take {K K' : List W} (h : RK ρ K K') (n : Nat) : RK ρ (K.take n) (K'.take n) := by
  induction h generalizing n with
  | nil => simp only [List.take_nil]; exact .nil
  | cons hw _ ih =>
    cases n with
    | zero => exact .nil
    | succ n => exact .cons hw (ih n)

theorem RK.drop {K K' : List W} (h : RK ρ K K') (n : Nat) : RK ρ (K.drop n) (K'.drop n) := by
  induction h generalizing n with
  | nil => simp only [List.drop_nil]; exact .nil
  | cons hw hK ih =>
    cases n with
    | zero => exact .cons hw hK
    | succ n => exact ih n

theorem RL.append {K K' L L' : List V} (h : RL ρ K K') (h' : RL ρ L L') : RL ρ (K ++ L) (K' ++ L') := by
  induction h with
  | nil => exact h'
  | cons h _ ih => exact .cons h ih

theorem RL.reverse {K K' : List V} (h : RL ρ K K') : RL ρ K.reverse K'.reverse := by
  induction h with
  | nil => exact .nil
  | cons h _ ih => simp only [List.reverse_cons]; exact ih.append (.cons h .nil)

theorem RK.popVals {K K' : List W} {l : List V} (h : RK ρ K K') (e : popVals K = some l) : ∃ l', popVals K' = some l' ∧ RL ρ l l' := by
  induction h generalizing l with
  | nil => cases e; exact ⟨_, rfl, .nil⟩
  | cons hw _ ih =>
    cases hw with
    | v hx =>
      simp only [Verif.Eval.popVals, Option.map_eq_some_iff] at e ⊢
      obtain ⟨l1, e1, rfl⟩ := e
      obtain ⟨l', e2, hl⟩ := ih e1
      exact ⟨_, ⟨l', e2, rfl⟩, .cons hx hl⟩
    | _ => cases e

section
variable {m m' : M} (h : RM ρ m m') {P : Prims} (hP : Blind P) (sz : Option Nat)
include h hP

theorem ro_application (c : Nat) : RO ρ (application sz P m c) (application sz P m' c) := by
  unfold application
  have hK := h.K.drop (c + 1)
  cases e : popVals (m.K.take (c + 1)) with
  | none => exact RO.ub
  | some l =>
    obtain ⟨l', e', hl⟩ := (h.K.take (c + 1)).popVals e
    rw [e']
    have hr := hl.reverse
    simp only [Option.map_some]
    generalize l.reverse = L at hr
    generalize l'.reverse = L' at hr
    rcases hr with _ | ⟨(n | _ | _ | _ | _), ha⟩ <;> first | exact RO.ub | skip
    dsimp only
    refine ro_ite (by rw [ha.length]) (fun _ _ => RO.ub) (fun _ _ => ?_)
    refine ro_ite Iff.rfl (fun _ _ => ?_) (fun _ _ => ?_)
    · obtain ⟨ρ1, l1, hp⟩ := hP.run ρ n _ _ _ _ _ _ h.st ha h.env
      generalize P.run n _ m.env m.st = q at hp
      generalize P.run n _ m'.env m'.st = q' at hp
      refine RO.le ?_ l1
      cases hp with
      | ok hs hv => exact (h.upd l1 hs (hK.le l1)).ret hv
      | err hs hv => exact (h.setSt l1 hs).raise hv
    refine ro_ite Iff.rfl (fun _ _ => ro_applySetvar h ha hK) (fun _ _ => ?_)
    refine ro_ite Iff.rfl (fun _ _ => ro_applyEval h ha hK) (fun _ _ => ?_)
    refine ro_ite Iff.rfl (fun _ _ => ro_applyError h ha) (fun _ _ => ?_)
    refine ro_ite Iff.rfl (fun _ _ => ro_applyMap h sz ha hK) (fun _ _ => ?_)
    refine ro_ite Iff.rfl (fun _ _ => ro_applyRestArgs h ha hK) (fun _ _ => ?_)
    exact ro_ite Iff.rfl (fun _ _ => RO.out) (fun _ _ => h.raise (.sym _))

theorem ro_contArgs : RO ρ (contArgs sz P m) (contArgs sz P m') := by
  unfold contArgs
  have hK := h.K
  generalize m.K = K at hK
  generalize m'.K = K' at hK
  rcases hK with _ | ⟨((_ | c | _ | _ | _) | _ | _ | _), _ | ⟨(hr | _ | _ | _), _ | ⟨(he | _ | _ | _), hK⟩⟩⟩ <;> first | exact RO.ub | skip
  rename_i _ _ K K' _ _
  have happ : ∀ {x x' : V}, RV ρ x x' → RO ρ (application sz P { m with K := m.r :: K, env := x } c) (application sz P { m' with K := m'.r :: K', env := x' } c) :=
    fun {x x'} hx => ro_application (m := { m with K := m.r :: K, env := x }) (m' := { m' with K := m'.r :: K', env := x' }) ⟨h.st, .cons (.v h.r) hK, h.r, h.exp, hx, h.program, h.app, h.flags⟩ hP sz c
  cases hr with
  | cons hc =>
    refine ro_reserve (h.setK (.cons (.v (h.st.cdr hc)) (.cons (.v he) (.cons (.v h.r) hK)))) (.cons (.k 5) (.cons (.v (.u _)) .nil)) (fun h2 => ?_)
    exact h2.go (h.st.car hc) he
  | _ => exact happ he

theorem ro_contStart : RO ρ (contStart sz P m) (contStart sz P m') := by
  unfold contStart
  have hr := h.r
  generalize m.r = r at hr
  generalize m'.r = r' at hr
  cases hr with
  | sym n =>
    refine ro_reserve h (.cons (.v (.u 0)) .nil) (fun h1 => ?_)
    exact ro_contArgs h1 hP sz
  | @cons fa fa' hf =>
    dsimp only
    have hK := h.K
    generalize m.K = K at hK
    generalize m'.K = K' at hK
    rcases hK with _ | ⟨(ha | _ | _ | _), _ | ⟨(he | _ | _ | _), hK⟩⟩ <;> first | exact RO.ub | skip
    rename_i args args' K K' aenv aenv'
    have hset : ∀ {ρ' : Ren} {s s' : St} {L L' : List W}, ρ.Le ρ' → RS ρ' s s' → RK ρ' L L' → RM ρ' { m with r := .cons fa, st := s, K := L } { m' with r := .cons fa', st := s', K := L' } :=
      fun l hs hL => ⟨hs, hL, .cons (l.c hf), h.exp.le l, h.env.le l, h.program.le l, h.app, h.flags⟩
    dsimp only
    refine ro_ite ((h.st.car hf).eq_sym _) (fun _ _ => ?_) (fun _ _ => ?_)
    · have hcl := h.st.cdr hf
      have hparams := h.st.hd hcl
      have hbody := h.st.hd (h.st.tl hcl)
      have hcenv := h.st.hd (h.st.tl (h.st.tl hcl))
      rcases ropt_cases (h.st.gcar ha) with ⟨e1, e2⟩ | ⟨x, x', e1, e2, hx⟩
      · rw [e1, e2]; exact h.raise (.sym _)
      rcases ropt_cases (h.st.gcdr ha) with ⟨e3, e4⟩ | ⟨y, y', e3, e4, hy⟩
      · rw [e1, e2, e3, e4]; exact h.raise (.sym _)
      rw [e1, e2, e3, e4]
      dsimp only
      refine ro_reserve (hset (.refl ρ) h.st (.cons (.v hbody) (.cons (.v he) hK))) (.cons .junk (.cons .junk (.cons .junk (.cons .junk .nil)))) (fun h1 => ?_)
      dsimp only
      refine ro_ite (by simp only [ne_eq, ha.eq_sym, hparams.eq_sym]) (fun _ _ => ?_) (fun _ _ => ?_)
      · exact (h1.setK (.cons (.k 13) (.cons (.v hy) (.cons (.v hparams) (.cons (.v hcenv) (.cons (.v hbody) (.cons (.v he) hK))))))).go hx he
      refine ro_ite (by simp only [ha.eq_sym, hparams.eq_sym]) (fun _ _ => (h1.setK hK).go hbody hcenv) (fun _ _ => ?_)
      refine ro_ite (hparams.eq_sym 0) (fun _ _ => ?_) (fun _ _ => h1.raise (.sym _))
      obtain ⟨ρ1, l1, a1, a2⟩ := h1.st.allocBinding (.sym 0x30015) (.sym 0) hcenv
      refine RO.le ?_ l1
      exact (h1.upd l1 a1 (.cons (.k 42) (.cons (.v (a1.hd a2)) (.cons (.v (hy.le l1)) (.cons (.v a2) (.cons (.v (hbody.le l1)) (.cons (.v (he.le l1)) (hK.le l1)))))))).go (hx.le l1) (he.le l1)
    refine ro_ite ((h.st.car hf).eq_sym _) (fun _ _ => ?_) (fun _ _ => ?_)
    · have hcd := h.st.cdr hf
      generalize m.st.cdr fa = cd at hcd
      generalize m'.st.cdr fa' = cd' at hcd
      rcases hcd with _ | _ | _ | _ | hk <;> first | exact h.raiseSym 0x26 | skip
      dsimp only
      cases h1 : m.st.len (m.st.next + 1) args with
      | none => exact RO.ub
      | some n =>
        rw [h.st.len (Nat.succ_le_succ h.st.next) ha h1]
        refine ro_ite Iff.rfl (fun _ _ => h.raise (.sym _)) (fun _ _ => ?_)
        have hkk := (h.st.konts hk).2
        generalize m.st.konts _ = KK at hkk
        generalize m'.st.konts _ = KK' at hkk
        cases hkk with
        | nil => exact RO.ub
        | cons hw hkk =>
          dsimp only
          rename_i w w' L L'
          refine ro_ite (by rw [hkk.length]) (fun _ _ => ?_) (fun _ _ => RO.ub)
          have hdec : decide (w ≠ W.v .nil) = decide (w' ≠ W.v .nil) := by
            cases hw with
            | v hx => simp only [ne_eq, W.v.injEq, hx.eq_sym]
            | _ => rfl
          rw [hdec]
          exact (hset (.refl ρ) (h.st.setAtomic _) hkk).go (h.st.hd ha) h.env
    refine ro_ite ((h.st.car hf).eq_sym _) (fun _ _ => ?_) (fun _ _ => h.raise (.sym _))
    rcases ropt_cases (h.st.gcadr (.cons hf)) with ⟨e1, e2⟩ | ⟨x, x', e1, e2, hx⟩
    · rw [e1, e2]; exact h.raise (.sym _)
    rcases ropt_cases (h.st.gcdr (.cons hf)) with ⟨e3, e4⟩ | ⟨y, y', e3, e4, hy⟩
    · rw [e1, e2, e3, e4]; exact h.raise (.sym _)
    rw [e1, e2, e3, e4]
    dsimp only
    cases h1 : m.st.macroEnv (m.st.next + 1) x args aenv with
    | none => exact RO.ub
    | some q =>
      obtain ⟨s1, env1⟩ := q
      obtain ⟨ρ1, s1', env1', l1, e5, hs, hv⟩ := h.st.macroEnv (Nat.succ_le_succ h.st.next) hx ha he h1
      rw [e5]
      refine RO.le ?_ l1
      have h2 := hset l1 hs (.cons (.k 11) (.cons (.v (he.le l1)) (hK.le l1)))
      dsimp only
      rcases ropt_cases (hs.gcadr (hy.le l1)) with ⟨e1, e2⟩ | ⟨z, z', e1, e2, hz⟩
      · rw [e1, e2]; exact h2.raise (.sym _)
      · rw [e1, e2]; exact h2.go hz hv
  | _ => exact h.raise (.sym _)

omit hP in
theorem ro_contCloArgs : RO ρ (contCloArgs sz m) (contCloArgs sz m') := by
  unfold contCloArgs
  have hK := h.K
  generalize m.K = K at hK
  generalize m'.K = K' at hK
  rcases hK with _ | ⟨(ha | _ | _ | _), _ | ⟨(hp | _ | _ | _), _ | ⟨(hc | _ | _ | _), _ | ⟨(hb | _ | _ | _), _ | ⟨(he | _ | _ | _), hK⟩⟩⟩⟩⟩ <;> first | exact RO.ub | skip
  dsimp only
  rcases ropt_cases (h.st.gcar hp) with ⟨e1, e2⟩ | ⟨x, x', e1, e2, hx⟩
  · rw [e1, e2]; exact h.raise (.sym _)
  rcases ropt_cases (h.st.gcdr hp) with ⟨e3, e4⟩ | ⟨y, y', e3, e4, hy⟩
  · rw [e1, e2, e3, e4]; exact h.raise (.sym _)
  rw [e1, e2, e3, e4]
  obtain ⟨ρ1, l1, a1, a2⟩ := h.st.allocBinding hx h.r hc
  refine RO.le ?_ l1
  dsimp only
  have h1 := h.upd l1 a1 (.cons (.v (ha.le l1)) (.cons (.v (hp.le l1)) (.cons (.v (hc.le l1)) (.cons (.v (hb.le l1)) (.cons (.v (he.le l1)) (hK.le l1))))))
  refine ro_ite (by simp only [ne_eq, ha.eq_sym, hy.eq_sym]) (fun _ _ => ?_) (fun _ _ => ?_)
  · rcases ropt_cases (a1.gcar (ha.le l1)) with ⟨e1, e2⟩ | ⟨z, z', e1, e2, hz⟩
    · rw [e1, e2]; exact h1.raise (.sym _)
    rcases ropt_cases (a1.gcdr (ha.le l1)) with ⟨e3, e4⟩ | ⟨w, w', e3, e4, hw⟩
    · rw [e1, e2, e3, e4]; exact h1.raise (.sym _)
    rw [e1, e2, e3, e4]
    refine ro_reserve (h1.setK (.cons (.v hw) (.cons (.v (hy.le l1)) (.cons (.v a2) (.cons (.v (hb.le l1)) (.cons (.v (he.le l1)) (hK.le l1))))))) (.cons (.k 13) .nil) (fun h2 => ?_)
    exact h2.go hz (he.le l1)
  refine ro_ite (by simp only [ha.eq_sym, hy.eq_sym]) (fun _ _ => (h1.setK (hK.le l1)).go (hb.le l1) a2) (fun _ _ => ?_)
  refine ro_ite (hy.eq_sym 0) (fun _ _ => ?_) (fun _ _ => h1.raise (.sym _))
  obtain ⟨ρ2, l2, b1, b2⟩ := a1.allocBinding (.sym 0x30015) (.sym 0) a2
  have le := l1.trans l2
  refine RO.le ?_ l2
  have h2 := h1.setSt l2 b1
  rcases ropt_cases (b1.gcdr (ha.le le)) with ⟨e1, e2⟩ | ⟨z, z', e1, e2, hz⟩
  · rw [e1, e2]; exact h2.raise (.sym _)
  rcases ropt_cases (b1.gcar (ha.le le)) with ⟨e3, e4⟩ | ⟨w, w', e3, e4, hw⟩
  · rw [e1, e2, e3, e4]; exact h2.raise (.sym _)
  rw [e1, e2, e3, e4]
  refine ro_reserve (h2.setK (.cons (.v (b1.hd b2)) (.cons (.v hz) (.cons (.v b2) (.cons (.v (hb.le le)) (.cons (.v (he.le le)) (hK.le le))))))) (.cons (.k 42) .nil) (fun h3 => ?_)
  exact h3.go hw (he.le le)

omit hP in
theorem ro_contCloRest : RO ρ (contCloRest sz m) (contCloRest sz m') := by
  unfold contCloRest
  have hK := h.K
  generalize m.K = K at hK
  generalize m'.K = K' at hK
  rcases hK with _ | ⟨(hl | _ | _ | _), _ | ⟨(ha | _ | _ | _), _ | ⟨(hc | _ | _ | _), _ | ⟨(hb | _ | _ | _), _ | ⟨(he | _ | _ | _), hK⟩⟩⟩⟩⟩ <;> first | exact RO.ub | skip
  obtain ⟨ρ1, l1, a1, a2⟩ := h.st.cons h.r (.sym 0)
  have hs := a1.setCdr (hl.le l1) a2
  refine RO.le ?_ l1
  dsimp only
  refine ro_ite (ha.eq_sym 0) (fun _ _ => (h.upd l1 hs (hK.le l1)).go (hb.le l1) (hc.le l1)) (fun _ _ => ?_)
  refine ro_reserve (h.upd l1 hs (.cons (.v a2) (.cons (.v (ha.le l1)) (.cons (.v (hc.le l1)) (.cons (.v (hb.le l1)) (.cons (.v (he.le l1)) (hK.le l1))))))) (.cons (.k 42) .nil) (fun h3 => ?_)
  dsimp only
  rcases ropt_cases (hs.gcdr (ha.le l1)) with ⟨e1, e2⟩ | ⟨z, z', e1, e2, hz⟩
  · rw [e1, e2]; exact h3.raise (.sym _)
  rcases ropt_cases (hs.gcar (ha.le l1)) with ⟨e3, e4⟩ | ⟨w, w', e3, e4, hw⟩
  · rw [e1, e2, e3, e4]; exact h3.raise (.sym _)
  rw [e1, e2, e3, e4]
  exact (h3.setK (.cons (.k 42) (.cons (.v a2) (.cons (.v hz) (.cons (.v (hc.le l1)) (.cons (.v (hb.le l1)) (.cons (.v (he.le l1)) (hK.le l1)))))))).go hw (he.le l1)

omit hP in
theorem ro_contAnd : RO ρ (contAnd sz m) (contAnd sz m') := by
  unfold contAnd
  have hK := h.K
  generalize m.K = K at hK
  generalize m'.K = K' at hK
  rcases hK with _ | ⟨(hr | _ | _ | _), _ | ⟨(he | _ | _ | _), hK⟩⟩ <;> first | exact RO.ub | skip
  dsimp only
  have h1 := h.setK hK
  refine ro_ite (h.r.eq_sym 0) (fun _ _ => h1.ret (.sym 0)) (fun _ _ => ?_)
  refine ro_ite (hr.eq_sym 0) (fun _ _ => h1.ret h.r) (fun _ _ => ?_)
  refine ro_reserve h1 (.cons .junk (.cons .junk (.cons .junk .nil))) (fun h3 => ?_)
  dsimp only
  rcases ropt_cases (h.st.gcdr hr) with ⟨e1, e2⟩ | ⟨z, z', e1, e2, hz⟩
  · rw [e1, e2]; exact h3.raise (.sym _)
  rcases ropt_cases (h.st.gcar hr) with ⟨e3, e4⟩ | ⟨w, w', e3, e4, hw⟩
  · rw [e1, e2, e3, e4]; exact h3.raise (.sym _)
  rw [e1, e2, e3, e4]
  exact (h3.setK (.cons (.k 6) (.cons (.v hz) (.cons (.v he) hK)))).go hw he

omit hP in
theorem ro_contOr : RO ρ (contOr sz m) (contOr sz m') := by
  unfold contOr
  have hK := h.K
  generalize m.K = K at hK
  generalize m'.K = K' at hK
  rcases hK with _ | ⟨(hr | _ | _ | _), _ | ⟨(he | _ | _ | _), hK⟩⟩ <;> first | exact RO.ub | skip
  dsimp only
  have h1 := h.setK hK
  refine ro_ite (not_congr (h.r.eq_sym 0)) (fun _ _ => h1.ret h.r) (fun _ _ => ?_)
  refine ro_ite (hr.eq_sym 0) (fun _ _ => h1.ret (.sym 0)) (fun _ _ => ?_)
  refine ro_reserve h1 (.cons .junk (.cons .junk (.cons .junk .nil))) (fun h3 => ?_)
  dsimp only
  rcases ropt_cases (h.st.gcdr hr) with ⟨e1, e2⟩ | ⟨z, z', e1, e2, hz⟩
  · rw [e1, e2]; exact h3.raise (.sym _)
  rcases ropt_cases (h.st.gcar hr) with ⟨e3, e4⟩ | ⟨w, w', e3, e4, hw⟩
  · rw [e1, e2, e3, e4]; exact h3.raise (.sym _)
  rw [e1, e2, e3, e4]
  exact (h3.setK (.cons (.k 7) (.cons (.v hz) (.cons (.v he) hK)))).go hw he

omit hP in
theorem ro_contBind : RO ρ (contBind sz m) (contBind sz m') := by
  unfold contBind
  have hK := h.K
  generalize m.K = K at hK
  generalize m'.K = K' at hK
  rcases hK with _ | ⟨(hk | _ | _ | _), _ | ⟨(he | _ | _ | _), _ | ⟨(hr | _ | _ | _), _ | ⟨(hb | _ | _ | _), hK⟩⟩⟩⟩ <;> first | exact RO.ub | skip
  rename_i key key' env env' rest rest' K K' body body'
  dsimp only
  cases h1 : m.st.fillLoc (m.st.next + 1) key m.r env with
  | none => exact RO.ub
  | some q =>
    obtain ⟨s1, b⟩ := q
    obtain ⟨s1', e1, hs⟩ := h.st.fillLoc (Nat.succ_le_succ h.st.next) hk h.r he h1
    rw [e1]
    cases b with
    | false => exact (h.upd (.refl ρ) hs (.cons (.v hk) (.cons (.v he) (.cons (.v hr) (.cons (.v hb) hK))))).raise (.sym _)
    | true =>
      dsimp only
      cases hr with
      | cons hc =>
        have hb' := hs.car hc
        refine ro_reserve (h.upd (.refl ρ) hs (.cons (.v (hs.hd hb')) (.cons (.v he) (.cons (.v (hs.cdr hc)) (.cons (.v hb) hK))))) (.cons (.k 2) .nil) (fun h2 => ?_)
        exact h2.go (hs.hd (hs.tl hb')) he
      | _ => exact (h.upd (.refl ρ) hs hK).go hb he

omit hP in
theorem ro_contIf : RO ρ (contIf m) (contIf m') := by
  unfold contIf
  have hK := h.K
  generalize m.K = K at hK
  generalize m'.K = K' at hK
  rcases hK with _ | ⟨(he | _ | _ | _), _ | ⟨(hb | _ | _ | _), hK⟩⟩ <;> first | exact RO.ub | skip
  rename_i env env' K K' br br'
  dsimp only
  have h1 : RM ρ { m with K := K, env := env } { m' with K := K', env := env' } := ⟨h.st, hK, h.r, h.exp, he, h.program, h.app, h.flags⟩
  refine ro_ite (h.r.eq_sym 0) (fun _ _ => ?_) (fun _ _ => ?_)
  · rcases ropt_cases (h.st.gcadr hb) with ⟨e1, e2⟩ | ⟨z, z', e1, e2, hz⟩
    · rw [e1, e2]; exact h1.raise (.sym _)
    · rw [e1, e2]; exact h1.go hz he
  · rcases ropt_cases (h.st.gcar hb) with ⟨e1, e2⟩ | ⟨z, z', e1, e2, hz⟩
    · rw [e1, e2]; exact h1.raise (.sym _)
    · rw [e1, e2]; exact h1.go hz he

theorem ro_contMatch : RO ρ (contMatch sz P m) (contMatch sz P m') := by
  unfold contMatch
  have hK := h.K
  generalize m.K = K at hK
  generalize m'.K = K' at hK
  rcases hK with _ | ⟨(he | _ | _ | _), _ | ⟨(hp | _ | _ | _), hK⟩⟩ <;> first | exact RO.ub | skip
  rename_i env env' K K' pats pats'
  dsimp only
  cases hp with
  | sym n =>
    obtain _ | n := n
    · exact (h.setK hK).ret (.sym _)
    · exact h.raise (.sym _)
  | @cons a a' hc =>
    dsimp only
    have hmc := h.st.car hc
    rcases ropt_cases (h.st.gcar hmc) with ⟨e1, e2⟩ | ⟨x, x', e1, e2, hx⟩
    · rw [e1, e2]; exact h.raise (.sym _)
    rcases ropt_cases (h.st.gcadr hmc) with ⟨e3, e4⟩ | ⟨y, y', e3, e4, hy⟩
    · rw [e1, e2, e3, e4]; exact h.raise (.sym _)
    have hb : ROpt ρ ((m.st.gcdr (m.st.car a)).bind m.st.gcadr) ((m'.st.gcdr (m'.st.car a')).bind m'.st.gcadr) := by
      rcases ropt_cases (h.st.gcdr hmc) with ⟨e5, e6⟩ | ⟨z, z', e5, e6, hz⟩
      · rw [e5, e6]; exact .none
      · rw [e5, e6]; exact h.st.gcadr hz
    rcases ropt_cases hb with ⟨e5, e6⟩ | ⟨z, z', e5, e6, hz⟩
    · rw [e1, e2, e3, e4, e5, e6]; exact h.raise (.sym _)
    rw [e1, e2, e3, e4, e5, e6]
    dsimp only
    cases h1 : m.st.matchP P.eq (m.st.next + 1) x m.r env with
    | none => exact RO.ub
    | some q =>
      obtain ⟨b, s1, env1⟩ := q
      obtain ⟨ρ1, s1', env1', l1, e7, hs, he1⟩ := h.st.matchP hP (Nat.succ_le_succ h.st.next) hx h.r he h1
      rw [e7]
      refine RO.le ?_ l1
      cases b with
      | true =>
        refine ro_ite (hz.eq_sym 0) (fun _ _ => (h.upd l1 hs (hK.le l1)).go (hy.le l1) he1) (fun _ _ => ?_)
        refine ro_reserve (h.upd l1 hs (.cons (.v (h.env.le l1)) (.cons (.v (hs.cdr (l1.c hc))) (hK.le l1))))
          (.cons (.k 24) (.cons (.v (h.r.le l1)) (.cons (.v (hz.le l1)) (.cons (.v he1) (.cons (.k 9) .nil))))) (fun h2 => ?_)
        exact h2.go (hy.le l1) he1
      | false =>
        refine ro_reserve (h.upd l1 hs (.cons (.v (he.le l1)) (.cons (.v (hs.cdr (l1.c hc))) (hK.le l1)))) (.cons (.k 9) .nil) (fun h2 => ?_)
        exact h2.ret (h.r.le l1)
  | _ => exact h.raise (.sym _)

omit hP in
theorem ro_contMap : RO ρ (contMap sz m) (contMap sz m') := by
  unfold contMap
  have hK := h.K
  generalize m.K = K at hK
  generalize m'.K = K' at hK
  rcases hK with _ | ⟨(ha | _ | _ | _), _ | ⟨(hp | _ | _ | _), _ | ⟨(ht | _ | _ | _), _ | ⟨(hr | _ | _ | _), _ | ⟨(he | _ | _ | _), _ | ⟨(hl | _ | _ | _), hK⟩⟩⟩⟩⟩⟩ <;> first | exact RO.ub | skip
  have hs := h.st.setCar ht h.r
  dsimp only
  cases hl with
  | cons hc =>
    dsimp only
    have hx := hs.car hc
    have hd := hs.cdr hc
    refine ro_reserve (h.upd (.refl ρ) hs (.cons (.v ha) (.cons (.v hp) (.cons (.v ht) (.cons (.v hr) (.cons (.v he) (.cons (.v hd) hK))))))) (.cons (.k 23) .nil) (fun h2 => ?_)
    have hs1 := hs.setCar ha hx
    obtain ⟨ρ1, l1, a1, a2⟩ := hs1.cons (.sym 0) (.sym 0)
    have hs3 := a1.setCdr (ht.le l1) a2
    refine RO.le ?_ l1
    exact (h2.upd l1 hs3 (.cons (.k 23) (.cons (.v (ha.le l1)) (.cons (.v (hp.le l1)) (.cons (.v a2) (.cons (.v (hr.le l1)) (.cons (.v (he.le l1)) (.cons (.v (hd.le l1)) (hK.le l1))))))))).go (hp.le l1) (he.le l1)
  | _ => exact RM.next ⟨hs, hK, hr, h.exp, he, h.program, rfl, h.flags⟩

omit hP in
theorem ro_contGuard : RO ρ (contGuard m) (contGuard m') := by
  unfold contGuard
  have hK := h.K
  generalize m.K = K at hK
  generalize m'.K = K' at hK
  rcases hK with _ | ⟨(hx | _ | _ | _), _ | ⟨(hb | _ | _ | _), _ | ⟨(he | _ | _ | _), hK⟩⟩⟩ <;> first | exact RO.ub | skip
  refine ro_ite (h.r.eq_sym 0) (fun _ _ => (h.setK hK).ret hx) (fun _ _ => ?_)
  rcases hK with _ | ⟨h1, _ | ⟨h2, _ | ⟨h3, hK⟩⟩⟩ <;> first | exact RO.ub | skip
  exact (h.setK hK).go hb he

omit hP in
theorem ro_contLoop : RO ρ (contLoop sz m) (contLoop sz m') := by
  unfold contLoop
  have hK := h.K
  generalize m.K = K at hK
  generalize m'.K = K' at hK
  rcases hK with _ | ⟨(hx | _ | _ | _), _ | ⟨hw, hK⟩⟩ <;> first | exact RO.ub | skip
  refine ro_reserve h (.cons (.k 39) .nil) (fun h1 => ?_)
  exact h1.go hx h.env

omit hP in
theorem ro_contLoopCond : RO ρ (contLoopCond sz m) (contLoopCond sz m') := by
  unfold contLoopCond
  have hK := h.K
  generalize m.K = K at hK
  generalize m'.K = K' at hK
  rcases hK with _ | ⟨hw, _ | ⟨(hx | _ | _ | _), hK⟩⟩ <;> first | exact RO.ub | skip
  refine ro_ite (h.r.eq_sym 0) (fun _ _ => (h.setK hK).ret h.r) (fun _ _ => ?_)
  refine ro_reserve h (.cons (.k 38) .nil) (fun h1 => ?_)
  exact h1.go hx h.env

omit hP in
theorem ro_contProgn : RO ρ (contProgn sz m) (contProgn sz m') := by
  unfold contProgn
  have hK := h.K
  generalize m.K = K at hK
  generalize m'.K = K' at hK
  rcases hK with _ | ⟨((_ | _ | _ | hc | _) | _ | _ | _), _ | ⟨hw, _ | ⟨(he | _ | _ | _), hK⟩⟩⟩ <;> first | exact RO.ub | skip
  refine ro_ite (by rw [(h.st.cdr hc).isCons]) (fun _ _ => ?_) (fun _ _ => (h.setK hK).go (h.st.car hc) he)
  refine ro_reserve (h.setK (.cons (.v (h.st.cdr hc)) (.cons hw (.cons (.v he) hK)))) (.cons (.k 4) .nil) (fun h1 => ?_)
  exact h1.go (h.st.car hc) he

omit hP in
theorem ro_contVar : RO ρ (contVar m) (contVar m') := by
  unfold contVar
  have hK := h.K
  generalize m.K = K at hK
  generalize m'.K = K' at hK
  rcases hK with _ | ⟨(hk | _ | _ | _), _ | ⟨(he | _ | _ | _), hK⟩⟩ <;> first | exact RO.ub | skip
  rename_i key key' K K' env env'
  dsimp only
  cases h1 : m.st.fillLoc (m.st.next + 1) key m.r env with
  | none => exact RO.ub
  | some q =>
    obtain ⟨s1, b⟩ := q
    obtain ⟨s1', e1, hs⟩ := h.st.fillLoc (Nat.succ_le_succ h.st.next) hk h.r he h1
    rw [e1]
    cases b with
    | false => exact (h.upd (.refl ρ) hs hK).raise (.sym _)
    | true => exact (h.upd (.refl ρ) hs hK).ret h.r

omit hP in
theorem ro_contSetq : RO ρ (contSetq m) (contSetq m') := by
  unfold contSetq
  have hK := h.K
  generalize m.K = K at hK
  generalize m'.K = K' at hK
  rcases hK with _ | ⟨(hk | _ | _ | _), _ | ⟨(he | _ | _ | _), hK⟩⟩ <;> first | exact RO.ub | skip
  rename_i key key' K K' env env'
  dsimp only
  have hm := h.setK hK
  cases hk with
  | sym n =>
    refine ro_ite Iff.rfl (fun _ _ => ?_) (fun _ _ => hm.raise (.sym _))
    cases h1 : m.st.setvar n m.r env with
    | none => exact RO.ub
    | some q =>
      obtain ⟨s1, b⟩ := q
      obtain ⟨s1', e, hs⟩ := h.st.setvar he h.r h1
      rw [e]
      cases b with
      | true => exact (h.upd (.refl ρ) hs hK).ret h.r
      | false => exact (h.upd (.refl ρ) hs hK).raise (.sym _)
  | _ => exact hm.raise (.sym _)

omit hP in
theorem ro_contDefine : RO ρ (contDefine m) (contDefine m') := by
  unfold contDefine
  have hK := h.K
  generalize m.K = K at hK
  generalize m'.K = K' at hK
  rcases hK with _ | ⟨((n | _ | _ | _ | _) | _ | _ | _), hK⟩ <;> first | exact RO.ub | skip
  dsimp only
  cases h1 : m.st.define n m.r with
  | none => exact RO.ub
  | some s1 =>
    obtain ⟨ρ1, s1', l1, e, hs⟩ := h.st.define h.r h1
    rw [e]
    exact RO.le ((h.upd l1 hs (hK.le l1)).ret (h.r.le l1)) l1

omit hP in
theorem ro_contHandler : RO ρ (contHandler m) (contHandler m') := by
  unfold contHandler
  have hK := h.K
  generalize m.K = K at hK
  generalize m'.K = K' at hK
  rcases hK with _ | ⟨(_ | _ | f | _), _ | ⟨(hr | _ | _ | _), hK⟩⟩ <;> first | exact RO.ub | skip
  dsimp only
  rcases ropt_cases (h.st.gcdr hr) with ⟨e1, e2⟩ | ⟨z, z', e1, e2, hz⟩
  · rw [e1, e2]; exact (h.setK hK).raise (.sym _)
  · rw [e1, e2]
    exact RM.next ⟨h.st.setCar hz h.r, hK, hr, h.exp, h.env, h.program, rfl, rfl⟩

omit hP in
theorem ro_contEvalR : RO ρ (contEvalR m) (contEvalR m') := by
  unfold contEvalR
  have hK := h.K
  generalize m.K = K at hK
  generalize m'.K = K' at hK
  rcases hK with _ | ⟨(he | _ | _ | _), hK⟩ <;> first | exact RO.ub | skip
  exact (h.setK hK).go h.r he

omit hP in
theorem ro_contDone : RO ρ (contDone sz m) (contDone sz m') := by
  unfold contDone
  have hp := h.program
  generalize m.program = p at hp
  generalize m'.program = p' at hp
  rcases hp with n | _ | _ | hc | _ <;> first | exact RO.ub | skip
  · obtain _ | n := n
    · exact ROut.ro (.fin h.st h.r)
    · exact RO.ub
  · have h1 : RM ρ { m with program := m.st.cdr _ } { m' with program := m'.st.cdr _ } := ⟨h.st, h.K, h.r, h.exp, h.env, h.st.cdr hc, h.app, h.flags⟩
    refine ro_reserve h1 (.cons (.k 0) .nil) (fun h2 => ?_)
    exact h2.go (h.st.car hc) (.sym 0)

theorem ro_runCont (c : Nat) : RO ρ (runCont sz P c m) (runCont sz P c m') := by
  unfold runCont
  split
  · exact ro_contDone h sz
  · exact ro_contDefine h
  · exact ro_contBind h sz
  · exact ro_contIf h
  · exact ro_contProgn h sz
  · exact ro_contArgs h hP sz
  · exact ro_contAnd h sz
  · exact ro_contOr h sz
  · exact ro_contMatch h hP sz
  · exact ro_contStart h hP sz
  · exact ro_contEvalR h
  · exact ro_contCloArgs h sz
  · exact (h.setSt (.refl ρ) (h.st.setAtomic false)).ret h.r
  · exact ro_contMap h sz
  · exact ro_contGuard h
  · exact h.raise h.r
  · exact ro_contVar h
  · exact ro_contSetq h
  · exact ro_contLoop h sz
  · exact ro_contLoopCond h sz
  · exact ro_contCloRest h sz
  · exact ro_contHandler h
  · exact RO.out

/-- A step of two machines that are the same except for addresses and garbage. -/
theorem ro_step : RO ρ (step sz P m) (step sz P m') := by
  unfold step
  refine ro_ite (by rw [h.app]) (fun _ _ => ?_) (fun _ _ => ?_)
  · have hK := h.K
    generalize m.K = K at hK
    generalize m'.K = K' at hK
    rcases hK with _ | ⟨(_ | c | _ | _), hK⟩ <;> first | exact RO.ub | skip
    rename_i K K'
    exact ro_runCont (m := { m with K := K, app := false }) (m' := { m' with K := K', app := false }) ⟨h.st, hK, h.r, h.exp, h.env, h.program, rfl, h.flags⟩ hP sz c
  · have he := h.exp
    generalize m.exp = e at he
    generalize m'.exp = e' at he
    cases he with
    | sym n => exact ro_evalSymbol h n
    | cons hc =>
      dsimp only
      rw [(h.st.car hc).special]
      split
      · exact ro_evalSpecial h sz _
      · refine ro_reserve h (.cons (.k 10) (.cons (.v (h.st.cdr hc)) (.cons (.v h.env) .nil))) (fun h1 => ?_)
        exact h1.go (h.st.car hc) h.env
    | u n => exact h.ret (.u n)
    | atom n => exact h.ret (.atom n)
    | arr hk => exact h.ret (.arr hk)

end

end Verif.Eval
