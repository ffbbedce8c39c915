import Verif.Eval.Sim

/-!
# The evaluator follows the semantics: the simulation
-/

namespace Verif.Eval

theorem isCons_eq {v : V} (h : v.isCons = true) : ∃ a, v = .cons a := by
  cases v <;> simp [V.isCons] at h ⊢

/-- `Ends` for a machine that takes one step first. -/
theorem Ends.step_eq {P : Prims} {K : List W} {s : St} {fl : Nat} {prog : V} {res : Res} {m : M} {o : Out} (h : Verif.Eval.step none P m = o)
    (e : Ends P K s fl prog o res) : Ends P K s fl prog (.next m) res := Ends.step (h ▸ e)

theorem Ends.err_K {P : Prims} {K : List W} {s : St} {fl : Nat} {prog : V} {e : V} {o : Out} (K' : List W) {r x env : V} {app : Bool}
    (h : o = Verif.Eval.raise ⟨K' ++ K, r, x, env, app, fl, prog, s⟩ e) (hc : clean K') : Ends P K s fl prog o (.err e) :=
  h ▸ Ends.raise K' hc

theorem Ends.ok_K {P : Prims} {K : List W} {s : St} {fl : Nat} {prog : V} {v : V} {o : Out} {x env : V}
    (h : o = .next ⟨K, v, x, env, true, fl, prog, s⟩) : Ends P K s fl prog o (.ok v) := h ▸ Ends.ret

theorem unwind_clean (m : M) (e : V) (f : Nat) (rv : V) (K : List W) : ∀ ws : List W, clean ws →
    unwind m e (ws ++ .k 45 :: .raw f :: .v rv :: K) =
      .next { m with K := .k 45 :: .raw f :: .v rv :: K, app := true, r := e, st := m.st.setCar rv .exitError }
  | [], _ => by rw [List.nil_append]; rfl
  | w :: ws, h => by
    have h' := clean_cons.1 h
    rw [List.cons_append]
    rw [unwind.eq_def]
    split
    · simp_all
    · rename_i h1; simp at h1; simp_all
    · rename_i h1; simp at h1; simp_all
    · rename_i h1; simp at h1; simp_all
    · rename_i w' K' h1 h2 h3 h4
      obtain ⟨rfl, rfl⟩ := List.cons.inj h4
      exact unwind_clean m e f rv K ws h'.2

theorem flagUnroll_set (f : Nat) : flagUnroll (setUnroll f) = true := by
  unfold setUnroll
  split
  · assumption
  · rename_i h; simp only [flagUnroll, decide_eq_true_eq] at *; omega

theorem flagTrap_set (f : Nat) : flagTrap (setUnroll f) = flagTrap f := by
  unfold setUnroll
  split
  · rfl
  · simp only [flagTrap]; congr 1; rw [eq_iff_iff]; omega

theorem flagConst_set (f : Nat) : flagConst (setUnroll f) = flagConst f := by
  unfold setUnroll
  split
  · rfl
  · simp only [flagConst]; congr 1; rw [eq_iff_iff]; omega

theorem raise_trap {K' K : List W} {r x env e rv prog : V} {app : Bool} {fl fl' : Nat} {s : St} (ht : flagTrap fl = false) (hu : flagUnroll fl = true)
    (he : e ≠ .fatal) (hc : clean K') :
    raise ⟨K' ++ .k 45 :: .raw fl' :: .v rv :: K, r, x, env, app, fl, prog, s⟩ e =
      .next ⟨.k 45 :: .raw fl' :: .v rv :: K, e, x, env, true, fl, prog, s.setCar rv .exitError⟩ := by
  unfold raise
  simp only [ht, hu, Bool.false_eq_true, if_false, Bool.true_and, decide_eq_true_eq, ne_eq, he, not_false_eq_true, decide_true, if_true]
  exact unwind_clean _ e fl' rv K K' hc

set_option maxHeartbeats 1000000 in
theorem sim {P : Prims} {s s' : St} {sc sc' : Scope} {t : Task} {r : Res} (h : Ev P false s sc t s' sc' r) :
    ∀ fl prog, flagTrap fl = false → flagConst fl = false → ∀ rest K0 o,
      Starts P (frame sc rest K0) s fl prog o t → Ends P (frame sc' rest K0) s' fl prog o r := by
  induction h with
  | sub_ok h1 h2 ih1 ih2 =>
    rintro fl prog ht hc rest K0 o ⟨r, rfl⟩
    exact Ends.then_ (ih1 fl prog ht hc rest _ _ ⟨r, rfl⟩) (fun x env => ih2 fl prog ht hc rest K0 _ ⟨x, env, rfl⟩)
  | @sub_err s s1 sc f env e x h1 ih1 =>
    rintro fl prog ht hc rest K0 o ⟨r, rfl⟩
    exact Ends.below (clean_words f) (ih1 fl prog ht hc rest (.k f.code :: (f.words ++ frame sc rest K0)) _ ⟨r, rfl⟩)
  | @self s sc env e h1 h2 =>
    rintro fl prog ht hc rest K0 o ⟨r, rfl⟩
    refine Ends.step_eq (o := .next ⟨frame sc rest K0, e, e, env, true, fl, prog, s⟩) ?_ Ends.ret
    · cases e <;> simp_all [step, V.isSym, V.isCons, M.ret]
  | @name s sc env n h1 =>
    rintro fl prog ht hc rest K0 o ⟨r, rfl⟩
    exact Ends.step_eq (by simp only [step, Bool.false_eq_true, if_false, evalSymbol, if_neg (show ¬ runtimeStart ≤ n by omega)]; rfl) Ends.ret
  | @loc s sc env n v h1 h2 =>
    rintro fl prog ht hc rest K0 o ⟨r, rfl⟩
    exact Ends.step_eq (by simp only [step, Bool.false_eq_true, if_false, evalSymbol, if_pos h1, h2]; rfl) Ends.ret
  | @glob s sc env n v h1 h2 h3 =>
    rintro fl prog ht hc rest K0 o ⟨r, rfl⟩
    exact Ends.step_eq (by simp only [step, Bool.false_eq_true, if_false, evalSymbol, if_pos h1, h2, h3]; rfl) Ends.ret
  | @unbound s sc env n h1 h2 h3 =>
    rintro fl prog ht hc rest K0 o ⟨r, rfl⟩
    exact Ends.step_eq (by simp only [step, Bool.false_eq_true, if_false, evalSymbol, if_pos h1, h2, h3]; rfl) (Ends.raise [] clean_nil)
  | @quote s sc env e v h1 h2 =>
    rintro fl prog ht hc rest K0 o ⟨r, rfl⟩
    exact Ends.step_eq (by rw [step_form 0 h1 rfl (by omega)]; simp only [evalSpecial, evalQuote, h2]; rfl) Ends.ret
  | @fnval s sc env e n h1 h2 =>
    rintro fl prog ht hc rest K0 o ⟨r, rfl⟩
    rcases h2 with rfl | rfl | rfl
    · exact Ends.step_eq (by rw [step_form 13 h1 rfl (by omega)]; rfl) Ends.ret
    · exact Ends.step_eq (by rw [step_form 14 h1 rfl (by omega)]; rfl) Ends.ret
    · exact Ends.step_eq (by rw [step_form 15 h1 rfl (by omega)]; rfl) Ends.ret
  | @define s s' sc sc' env e n r h1 h2 h3 h4 h5 ih =>
    rintro fl prog ht hc rest K0 o ⟨r, rfl⟩
    refine Ends.step ?_
    rw [step_form 1 h1 rfl (by omega)]
    refine ih fl prog ht hc rest K0 _ ⟨r, ?_⟩
    simp only [evalSpecial, evalDefine, reserve_none, h2, h4, h3, if_true, hc, Bool.false_eq_true, if_false]; rfl
  | @define_k s s' sc n v h1 =>
    rintro fl prog ht hc rest K0 o ⟨x, env, rfl⟩
    exact Ends.ok_K (by simp only [Frame.code, Frame.words, runCont, contDefine, List.cons_append, List.nil_append, h1]; rfl)
  | define_bad h => cases h
  | @progn s s' sc sc' env e exps r h1 h2 h3 ih =>
    rintro fl prog ht hc rest K0 o ⟨r, rfl⟩
    refine Ends.step_eq (by rw [step_form 2 h1 rfl (by omega)]) ?_
    exact ih fl prog ht hc rest K0 _ ⟨r, e, h2, rfl⟩
  | @body_nil s sc env =>
    rintro fl prog ht hc rest K0 o ⟨r, x, hx, rfl⟩
    exact Ends.ok_K (by simp only [evalProgn, hx]; rfl)
  | @body_last s s' sc env a r h1 h2 ih =>
    rintro fl prog ht hc rest K0 o ⟨r, x, hx, rfl⟩
    refine ih fl prog ht hc rest (frame sc rest K0) _ ⟨r, ?_⟩
    simp only [evalProgn, hx, h1, Bool.false_eq_true, if_false]; rfl
  | @body_more s s1 s2 sc sc' env a env1 c v r h1 h2 h3 ih1 ih2 =>
    rintro fl prog ht hc rest K0 o ⟨r, x, hx, rfl⟩
    have e := ih1 fl prog ht hc (.v (s.cdr a)) (frame sc rest K0) (evalProgn none ⟨frame sc rest K0, r, x, env, false, fl, prog, s⟩)
      ⟨r, by simp only [evalProgn, hx, h1, if_true, reserve_none]; rfl⟩
    exact Ends.then_ (f := .more env1 c (s.cdr a)) e (fun x env => ih2 fl prog ht hc rest K0 _ ⟨x, env, rfl⟩)
  | @body_err s s1 sc env a sc1 x h1 h2 ih1 =>
    rintro fl prog ht hc rest K0 o ⟨r, x, hx, rfl⟩
    obtain ⟨penv, c⟩ := sc1
    have e := ih1 fl prog ht hc (.v (s.cdr a)) (frame sc rest K0) (evalProgn none ⟨frame sc rest K0, r, x, env, false, fl, prog, s⟩)
      ⟨r, by simp only [evalProgn, hx, h1, if_true, reserve_none]; rfl⟩
    exact Ends.below (clean_words (.more penv c (s.cdr a))) e
  | @more_last s s' sc env c a v r h1 h2 ih =>
    rintro fl prog ht hc rest K0 o ⟨x, env', rfl⟩
    refine ih fl prog ht hc rest (frame sc rest K0) _ ⟨v, ?_⟩
    simp only [Frame.code, Frame.words, runCont, contProgn, List.cons_append, List.nil_append, h1, Bool.false_eq_true, if_false]; rfl
  | @more s s1 s2 sc sc' env c a v env1 c1 w r h1 h2 h3 ih1 ih2 =>
    rintro fl prog ht hc rest K0 o ⟨x, env', rfl⟩
    have e := ih1 fl prog ht hc (.v (s.cdr a)) (frame sc rest K0) _
      ⟨v, show runCont none P (Frame.more env c (.cons a)).code ⟨(Frame.more env c (.cons a)).words ++ frame sc rest K0, v, x, env', false, fl, prog, s⟩ = _ by
        simp only [Frame.code, Frame.words, runCont, contProgn, List.cons_append, List.nil_append, h1, if_true, reserve_none]; rfl⟩
    exact Ends.then_ (f := .more env1 c1 (s.cdr a)) e (fun x env => ih2 fl prog ht hc rest K0 _ ⟨x, env, rfl⟩)
  | @more_err s s1 sc env c a v sc1 x h1 h2 ih1 =>
    rintro fl prog ht hc rest K0 o ⟨x, env', rfl⟩
    obtain ⟨penv, c'⟩ := sc1
    have e := ih1 fl prog ht hc (.v (s.cdr a)) (frame sc rest K0) _
      ⟨v, show runCont none P (Frame.more env c (.cons a)).code ⟨(Frame.more env c (.cons a)).words ++ frame sc rest K0, v, x, env', false, fl, prog, s⟩ = _ by
        simp only [Frame.code, Frame.words, runCont, contProgn, List.cons_append, List.nil_append, h1, if_true, reserve_none]; rfl⟩
    exact Ends.below (clean_words (.more penv c' (s.cdr a))) e
  | @var s s1 s2 s3 env e c penv1 penv2 args key x r h1 h2 h3 h4 h5 h6 h7 ih =>
    rintro fl prog ht hc rest K0 o ⟨r0, rfl⟩
    refine Ends.step ?_
    rw [step_form 18 h1 rfl (by omega)]
    refine ih fl prog ht hc rest (frame (some (penv2, if c = 0 then 1 else c)) rest K0) _ ⟨r0, ?_⟩
    simp only [evalSpecial, evalVar, frame, h2, h3, h4, h5, h6, reserve_none]; rfl
  | @var_k s s' sc env key v h1 =>
    rintro fl prog ht hc rest K0 o ⟨x, env', rfl⟩
    exact Ends.ok_K (by simp only [Frame.code, Frame.words, runCont, contVar, List.cons_append, List.nil_append, h1]; rfl)
  | @var_bad s s' sc env key v h1 =>
    rintro fl prog ht hc rest K0 o ⟨x, env', rfl⟩
    exact Ends.err_K [] (by simp only [Frame.code, Frame.words, runCont, contVar, List.cons_append, List.nil_append, h1]; rfl) clean_nil
  | @lambda s s' sc env e c h1 h2 =>
    rintro fl prog ht hc rest K0 o ⟨r, rfl⟩
    exact Ends.step_eq (by rw [step_form 3 h1 rfl (by omega)]; simp only [evalSpecial, evalLambda, h2]; rfl) Ends.ret
  | @ite s s' sc sc' env e d br c r h1 h2 h3 h4 h5 ih =>
    rintro fl prog ht hc rest K0 o ⟨r0, rfl⟩
    refine Ends.step ?_
    rw [step_form 4 h1 rfl (by omega)]
    refine ih fl prog ht hc rest K0 _ ⟨r0, ?_⟩
    simp only [evalSpecial, evalIf, h2, h3, h4, reserve_none]; rfl
  | @ite_true s s' sc sc' env br v e r h1 h2 h3 ih =>
    rintro fl prog ht hc rest K0 o ⟨x, env', rfl⟩
    refine ih fl prog ht hc rest K0 _ ⟨v, ?_⟩
    simp only [Frame.code, Frame.words, runCont, contIf, List.cons_append, List.nil_append, if_neg h1, h2]; rfl
  | @ite_false s s' sc sc' env br e r h2 h3 ih =>
    rintro fl prog ht hc rest K0 o ⟨x, env', rfl⟩
    refine ih fl prog ht hc rest K0 _ ⟨.nil, ?_⟩
    simp only [Frame.code, Frame.words, runCont, contIf, List.cons_append, List.nil_append, if_true, h2]; rfl
  | @cond_nil s sc env e h1 h2 =>
    rintro fl prog ht hc rest K0 o ⟨r, rfl⟩
    exact Ends.step_eq (by rw [step_form 16 h1 rfl (by omega)]; simp only [evalSpecial, evalCond, h2, if_true]; rfl) Ends.ret
  | @cond s s1 s2 s3 s' sc sc' env e c1 other t br r h1 h2 h3 h4 h5 h6 h7 h8 ih =>
    rintro fl prog ht hc rest K0 o ⟨r0, rfl⟩
    refine Ends.step ?_
    rw [step_form 16 h1 rfl (by omega)]
    refine ih fl prog ht hc rest K0 _ ⟨r0, ?_⟩
    simp only [evalSpecial, evalCond, h2, if_neg h3, h4, ne_eq, not_true_eq_false, if_false, h5, h6, h7, reserve_none]; rfl
  | @cond_bad s sc env e n h1 h2 h3 h4 =>
    rintro fl prog ht hc rest K0 o ⟨r0, rfl⟩
    exact Ends.step_eq (by
      rw [step_form 16 h1 rfl (by omega)]
      simp only [evalSpecial, evalCond, if_neg h2, h3, ne_eq, h4, not_false_eq_true, if_true]; rfl) (Ends.raise [] clean_nil)
  | @letf s s' sc sc' env e r h1 h2 ih =>
    rintro fl prog ht hc rest K0 o ⟨r0, rfl⟩
    refine Ends.step_eq (by rw [step_form 5 h1 rfl (by omega)]) ?_
    exact ih fl prog ht hc rest K0 _ ⟨r0, e, rfl⟩
  | @letb_none s s' sc env binds body r h1 h2 ih =>
    rintro fl prog ht hc rest K0 o ⟨r0, x, rfl⟩
    refine ih fl prog ht hc rest (frame sc rest K0) _ ⟨r0, ?_⟩
    cases binds <;> first | (simp [V.isCons] at h1; done) | rfl
  | @letb s s1 s' sc sc' env a body env1 r h1 h2 ih =>
    rintro fl prog ht hc rest K0 o ⟨r0, x, rfl⟩
    refine ih fl prog ht hc rest K0 _ ⟨r0, ?_⟩
    simp only [letBind, h1, reserve_none]; rfl
  | @bind_more s s1 s' sc sc' body a env key v r h1 h2 ih =>
    rintro fl prog ht hc rest K0 o ⟨x, env', rfl⟩
    refine ih fl prog ht hc rest K0 _ ⟨v, ?_⟩
    simp only [Frame.code, Frame.words, runCont, contBind, List.cons_append, List.nil_append, h1, reserve_none]; rfl
  | @bind_last s s1 s' sc body rest' env key v r h1 h2 h3 ih =>
    rintro fl prog ht hc rest K0 o ⟨x, env', rfl⟩
    refine ih fl prog ht hc rest (frame sc rest K0) _ ⟨v, ?_⟩
    cases rest' <;> first
      | (simp [V.isCons] at h1; done)
      | (simp only [Frame.code, Frame.words, runCont, contBind, List.cons_append, List.nil_append, h2]; rfl)
  | @bind_bad s s1 sc body rest' env key v h1 =>
    rintro fl prog ht hc rest K0 o ⟨x, env', rfl⟩
    exact Ends.err_K (Frame.bind body rest' env key).words
      (by simp only [Frame.code, runCont, contBind, Frame.words, List.cons_append, List.nil_append, h1]; rfl)
      (clean_cons.1 (clean_words (Frame.bind body rest' env key))).2
  | @and_nil s sc env e h1 h2 =>
    rintro fl prog ht hc rest K0 o ⟨r, rfl⟩
    exact Ends.step_eq (by rw [step_form 6 h1 rfl (by omega)]; simp only [evalSpecial, evalJunct, h2, if_true]; rfl) Ends.ret
  | @and s s' sc sc' env e rest' d x r h1 h2 h3 h4 h5 h6 ih =>
    rintro fl prog ht hc rest K0 o ⟨r0, rfl⟩
    refine Ends.step ?_
    rw [step_form 6 h1 rfl (by omega)]
    refine ih fl prog ht hc rest K0 _ ⟨r0, ?_⟩
    simp only [evalSpecial, evalJunct, h2, if_neg h3, h4, h5, reserve_none]; rfl
  | @and_false s sc env rest' =>
    rintro fl prog ht hc rest K0 o ⟨x, env', rfl⟩
    exact Ends.ok_K rfl
  | @and_last s sc env v h1 =>
    rintro fl prog ht hc rest K0 o ⟨x, env', rfl⟩
    exact Ends.ok_K (by simp only [Frame.code, Frame.words, runCont, contAnd, List.cons_append, List.nil_append, if_neg h1, if_true]; rfl)
  | @and_more s s' sc sc' env rest' d x v r h1 h2 h3 h4 h5 ih =>
    rintro fl prog ht hc rest K0 o ⟨x', env', rfl⟩
    refine ih fl prog ht hc rest K0 _ ⟨v, ?_⟩
    simp only [Frame.code, Frame.words, runCont, contAnd, List.cons_append, List.nil_append, if_neg h1, if_neg h2, h3, h4, reserve_none]; rfl
  | @or_nil s sc env e h1 h2 =>
    rintro fl prog ht hc rest K0 o ⟨r, rfl⟩
    exact Ends.step_eq (by rw [step_form 7 h1 rfl (by omega)]; simp only [evalSpecial, evalJunct, h2, if_true]; rfl) Ends.ret
  | @or s s' sc sc' env e rest' d x r h1 h2 h3 h4 h5 h6 ih =>
    rintro fl prog ht hc rest K0 o ⟨r0, rfl⟩
    refine Ends.step ?_
    rw [step_form 7 h1 rfl (by omega)]
    refine ih fl prog ht hc rest K0 _ ⟨r0, ?_⟩
    simp only [evalSpecial, evalJunct, h2, if_neg h3, h4, h5, reserve_none]; rfl
  | @or_true s sc env rest' v h1 =>
    rintro fl prog ht hc rest K0 o ⟨x, env', rfl⟩
    exact Ends.ok_K (by simp only [Frame.code, Frame.words, runCont, contOr, List.cons_append, List.nil_append, if_pos h1]; rfl)
  | @or_last s sc env =>
    rintro fl prog ht hc rest K0 o ⟨x, env', rfl⟩
    exact Ends.ok_K rfl
  | @or_more s s' sc sc' env rest' d x r h2 h3 h4 h5 ih =>
    rintro fl prog ht hc rest K0 o ⟨x', env', rfl⟩
    refine ih fl prog ht hc rest K0 _ ⟨.nil, ?_⟩
    simp only [Frame.code, Frame.words, runCont, contOr, List.cons_append, List.nil_append, ne_eq, not_true_eq_false, if_false, if_neg h2, h3, h4, reserve_none]; rfl
  | @mtch s s' sc sc' env e a r h1 h2 h3 ih =>
    rintro fl prog ht hc rest K0 o ⟨r0, rfl⟩
    refine Ends.step ?_
    rw [step_form 8 h1 rfl (by omega)]
    refine ih fl prog ht hc rest K0 _ ⟨r0, ?_⟩
    simp only [evalSpecial, evalMatch, h2, reserve_none]; rfl
  | @cases_nil s sc env v =>
    rintro fl prog ht hc rest K0 o ⟨x, env', rfl⟩
    exact Ends.ok_K rfl
  | @cases_no s s1 s' sc sc' env a v p n1 n2 env1 r h1 h2 h3 h4 h5 ih =>
    rintro fl prog ht hc rest K0 o ⟨x, env', rfl⟩
    refine Ends.of_steps 1 (o' := runCont none P (Frame.cases env (s1.cdr a)).code
      ⟨(Frame.cases env (s1.cdr a)).words ++ frame sc rest K0, v, x, env', false, fl, prog, s1⟩) ?_ (ih fl prog ht hc rest K0 _ ⟨x, env', rfl⟩)
    simp only [Frame.code, Frame.words, runCont, contMatch, List.cons_append, List.nil_append, h1, h2, h3, h4, reserve_none]; rfl
  | @cases_yes s s1 s' sc env a v p n1 env1 r h1 h2 h3 h4 h5 ih =>
    rintro fl prog ht hc rest K0 o ⟨x, env', rfl⟩
    refine ih fl prog ht hc rest (frame sc rest K0) _ ⟨v, ?_⟩
    simp only [Frame.code, Frame.words, runCont, contMatch, List.cons_append, List.nil_append, h1, h2, h3, h4, if_true]; rfl
  | @guard_yes s s1 s2 s' sc env a v p n1 n2 env1 g r h1 h2 h3 h4 h5 h6 h7 h8 ih1 ih2 =>
    rintro fl prog ht hc rest K0 o ⟨x, env', rfl⟩
    have e := ih1 fl prog ht hc rest (.k 24 :: .v v :: .v n2 :: .v env1 :: .k 9 :: .v env' :: .v (s1.cdr a) :: frame sc rest K0)
      (runCont none P (Frame.cases env (.cons a)).code ⟨(Frame.cases env (.cons a)).words ++ frame sc rest K0, v, x, env', false, fl, prog, s⟩)
      ⟨v, by simp only [Frame.code, Frame.words, runCont, contMatch, List.cons_append, List.nil_append, h1, h2, h3, h5, if_neg h4, reserve_none]; rfl⟩
    obtain ⟨n, y, envy, hn⟩ := e
    refine Ends.of_steps n hn (Ends.step ?_)
    refine ih2 fl prog ht hc rest (frame sc rest K0) _ ⟨g, ?_⟩
    simp only [frame, step, if_true, runCont, contGuard, if_neg h7]; rfl
  | @guard_err s s1 s2 sc env a v p n1 n2 env1 x h1 h2 h3 h4 h5 h6 ih1 =>
    rintro fl prog ht hc rest K0 o ⟨x', env', rfl⟩
    have e := ih1 fl prog ht hc rest (.k 24 :: .v v :: .v n2 :: .v env1 :: .k 9 :: .v env' :: .v (s1.cdr a) :: frame sc rest K0)
      (runCont none P (Frame.cases env (.cons a)).code ⟨(Frame.cases env (.cons a)).words ++ frame sc rest K0, v, x', env', false, fl, prog, s⟩)
      ⟨v, by simp only [Frame.code, Frame.words, runCont, contMatch, List.cons_append, List.nil_append, h1, h2, h3, h5, if_neg h4, reserve_none]; rfl⟩
    exact Ends.below (ws := [.k 24, .v v, .v n2, .v env1, .k 9, .v env', .v (s1.cdr a)]) (by simp [clean_cons, clean_nil]) e
  | guard_no h => cases h
  | @setq s s' sc sc' env e r h1 h2 ih =>
    rintro fl prog ht hc rest K0 o ⟨r0, rfl⟩
    refine Ends.step ?_
    rw [step_form 19 h1 rfl (by omega)]
    refine ih fl prog ht hc rest K0 _ ⟨r0, ?_⟩
    simp only [evalSpecial, evalSetq, reserve_none]; rfl
  | @setq_k s s' sc env n v h1 h2 =>
    rintro fl prog ht hc rest K0 o ⟨x, env', rfl⟩
    exact Ends.ok_K (by simp only [Frame.code, Frame.words, runCont, contSetq, List.cons_append, List.nil_append, if_pos h1, h2]; rfl)
  | @setq_bad s s' sc env n v h1 h2 =>
    rintro fl prog ht hc rest K0 o ⟨x, env', rfl⟩
    exact Ends.err_K [] (by simp only [Frame.code, Frame.words, runCont, contSetq, List.cons_append, List.nil_append, if_pos h1, h2]; rfl) clean_nil
  | @atomic s s' sc env e exps v h1 h2 h3 h4 ih =>
    rintro fl prog ht hc rest K0 o ⟨r0, rfl⟩
    refine Ends.step ?_
    rw [step_form 12 h1 rfl (by omega)]
    simp only [evalSpecial, evalAtomic, h2, Bool.false_eq_true, if_false, reserve_none]
    obtain ⟨n, y, envy, hn⟩ := ih fl prog ht hc rest (.k 14 :: frame sc rest K0) _ ⟨r0, e, h3, rfl⟩
    refine Ends.of_steps n hn (Ends.step ?_)
    exact Ends.ok_K rfl
  | atomic_err h => cases h
  | @trap_ok s s1 s2 s' sc env e x rv v h1 h2 h3 h4 h5 ih =>
    rintro fl prog ht hc rest K0 o ⟨r0, rfl⟩
    refine Ends.step_eq (o := .next ⟨.k 45 :: .raw fl :: .v rv :: frame sc rest K0, r0, x, env, false, setUnroll fl, prog, s1⟩) (by
      rw [step_form 22 h1 rfl (by omega)]
      cases h3
      simp only [evalSpecial, evalTrap, h2, reserve_none]; rfl) ?_
    obtain ⟨n, y, envy, hn⟩ := ih (setUnroll fl) prog (by rw [flagTrap_set]; exact ht) (by rw [flagConst_set]; exact hc) rest
      (.k 45 :: .raw fl :: .v rv :: frame sc rest K0) _ ⟨r0, rfl⟩
    refine Ends.of_steps n hn (Ends.step ?_)
    refine Ends.ok_K (x := y) (env := envy) ?_
    revert h5
    simp only [St.setSecond, frame, step, if_true, runCont, contHandler]
    split <;> intro h5 <;> cases h5
    rename_i c hc'
    simp only [hc']; rfl
  | @trap_err s s1 s2 s' sc env e x rv v h1 h2 h3 h4 h5 h6 ih =>
    rintro fl prog ht hc rest K0 o ⟨r0, rfl⟩
    refine Ends.step_eq (o := .next ⟨.k 45 :: .raw fl :: .v rv :: frame sc rest K0, r0, x, env, false, setUnroll fl, prog, s1⟩) (by
      rw [step_form 22 h1 rfl (by omega)]
      cases h3
      simp only [evalSpecial, evalTrap, h2, reserve_none]; rfl) ?_
    obtain ⟨n, K', y, z, envy, app, hn, hcl⟩ := ih (setUnroll fl) prog (by rw [flagTrap_set]; exact ht) (by rw [flagConst_set]; exact hc) rest
      (.k 45 :: .raw fl :: .v rv :: frame sc rest K0) _ ⟨r0, rfl⟩
    refine Ends.of_steps n hn ?_
    rw [show frame none rest (.k 45 :: .raw fl :: .v rv :: frame sc rest K0) = .k 45 :: .raw fl :: .v rv :: frame sc rest K0 from rfl,
      raise_trap (by rw [flagTrap_set]; exact ht) (flagUnroll_set fl) h5 hcl]
    refine Ends.step (Ends.ok_K (x := z) (env := envy) ?_)
    revert h6
    simp only [St.setSecond, step, if_true, runCont, contHandler]
    split <;> intro h6 <;> cases h6
    rename_i c hc'
    simp only [hc']; rfl
  | trap_fatal h1 h2 h3 h4 h => cases h
  | loop h => cases h
  | loop_end h => cases h
  | loop_again h => cases h
  | @app s s' sc sc' env a r h1 h2 ih =>
    rintro fl prog ht hc rest K0 o ⟨r0, rfl⟩
    refine Ends.step_eq (by simp only [step, Bool.false_eq_true, if_false, h1, reserve_none]; rfl) ?_
    exact ih fl prog ht hc rest K0 _ ⟨r0, rfl⟩
  | @start_sym s s' sc sc' env args n r h1 ih =>
    rintro fl prog ht hc rest K0 o ⟨x, env', rfl⟩
    refine ih fl prog ht hc rest K0 _ ⟨x, env', ?_⟩
    simp only [Frame.code, Frame.words, runCont, contStart, reserve_none]; rfl
  | @start_bad s sc env args f h1 h2 =>
    rintro fl prog ht hc rest K0 o ⟨x, env', rfl⟩
    refine Ends.err_K (Frame.start env args).words (r := f) (x := x) (env := env') (app := false) ?_ (clean_cons.1 (clean_words (Frame.start env args))).2
    cases f with
    | sym n => simp [V.isSym] at h1
    | cons a =>
      obtain ⟨g1, g2, g3⟩ := h2 a rfl
      simp only [Frame.code, Frame.words, runCont, contStart, List.cons_append, List.nil_append, if_neg g1, if_neg g2, if_neg g3]
    | _ => rfl
  | @start_clo s s' sc sc' env args c a0 as r h1 h2 h3 h4 h5 h6 ih =>
    rintro fl prog ht hc rest K0 o ⟨x, env', rfl⟩
    refine ih fl prog ht hc rest K0 _ ⟨.cons c, ?_⟩
    simp only [Frame.code, Frame.words, runCont, contStart, List.cons_append, List.nil_append, h1, if_true, h4, h5, reserve_none]
    rw [if_pos ⟨h2, h3⟩]; rfl
  | @start_thunk s s' sc env c r h1 h2 h3 ih =>
    rintro fl prog ht hc rest K0 o ⟨x, env', rfl⟩
    refine ih fl prog ht hc rest (frame sc rest K0) _ ⟨.cons c, ?_⟩
    simp only [Frame.code, Frame.words, runCont, contStart, List.cons_append, List.nil_append, h1, if_true, St.gcar, St.gcdr, reserve_none]
    rw [if_neg (fun h => h.1 rfl), if_pos ⟨trivial, h2⟩]; rfl
  | @start_rest s s1 s' sc sc' env args c a0 as rb r h1 h2 h3 h4 h5 h6 h7 ih =>
    rintro fl prog ht hc rest K0 o ⟨x, env', rfl⟩
    refine ih fl prog ht hc rest K0 _ ⟨.cons c, ?_⟩
    simp only [Frame.code, Frame.words, runCont, contStart, List.cons_append, List.nil_append, h1, if_true, h4, h5, reserve_none]
    rw [if_neg (fun h => h.2 h3), if_neg (fun h => h2 h.1), if_pos h3, h6]; rfl
  | start_few h => cases h
  | @pars_more s s1 s' sc sc' aenv body cenv params args v p ps env a as r h1 h2 h3 h4 h5 h6 h7 h8 ih =>
    rintro fl prog ht hc rest K0 o ⟨x, env', rfl⟩
    refine ih fl prog ht hc rest K0 _ ⟨v, ?_⟩
    simp only [Frame.code, Frame.words, runCont, contCloArgs, List.cons_append, List.nil_append, h1, h2, h3, h6, h7, reserve_none]
    rw [if_pos ⟨h4, h5⟩]; rfl
  | @pars_last s s1 s' sc aenv body cenv params v p env r h1 h2 h3 h4 ih =>
    rintro fl prog ht hc rest K0 o ⟨x, env', rfl⟩
    refine ih fl prog ht hc rest (frame sc rest K0) _ ⟨v, ?_⟩
    simp only [Frame.code, Frame.words, runCont, contCloArgs, List.cons_append, List.nil_append, h1, h2, h3]
    rw [if_neg (fun h => h.1 rfl), if_pos ⟨trivial, trivial⟩]; rfl
  | @pars_rest s s1 s2 s' sc sc' aenv body cenv params args v p env rb a as r h1 h2 h3 h4 h5 h6 h7 h8 ih =>
    rintro fl prog ht hc rest K0 o ⟨x, env', rfl⟩
    refine ih fl prog ht hc rest K0 _ ⟨v, ?_⟩
    simp only [Frame.code, Frame.words, runCont, contCloArgs, List.cons_append, List.nil_append, h1, h2, h3, h5, h6, h7, reserve_none]
    rw [if_neg (fun h => h.2 rfl), if_neg (fun h => h4 h.1), if_pos trivial]; rfl
  | @pars_few s s1 sc aenv body cenv params v p ps env h1 h2 h3 h4 =>
    rintro fl prog ht hc rest K0 o ⟨x, env', rfl⟩
    refine Ends.err_K (Frame.pars aenv body cenv params .nil).words (r := v) (x := x) (env := env') (app := false) ?_
      (clean_cons.1 (clean_words (Frame.pars aenv body cenv params .nil))).2
    simp only [Frame.code, Frame.words, runCont, contCloArgs, List.cons_append, List.nil_append, h1, h2, h4]
    rw [if_neg (fun h => h.1 rfl), if_neg (fun h => h3 h.2), if_neg h3]
  | @rest_last s s1 s' sc aenv body cenv last v b r h1 h2 ih =>
    rintro fl prog ht hc rest K0 o ⟨x, env', rfl⟩
    refine ih fl prog ht hc rest (frame sc rest K0) _ ⟨v, ?_⟩
    simp only [Frame.code, Frame.words, runCont, contCloRest, List.cons_append, List.nil_append, h1, if_true]; rfl
  | @rest_more s s1 s' sc sc' aenv body cenv last args v b a as r h1 h2 h3 h4 h5 ih =>
    rintro fl prog ht hc rest K0 o ⟨x, env', rfl⟩
    refine ih fl prog ht hc rest K0 _ ⟨v, ?_⟩
    simp only [Frame.code, Frame.words, runCont, contCloRest, List.cons_append, List.nil_append, h1, if_neg h2, h3, h4, reserve_none]; rfl
  | @start_macro s s1 s' sc sc' env args c params d eenv e r h1 h2 h3 h4 h5 h6 ih =>
    rintro fl prog ht hc rest K0 o ⟨x, env', rfl⟩
    refine ih fl prog ht hc rest K0 _ ⟨.cons c, ?_⟩
    have g1 : ¬ V.macroSym = V.closure := by decide
    have g2 : ¬ V.macroSym = V.cont := by decide
    simp only [Frame.code, Frame.words, runCont, contStart, List.cons_append, List.nil_append, h1, if_neg g1, if_neg g2, if_true, h2, h3, h4, h5]; rfl
  | @evalR s s' sc sc' env v r h1 ih =>
    rintro fl prog ht hc rest K0 o ⟨x, env', rfl⟩
    exact ih fl prog ht hc rest K0 _ ⟨v, rfl⟩
  | @args_more s s' sc sc' env vals a v r h1 ih =>
    rintro fl prog ht hc rest K0 o ⟨x, env', rfl⟩
    refine ih fl prog ht hc rest K0 _ ⟨v, ?_⟩
    simp only [Frame.code, Frame.words, runCont, contArgs, List.cons_append, List.nil_append, reserve_none, List.length_cons, List.map_cons]; rfl
  | @prim_ok s s' sc env vals rest' v n args w h1 h2 h3 h4 =>
    rintro fl prog ht hc rest K0 o ⟨x, env', rfl⟩
    refine Ends.ok_K (x := x) (env := env) ?_
    rw [contArgs_done h1, application_eq rfl h2, if_pos h3]
    simp only [h4]; rfl
  | @prim_err s s' sc env vals rest' v n args x' h1 h2 h3 h4 =>
    rintro fl prog ht hc rest K0 o ⟨x, env', rfl⟩
    refine Ends.err_K ((v :: vals).map .v) (r := v) (x := x) (env := env) (app := false) ?_ (clean_vals _)
    rw [contArgs_done h1, application_eq rfl h2, if_pos h3]
    simp only [h4]; rfl
  | @setvar_ok s s' sc env vals rest' v n w h1 h2 h3 h4 =>
    rintro fl prog ht hc rest K0 o ⟨x, env', rfl⟩
    refine Ends.ok_K (x := x) (env := env) ?_
    rw [contArgs_done h1, application_eq rfl h2, if_neg (by decide), if_pos rfl]
    simp only [applySetvar, if_pos h3, h4]; rfl
  | @setvar_err s s' sc env vals rest' v n w h1 h2 h3 h4 =>
    rintro fl prog ht hc rest K0 o ⟨x, env', rfl⟩
    refine Ends.err_K ((v :: vals).map .v) (r := v) (x := x) (env := env) (app := false) ?_ (clean_vals _)
    rw [contArgs_done h1, application_eq rfl h2, if_neg (by decide), if_pos rfl]
    simp only [applySetvar, if_pos h3, h4]; rfl
  | @eval1 s s' sc env vals rest' v e r h1 h2 h3 ih =>
    rintro fl prog ht hc rest K0 o ⟨x, env', rfl⟩
    refine ih fl prog ht hc rest (frame sc rest K0) _ ⟨v, ?_⟩
    rw [contArgs_done h1, application_eq rfl h2, if_neg (by decide), if_neg (by decide), if_pos rfl]; rfl
  | @eval2 s s' sc env vals rest' v env1 e r h1 h2 h3 ih =>
    rintro fl prog ht hc rest K0 o ⟨x, env', rfl⟩
    refine ih fl prog ht hc rest (frame sc rest K0) _ ⟨v, ?_⟩
    rw [contArgs_done h1, application_eq rfl h2, if_neg (by decide), if_neg (by decide), if_pos rfl]; rfl
  | @exitError s sc env vals rest' v args h1 h2 =>
    rintro fl prog ht hc rest K0 o ⟨x, env', rfl⟩
    refine Ends.err_K ((v :: vals).map .v) (r := v) (x := x) (env := env) (app := false) ?_ (clean_vals _)
    rw [contArgs_done h1, application_eq rfl h2, if_neg (by decide), if_neg (by decide), if_neg (by decide), if_pos rfl]; rfl
  | @restArgs s sc env vals rest' v w h1 h2 h3 =>
    rintro fl prog ht hc rest K0 o ⟨x, env', rfl⟩
    refine Ends.ok_K (x := x) (env := env) ?_
    rw [contArgs_done h1, application_eq rfl h2, if_neg (by decide), if_neg (by decide), if_neg (by decide), if_neg (by decide), if_neg (by decide), if_pos rfl]
    simp only [applyRestArgs, h3]; rfl
  | @restArgs_none s sc env vals rest' v h1 h2 h3 =>
    rintro fl prog ht hc rest K0 o ⟨x, env', rfl⟩
    refine Ends.ok_K (x := x) (env := env) ?_
    rw [contArgs_done h1, application_eq rfl h2, if_neg (by decide), if_neg (by decide), if_neg (by decide), if_neg (by decide), if_neg (by decide), if_pos rfl]
    simp only [applyRestArgs, h3]; rfl
  | @map_nil s sc env vals rest' v f h1 h2 =>
    rintro fl prog ht hc rest K0 o ⟨x, env', rfl⟩
    refine Ends.ok_K (x := x) (env := env) ?_
    rw [contArgs_done h1, application_eq rfl h2, if_neg (by decide), if_neg (by decide), if_neg (by decide), if_neg (by decide), if_pos rfl]
    rfl
  | @map s s1 s2 s' sc sc' env vals rest' v f a arg call elt r h1 h2 h3 h4 h5 ih =>
    rintro fl prog ht hc rest K0 o ⟨x, env', rfl⟩
    refine ih fl prog ht hc rest K0 _ ⟨v, ?_⟩
    have hv : v = .cons a := by
      have := congrArg List.getLast? h2
      simpa using this
    subst hv
    rw [contArgs_done h1, application_eq rfl h2, if_neg (by decide), if_neg (by decide), if_neg (by decide), if_neg (by decide), if_pos rfl]
    cases h3; cases h4
    simp only [applyMap, reserve_none]; rfl
  | @map_more s s1 s2 s3 s' sc sc' env arg call last res a v elt r h1 h2 h3 h4 ih =>
    rintro fl prog ht hc rest K0 o ⟨x, env', rfl⟩
    refine ih fl prog ht hc rest K0 _ ⟨v, ?_⟩
    subst h1; subst h2; cases h3
    simp only [Frame.code, Frame.words, runCont, contMap, List.cons_append, List.nil_append, reserve_none]; rfl
  | @map_last s sc env arg call last res ls v h1 =>
    rintro fl prog ht hc rest K0 o ⟨x, env', rfl⟩
    refine Ends.ok_K (x := x) (env := env) ?_
    cases ls <;> first | (simp [V.isCons] at h1; done) | rfl
  | @map_bad s sc env vals rest' v args h1 h2 h3 =>
    rintro fl prog ht hc rest K0 o ⟨x, env', rfl⟩
    refine Ends.err_K ((v :: vals).map .v) (r := v) (x := x) (env := env) (app := false) ?_ (clean_vals _)
    rw [contArgs_done h1, application_eq rfl h2, if_neg (by decide), if_neg (by decide), if_neg (by decide), if_neg (by decide), if_pos rfl]
    unfold applyMap
    split
    · rename_i h; have := (h3 _ _ rfl).1; simp [V.isCons] at this
    · exact absurd rfl (h3 _ _ rfl).2
    · rfl
  | @notFun s sc env vals rest' v n args h1 h2 h3 =>
    rintro fl prog ht hc rest K0 o ⟨x, env', rfl⟩
    refine Ends.err_K ((v :: vals).map .v) (r := v) (x := x) (env := env) (app := false) ?_ (clean_vals _)
    rw [contArgs_done h1, application_eq rfl h2, if_neg (by omega), if_neg (by omega), if_neg (by omega), if_neg (by omega), if_neg (by omega), if_neg (by omega),
      if_neg (by omega)]
    rfl

end Verif.Eval
