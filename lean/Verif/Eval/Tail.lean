import Verif.Eval.Sim2

/-!
# Tail position

What is left to do after the other parts of an expression have been evaluated.
-/

namespace Verif.Eval

/-- `Tl P s t s' t'`: in the store `s` what is left to do of the task `t`, after one of its parts has been evaluated, is
the task `t'` in the store `s'`. The result of `t'` is the result of `t`. -/
inductive Tl (P : Prims) : St → Task → St → Task → Prop
  /- parts -/
  | sub_ok {s s1 f env e v} : Ev P false s none (.exp env e) s1 none (.ok v) → Tl P s (.sub f env e) s1 (.k f v)
  /- (progn e1 ... en) -/
  | progn {s env e exps} : s.isForm e 0x102 → s.gcdr e = some exps → Tl P s (.exp env e) s (.body env exps)
  | body_last {s env a} : (s.cdr a).isCons = false → Tl P s (.body env (.cons a)) s (.exp env (s.car a))
  | body_more {s s1 env a env1 c v} : (s.cdr a).isCons = true → Ev P false s (some (env, 0)) (.exp env (s.car a)) s1 (some (env1, c)) (.ok v) →
      Tl P s (.body env (.cons a)) s1 (.k (.more env1 c (s.cdr a)) v)
  | more_last {s env c a v} : (s.cdr a).isCons = false → Tl P s (.k (.more env c (.cons a)) v) s (.exp env (s.car a))
  | more {s s1 env c a v env1 c1 w} : (s.cdr a).isCons = true → Ev P false s (some (env, c)) (.exp env (s.car a)) s1 (some (env1, c1)) (.ok w) →
      Tl P s (.k (.more env c (.cons a)) v) s1 (.k (.more env1 c1 (s.cdr a)) w)
  /- (if c e1 e2) -/
  | ite {s env e d br c} : s.isForm e 0x104 → s.gcdr e = some d → s.gcdr d = some br → s.gcar d = some c → Tl P s (.exp env e) s (.sub (.ite env br) env c)
  | ite_true {s env br v e} : v ≠ .nil → s.gcar br = some e → Tl P s (.k (.ite env br) v) s (.exp env e)
  | ite_false {s env br e} : s.gcadr br = some e → Tl P s (.k (.ite env br) .nil) s (.exp env e)
  /- (cond (c1 e1) ... (cn en)) is (if c1 e1 (cond ... (cn en))) -/
  | cond {s s1 s2 s3 env e c1 other t br} : s.isForm e 0x110 → s.hd (s.tl e) = c1 → c1 ≠ .nil → s.len (s.next + 1) c1 = some 2 →
      s.cons .cond (s.tl (s.tl e)) = (s1, other) → s1.cons other .nil = (s2, t) → s2.cons (s.hd (s.tl c1)) t = (s3, br) →
      Tl P s (.exp env e) s3 (.sub (.ite env br) env (s.hd c1))
  /- (let ((x1 e1) ... (xn en)) body): all names are bound first, without values -/
  | letf {s env e} : s.isForm e 0x105 → Tl P s (.exp env e) s (.letb env (s.hd (s.tl e)) (s.hd (s.tl (s.tl e))))
  | letb_none {s env binds body} : binds.isCons = false → Tl P s (.letb env binds body) s (.exp env body)
  | letb {s s1 env a body env1} : letLocs s (s.next + 1) (.cons a) env = some (some (s1, env1)) →
      Tl P s (.letb env (.cons a) body) s1 (.sub (.bind body (s1.cdr a) env1 (s1.hd (s1.car a))) env1 (s1.hd (s1.tl (s1.car a))))
  | bind_more {s s1 body a env key v} : s.fillLoc (s.next + 1) key v env = some (s1, true) →
      Tl P s (.k (.bind body (.cons a) env key) v) s1 (.sub (.bind body (s1.cdr a) env (s1.hd (s1.car a))) env (s1.hd (s1.tl (s1.car a))))
  | bind_last {s s1 body rest env key v} : rest.isCons = false → s.fillLoc (s.next + 1) key v env = some (s1, true) →
      Tl P s (.k (.bind body rest env key) v) s1 (.exp env body)
  /- (and e1 ... en), (or e1 ... en) -/
  | and {s env e rest d x} : s.isForm e 0x106 → s.gcdr e = some rest → rest ≠ .nil → s.gcdr rest = some d → s.gcar rest = some x →
      Tl P s (.exp env e) s (.sub (.and env d) env x)
  | and_more {s env rest d x v} : v ≠ .nil → rest ≠ .nil → s.gcdr rest = some d → s.gcar rest = some x →
      Tl P s (.k (.and env rest) v) s (.sub (.and env d) env x)
  | or {s env e rest d x} : s.isForm e 0x107 → s.gcdr e = some rest → rest ≠ .nil → s.gcdr rest = some d → s.gcar rest = some x →
      Tl P s (.exp env e) s (.sub (.or env d) env x)
  | or_more {s env rest d x} : rest ≠ .nil → s.gcdr rest = some d → s.gcar rest = some x → Tl P s (.k (.or env rest) .nil) s (.sub (.or env d) env x)
  /- (match e (p1 e1) ... (pn gn en)): bodies and guards are evaluated in the environment of the match extended by the pattern -/
  | mtch {s env e a} : s.isForm e 0x108 → s.gcdr e = some (.cons a) → Tl P s (.exp env e) s (.sub (.cases env (s.cdr a)) env (s.car a))
  | cases_no {s s1 env a v p n1 n2 env1} : s.gcar (s.car a) = some p → s.gcadr (s.car a) = some n1 → (s.gcdr (s.car a)).bind s.gcadr = some n2 →
      s.matchP P.eq (s.next + 1) p v env = some (false, s1, env1) → Tl P s (.k (.cases env (.cons a)) v) s1 (.k (.cases env (s1.cdr a)) v)
  | cases_yes {s s1 env a v p n1 env1} : s.gcar (s.car a) = some p → s.gcadr (s.car a) = some n1 → (s.gcdr (s.car a)).bind s.gcadr = some .nil →
      s.matchP P.eq (s.next + 1) p v env = some (true, s1, env1) → Tl P s (.k (.cases env (.cons a)) v) s1 (.exp env1 n1)
  | guard_yes {s s1 s2 env a v p n1 n2 env1 g} : s.gcar (s.car a) = some p → s.gcadr (s.car a) = some n1 → (s.gcdr (s.car a)).bind s.gcadr = some n2 →
      n2 ≠ .nil → s.matchP P.eq (s.next + 1) p v env = some (true, s1, env1) → Ev P false s1 none (.exp env1 n1) s2 none (.ok g) → g ≠ .nil →
      Tl P s (.k (.cases env (.cons a)) v) s2 (.exp env1 n2)
  /- (f e1 ... en) -/
  | app {s env a} : special (s.car a) = none → Tl P s (.exp env (.cons a)) s (.sub (.start env (s.cdr a)) env (s.car a))
  | start_sym {s env args n} : Tl P s (.k (.start env args) (.sym n)) s (.k (.args env [] args) (.sym n))
  /- closures: arguments are evaluated in order, each is bound to its parameter, the others to `rest-args` -/
  | start_clo {s env args c a0 as} : s.car c = .closure → args ≠ .nil → s.hd (s.cdr c) ≠ .nil → s.gcar args = some a0 → s.gcdr args = some as →
      Tl P s (.k (.start env args) (.cons c)) s (.sub (.pars env (s.hd (s.tl (s.cdr c))) (s.hd (s.tl (s.tl (s.cdr c)))) (s.hd (s.cdr c)) as) env a0)
  | start_thunk {s env c} : s.car c = .closure → s.hd (s.cdr c) = .nil →
      Tl P s (.k (.start env .nil) (.cons c)) s (.exp (s.hd (s.tl (s.tl (s.cdr c)))) (s.hd (s.tl (s.cdr c))))
  | start_rest {s s1 env args c a0 as rb} : s.car c = .closure → args ≠ .nil → s.hd (s.cdr c) = .nil → s.gcar args = some a0 → s.gcdr args = some as →
      allocBinding s .restArgs .nil (s.hd (s.tl (s.tl (s.cdr c)))) = (s1, rb) →
      Tl P s (.k (.start env args) (.cons c)) s1 (.sub (.rest env (s.hd (s.tl (s.cdr c))) rb (s1.hd rb) as) env a0)
  | pars_more {s s1 aenv body cenv params args v p ps env a as} : s.gcar params = some p → s.gcdr params = some ps → allocBinding s p v cenv = (s1, env) →
      args ≠ .nil → ps ≠ .nil → s1.gcar args = some a → s1.gcdr args = some as →
      Tl P s (.k (.pars aenv body cenv params args) v) s1 (.sub (.pars aenv body env ps as) aenv a)
  | pars_last {s s1 aenv body cenv params v p env} : s.gcar params = some p → s.gcdr params = some .nil → allocBinding s p v cenv = (s1, env) →
      Tl P s (.k (.pars aenv body cenv params .nil) v) s1 (.exp env body)
  | pars_rest {s s1 s2 aenv body cenv params args v p env rb a as} : s.gcar params = some p → s.gcdr params = some .nil →
      allocBinding s p v cenv = (s1, env) → args ≠ .nil → allocBinding s1 .restArgs .nil env = (s2, rb) → s2.gcar args = some a → s2.gcdr args = some as →
      Tl P s (.k (.pars aenv body cenv params args) v) s2 (.sub (.rest aenv body rb (s2.hd rb) as) aenv a)
  | rest_last {s s1 aenv body cenv last v b} : s.cons v .nil = (s1, b) → Tl P s (.k (.rest aenv body cenv last .nil) v) (s1.setCdr last b) (.exp cenv body)
  | rest_more {s s1 aenv body cenv last args v b a as} : s.cons v .nil = (s1, b) → args ≠ .nil → (s1.setCdr last b).gcar args = some a →
      (s1.setCdr last b).gcdr args = some as → Tl P s (.k (.rest aenv body cenv last args) v) (s1.setCdr last b) (.sub (.rest aenv body cenv b as) aenv a)
  /- macros: the body is evaluated with the parameters bound to the argument expressions, then the result is evaluated -/
  | start_macro {s s1 env args c params d eenv e} : s.car c = .macroSym → s.gcadr (.cons c) = some params → s.gcdr (.cons c) = some d →
      s.macroEnv (s.next + 1) params args env = some (s1, eenv) → s1.gcadr d = some e → Tl P s (.k (.start env args) (.cons c)) s1 (.sub (.evalR env) eenv e)
  | evalR {s env v} : Tl P s (.k (.evalR env) v) s (.exp env v)
  /- built-in functions: arguments are evaluated in order -/
  | args_more {s env vals a v} : Tl P s (.k (.args env vals (.cons a)) v) s (.sub (.args env (v :: vals) (s.cdr a)) env (s.car a))
  | eval1 {s env vals rest v e} : rest.isCons = false → (v :: vals).reverse = [.sym 0x30008, e] → Tl P s (.k (.args env vals rest) v) s (.exp env e)
  | map {s s1 s2 env vals rest v f a arg call elt} : rest.isCons = false → (v :: vals).reverse = [.sym 0x3000D, f, .cons a] →
      s.callOf f (s.car a) = (s1, arg, call) → s1.cons (.cons a) .nil = (s2, elt) →
      Tl P s (.k (.args env vals rest) v) s2 (.sub (.map env arg call elt elt (s.cdr a)) env call)
  | map_more {s s1 s2 s3 env arg call last res a v elt} : s.setCar last v = s1 → s1.setCar arg (s1.car a) = s2 → s2.cons .nil .nil = (s3, elt) →
      Tl P s (.k (.map env arg call last res (.cons a)) v) (s3.setCdr last elt) (.sub (.map env arg call elt res (s1.cdr a)) env call)
  | eval2 {s env vals rest v env1 e} : rest.isCons = false → (v :: vals).reverse = [.sym 0x30008, env1, e] → Tl P s (.k (.args env vals rest) v) s (.exp env1 e)

/-- Any number of times. -/
inductive Tails (P : Prims) : St → Task → St → Task → Prop
  | refl {s t} : Tails P s t s t
  | step {s t s1 t1 s2 t2} : Tl P s t s1 t1 → Tails P s1 t1 s2 t2 → Tails P s t s2 t2

/-- The machine reaches the start of a task with the stack `K`. -/
def Reach (P : Prims) (K : List W) (s : St) (fl : Nat) (prog : V) (o : Out) (t : Task) : Prop :=
  ∃ n o', steps none P n o = o' ∧ Starts P K s fl prog o' t

theorem Reach.now {P K s fl prog o t} (h : Starts P K s fl prog o t) : Reach P K s fl prog o t := ⟨0, o, rfl, h⟩

theorem Reach.of_steps {P K s fl prog o o' t} (n : Nat) (h : steps none P n o = o') (e : Reach P K s fl prog o' t) : Reach P K s fl prog o t := by
  obtain ⟨m, o'', h1, h2⟩ := e
  exact ⟨n + m, o'', by rw [steps_add, h, h1], h2⟩

theorem Reach.step {P K s fl prog m t} (e : Reach P K s fl prog (step none P m) t) : Reach P K s fl prog (.next m) t := e.of_steps 1 rfl

theorem Reach.step_eq {P K s fl prog m o t} (h : Verif.Eval.step none P m = o) (e : Reach P K s fl prog o t) : Reach P K s fl prog (.next m) t :=
  Reach.step (h ▸ e)

theorem Reach.then_ {P : Prims} {K : List W} {s : St} {fl : Nat} {prog : V} {o : Out} {f : Frame} {v : V}
    (e : Ends P (.k f.code :: (f.words ++ K)) s fl prog o (.ok v)) : Reach P K s fl prog o (.k f v) := by
  obtain ⟨n, x, env, hn⟩ := e
  exact Reach.of_steps n hn (Reach.step (Reach.now ⟨x, env, rfl⟩))

set_option maxHeartbeats 1000000 in
theorem tl_reach {P : Prims} {s s' : St} {t t' : Task} (h : Tl P s t s' t') :
    ∀ fl prog, flagTrap fl = false → flagConst fl = false → ∀ K o, Starts P K s fl prog o t → Reach P K s' fl prog o t' := by
  induction h with
  | @sub_ok s1 f env e v h1 =>
    rintro fl prog ht hc K o ⟨r, rfl⟩
    exact Reach.then_ (sim h1 fl prog ht hc .junk (.k f.code :: (f.words ++ K)) _ ⟨r, rfl⟩)
  | @progn env e exps h1 h2 =>
    rintro fl prog ht hc K o ⟨r, rfl⟩
    refine Reach.step_eq (by rw [step_form 2 h1 rfl (by omega)]) ?_
    exact Reach.now ⟨r, e, h2, rfl⟩
  | @body_last env a h1 =>
    rintro fl prog ht hc K o ⟨r, x, hx, rfl⟩
    refine Reach.now ⟨r, ?_⟩
    simp only [evalProgn, hx, h1, Bool.false_eq_true, if_false]; rfl
  | @body_more s1 env a env1 c v h1 h2 =>
    rintro fl prog ht hc K o ⟨r, x, hx, rfl⟩
    have e := sim h2 fl prog ht hc (.v (s.cdr a)) (K) (evalProgn none ⟨K, r, x, env, false, fl, prog, s⟩)
      ⟨r, by simp only [evalProgn, hx, h1, if_true, reserve_none]; rfl⟩
    exact Reach.then_ (f := .more env1 c (s.cdr a)) e
  | @more_last env c a v h1 =>
    rintro fl prog ht hc K o ⟨x, env', rfl⟩
    refine Reach.now ⟨v, ?_⟩
    simp only [Frame.code, Frame.words, runCont, contProgn, List.cons_append, List.nil_append, h1, Bool.false_eq_true, if_false]; rfl
  | @more s1 env c a v env1 c1 w h1 h2 =>
    rintro fl prog ht hc K o ⟨x, env', rfl⟩
    have e := sim h2 fl prog ht hc (.v (s.cdr a)) (K) _
      ⟨v, show runCont none P (Frame.more env c (.cons a)).code ⟨(Frame.more env c (.cons a)).words ++ K, v, x, env', false, fl, prog, s⟩ = _ by
        simp only [Frame.code, Frame.words, runCont, contProgn, List.cons_append, List.nil_append, h1, if_true, reserve_none]; rfl⟩
    exact Reach.then_ (f := .more env1 c1 (s.cdr a)) e
  | @ite env e d br c h1 h2 h3 h4 =>
    rintro fl prog ht hc K o ⟨r0, rfl⟩
    refine Reach.step ?_
    rw [step_form 4 h1 rfl (by omega)]
    refine Reach.now ⟨r0, ?_⟩
    simp only [evalSpecial, evalIf, h2, h3, h4, reserve_none]; rfl
  | @ite_true env br v e h1 h2 =>
    rintro fl prog ht hc K o ⟨x, env', rfl⟩
    refine Reach.now ⟨v, ?_⟩
    simp only [Frame.code, Frame.words, runCont, contIf, List.cons_append, List.nil_append, if_neg h1, h2]; rfl
  | @ite_false env br e h1 =>
    rintro fl prog ht hc K o ⟨x, env', rfl⟩
    refine Reach.now ⟨.nil, ?_⟩
    simp only [Frame.code, Frame.words, runCont, contIf, List.cons_append, List.nil_append, if_true, h1]; rfl
  | @cond s1 s2 s3 env e c1 other t br h1 h2 h3 h4 h5 h6 h7 =>
    rintro fl prog ht hc K o ⟨r0, rfl⟩
    refine Reach.step ?_
    rw [step_form 16 h1 rfl (by omega)]
    refine Reach.now ⟨r0, ?_⟩
    simp only [evalSpecial, evalCond, h2, if_neg h3, h4, ne_eq, not_true_eq_false, if_false, h5, h6, h7, reserve_none]; rfl
  | @letf env e h1 =>
    rintro fl prog ht hc K o ⟨r0, rfl⟩
    refine Reach.step_eq (by rw [step_form 5 h1 rfl (by omega)]) ?_
    exact Reach.now ⟨r0, e, rfl⟩
  | @letb_none env binds body h1 =>
    rintro fl prog ht hc K o ⟨r0, x, rfl⟩
    refine Reach.now ⟨r0, ?_⟩
    cases binds <;> first | (simp [V.isCons] at h1; done) | rfl
  | @letb s1 env a body env1 h1 =>
    rintro fl prog ht hc K o ⟨r0, x, rfl⟩
    refine Reach.now ⟨r0, ?_⟩
    simp only [letBind, h1, reserve_none]; rfl
  | @bind_more s1 body a env key v h1 =>
    rintro fl prog ht hc K o ⟨x, env', rfl⟩
    refine Reach.now ⟨v, ?_⟩
    simp only [Frame.code, Frame.words, runCont, contBind, List.cons_append, List.nil_append, h1, reserve_none]; rfl
  | @bind_last s1 body rest env key v h1 h2 =>
    rintro fl prog ht hc K o ⟨x, env', rfl⟩
    refine Reach.now ⟨v, ?_⟩
    cases rest <;> first
      | (simp [V.isCons] at h1; done)
      | (simp only [Frame.code, Frame.words, runCont, contBind, List.cons_append, List.nil_append, h2]; rfl)
  | @and env e rest d x h1 h2 h3 h4 h5 =>
    rintro fl prog ht hc K o ⟨r0, rfl⟩
    refine Reach.step ?_
    rw [step_form 6 h1 rfl (by omega)]
    refine Reach.now ⟨r0, ?_⟩
    simp only [evalSpecial, evalJunct, h2, if_neg h3, h4, h5, reserve_none]; rfl
  | @and_more env rest d x v h1 h2 h3 h4 =>
    rintro fl prog ht hc K o ⟨x', env', rfl⟩
    refine Reach.now ⟨v, ?_⟩
    simp only [Frame.code, Frame.words, runCont, contAnd, List.cons_append, List.nil_append, if_neg h1, if_neg h2, h3, h4, reserve_none]; rfl
  | @or env e rest d x h1 h2 h3 h4 h5 =>
    rintro fl prog ht hc K o ⟨r0, rfl⟩
    refine Reach.step ?_
    rw [step_form 7 h1 rfl (by omega)]
    refine Reach.now ⟨r0, ?_⟩
    simp only [evalSpecial, evalJunct, h2, if_neg h3, h4, h5, reserve_none]; rfl
  | @or_more env rest d x h1 h2 h3 =>
    rintro fl prog ht hc K o ⟨x', env', rfl⟩
    refine Reach.now ⟨.nil, ?_⟩
    simp only [Frame.code, Frame.words, runCont, contOr, List.cons_append, List.nil_append, ne_eq, not_true_eq_false, if_false, if_neg h1, h2, h3, reserve_none]; rfl
  | @mtch env e a h1 h2 =>
    rintro fl prog ht hc K o ⟨r0, rfl⟩
    refine Reach.step ?_
    rw [step_form 8 h1 rfl (by omega)]
    refine Reach.now ⟨r0, ?_⟩
    simp only [evalSpecial, evalMatch, h2, reserve_none]; rfl
  | @cases_no s1 env a v p n1 n2 env1 h1 h2 h3 h4 =>
    rintro fl prog ht hc K o ⟨x, env', rfl⟩
    refine Reach.of_steps 1 (o' := runCont none P (Frame.cases env (s1.cdr a)).code
      ⟨(Frame.cases env (s1.cdr a)).words ++ K, v, x, env', false, fl, prog, s1⟩) ?_ (Reach.now ⟨x, env', rfl⟩)
    simp only [Frame.code, Frame.words, runCont, contMatch, List.cons_append, List.nil_append, h1, h2, h3, h4, reserve_none]; rfl
  | @cases_yes s1 env a v p n1 env1 h1 h2 h3 h4 =>
    rintro fl prog ht hc K o ⟨x, env', rfl⟩
    refine Reach.now ⟨v, ?_⟩
    simp only [Frame.code, Frame.words, runCont, contMatch, List.cons_append, List.nil_append, h1, h2, h3, h4, if_true]; rfl
  | @guard_yes s1 s2 env a v p n1 n2 env1 g h1 h2 h3 h4 h5 h6 h7 =>
    rintro fl prog ht hc K o ⟨x, env', rfl⟩
    have e := sim h6 fl prog ht hc .junk (.k 24 :: .v v :: .v n2 :: .v env1 :: .k 9 :: .v env' :: .v (s1.cdr a) :: K)
      (runCont none P (Frame.cases env (.cons a)).code ⟨(Frame.cases env (.cons a)).words ++ K, v, x, env', false, fl, prog, s⟩)
      ⟨v, by simp only [Frame.code, Frame.words, runCont, contMatch, List.cons_append, List.nil_append, h1, h2, h3, h5, if_neg h4, reserve_none]; rfl⟩
    obtain ⟨n, y, envy, hn⟩ := e
    refine Reach.of_steps n hn (Reach.step ?_)
    refine Reach.now ⟨g, ?_⟩
    simp only [frame, step, if_true, runCont, contGuard, if_neg h7]; rfl
  | @app env a h1 =>
    rintro fl prog ht hc K o ⟨r0, rfl⟩
    refine Reach.step_eq (by simp only [step, Bool.false_eq_true, if_false, h1, reserve_none]; rfl) ?_
    exact Reach.now ⟨r0, rfl⟩
  | @start_sym env args n  =>
    rintro fl prog ht hc K o ⟨x, env', rfl⟩
    refine Reach.now ⟨x, env', ?_⟩
    simp only [Frame.code, Frame.words, runCont, contStart, reserve_none]; rfl
  | @start_clo env args c a0 as h1 h2 h3 h4 h5 =>
    rintro fl prog ht hc K o ⟨x, env', rfl⟩
    refine Reach.now ⟨.cons c, ?_⟩
    simp only [Frame.code, Frame.words, runCont, contStart, List.cons_append, List.nil_append, h1, if_true, h4, h5, reserve_none]
    rw [if_pos ⟨h2, h3⟩]; rfl
  | @start_thunk env c h1 h2 =>
    rintro fl prog ht hc K o ⟨x, env', rfl⟩
    refine Reach.now ⟨.cons c, ?_⟩
    simp only [Frame.code, Frame.words, runCont, contStart, List.cons_append, List.nil_append, h1, if_true, St.gcar, St.gcdr, reserve_none]
    rw [if_neg (fun h => h.1 rfl), if_pos ⟨trivial, h2⟩]; rfl
  | @start_rest s1 env args c a0 as rb h1 h2 h3 h4 h5 h6 =>
    rintro fl prog ht hc K o ⟨x, env', rfl⟩
    refine Reach.now ⟨.cons c, ?_⟩
    simp only [Frame.code, Frame.words, runCont, contStart, List.cons_append, List.nil_append, h1, if_true, h4, h5, reserve_none]
    rw [if_neg (fun h => h.2 h3), if_neg (fun h => h2 h.1), if_pos h3, h6]; rfl
  | @pars_more s1 aenv body cenv params args v p ps env a as h1 h2 h3 h4 h5 h6 h7 =>
    rintro fl prog ht hc K o ⟨x, env', rfl⟩
    refine Reach.now ⟨v, ?_⟩
    simp only [Frame.code, Frame.words, runCont, contCloArgs, List.cons_append, List.nil_append, h1, h2, h3, h6, h7, reserve_none]
    rw [if_pos ⟨h4, h5⟩]; rfl
  | @pars_last s1 aenv body cenv params v p env h1 h2 h3 =>
    rintro fl prog ht hc K o ⟨x, env', rfl⟩
    refine Reach.now ⟨v, ?_⟩
    simp only [Frame.code, Frame.words, runCont, contCloArgs, List.cons_append, List.nil_append, h1, h2, h3]
    rw [if_neg (fun h => h.1 rfl), if_pos ⟨trivial, trivial⟩]; rfl
  | @pars_rest s1 s2 aenv body cenv params args v p env rb a as h1 h2 h3 h4 h5 h6 h7 =>
    rintro fl prog ht hc K o ⟨x, env', rfl⟩
    refine Reach.now ⟨v, ?_⟩
    simp only [Frame.code, Frame.words, runCont, contCloArgs, List.cons_append, List.nil_append, h1, h2, h3, h5, h6, h7, reserve_none]
    rw [if_neg (fun h => h.2 rfl), if_neg (fun h => h4 h.1), if_pos trivial]; rfl
  | @rest_last s1 aenv body cenv last v b h1 =>
    rintro fl prog ht hc K o ⟨x, env', rfl⟩
    refine Reach.now ⟨v, ?_⟩
    simp only [Frame.code, Frame.words, runCont, contCloRest, List.cons_append, List.nil_append, h1, if_true]; rfl
  | @rest_more s1 aenv body cenv last args v b a as h1 h2 h3 h4 =>
    rintro fl prog ht hc K o ⟨x, env', rfl⟩
    refine Reach.now ⟨v, ?_⟩
    simp only [Frame.code, Frame.words, runCont, contCloRest, List.cons_append, List.nil_append, h1, if_neg h2, h3, h4, reserve_none]; rfl
  | @start_macro s1 env args c params d eenv e h1 h2 h3 h4 h5 =>
    rintro fl prog ht hc K o ⟨x, env', rfl⟩
    refine Reach.now ⟨.cons c, ?_⟩
    have g1 : ¬ V.macroSym = V.closure := by decide
    have g2 : ¬ V.macroSym = V.cont := by decide
    simp only [Frame.code, Frame.words, runCont, contStart, List.cons_append, List.nil_append, h1, if_neg g1, if_neg g2, if_true, h2, h3, h4, h5]; rfl
  | @evalR env v  =>
    rintro fl prog ht hc K o ⟨x, env', rfl⟩
    exact Reach.now ⟨v, rfl⟩
  | @args_more env vals a v  =>
    rintro fl prog ht hc K o ⟨x, env', rfl⟩
    refine Reach.now ⟨v, ?_⟩
    simp only [Frame.code, Frame.words, runCont, contArgs, List.cons_append, List.nil_append, reserve_none, List.length_cons, List.map_cons]; rfl
  | @eval1 env vals rest v e h1 h2 =>
    rintro fl prog ht hc K o ⟨x, env', rfl⟩
    refine Reach.now ⟨v, ?_⟩
    rw [contArgs_done h1, application_eq rfl h2, if_neg (by decide), if_neg (by decide), if_pos rfl]; rfl
  | @map s1 s2 env vals rest v f a arg call elt h1 h2 h3 h4 =>
    rintro fl prog ht hc K o ⟨x, env', rfl⟩
    refine Reach.now ⟨v, ?_⟩
    have hv : v = .cons a := by
      have := congrArg List.getLast? h2
      simpa using this
    subst hv
    rw [contArgs_done h1, application_eq rfl h2, if_neg (by decide), if_neg (by decide), if_neg (by decide), if_neg (by decide), if_pos rfl]
    cases h3; cases h4
    simp only [applyMap, reserve_none]; rfl
  | @map_more s1 s2 s3 env arg call last res a v elt h1 h2 h3 =>
    rintro fl prog ht hc K o ⟨x, env', rfl⟩
    refine Reach.now ⟨v, ?_⟩
    subst h1; subst h2; cases h3
    simp only [Frame.code, Frame.words, runCont, contMap, List.cons_append, List.nil_append, reserve_none]; rfl
  | @eval2 env vals rest v env1 e h1 h2 =>
    rintro fl prog ht hc K o ⟨x, env', rfl⟩
    refine Reach.now ⟨v, ?_⟩
    rw [contArgs_done h1, application_eq rfl h2, if_neg (by decide), if_neg (by decide), if_pos rfl]; rfl

end Verif.Eval
