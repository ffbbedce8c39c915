import Verif.Eval.Tidy

/-!
# C62 and C42: loops and failing guards whose parts leave the environment as it was

`Tidy` and `LoopRuns` in `Verif.Eval.Tidy`.
-/

namespace Verif.Eval

variable {P : Prims}

/-- The bindings of a `loop` are evaluated in `env1`, the environment extended by them, and then the condition, with the value `c`. -/
inductive LoopStarts (P : Prims) (cond : V) : St → V → V → V → St → V → Prop
  | none {s s1 env binds c} : binds.isCons = false → Tidy P s (.exp env cond) s1 c → LoopStarts P cond s env binds env s1 c
  | some {s s0 s1 s2 env env1 a w c} : letLocs s (s.next + 1) (.cons a) env = some (some (s0, env1)) →
      Ev P false s0 none (.exp env1 (s0.hd (s0.tl (s0.car a)))) s1 none (.ok w) →
      Tidy P s1 (.k (.bind cond (s0.cdr a) env1 (s0.hd (s0.car a))) w) s2 c → LoopStarts P cond s env (.cons a) env1 s2 c

/-- What the semantics without the rules that the evaluator does not follow gives, the semantics gives. -/
theorem Ev.toFull {s s' : St} {sc sc' : Scope} {t : Task} {r : Res} (h : Ev P false s sc t s' sc' r) : Ev P true s sc t s' sc' r := by
  induction h
  case sub_ok => first | (apply Ev.sub_ok <;> assumption) | contradiction
  case sub_err => first | (apply Ev.sub_err <;> assumption) | contradiction
  case self => first | (apply Ev.self <;> assumption) | contradiction
  case name => first | (apply Ev.name <;> assumption) | contradiction
  case loc => first | (apply Ev.loc <;> assumption) | contradiction
  case glob => first | (apply Ev.glob <;> assumption) | contradiction
  case unbound => first | (apply Ev.unbound <;> assumption) | contradiction
  case quote => first | (apply Ev.quote <;> assumption) | contradiction
  case fnval => first | (apply Ev.fnval <;> assumption) | contradiction
  case define => first | (apply Ev.define <;> assumption) | contradiction
  case define_k => first | (apply Ev.define_k <;> assumption) | contradiction
  case define_bad => first | (apply Ev.define_bad <;> assumption) | contradiction
  case progn => first | (apply Ev.progn <;> assumption) | contradiction
  case body_nil => first | (apply Ev.body_nil <;> assumption) | contradiction
  case body_last => first | (apply Ev.body_last <;> assumption) | contradiction
  case body_more => first | (apply Ev.body_more <;> assumption) | contradiction
  case body_err => first | (apply Ev.body_err <;> assumption) | contradiction
  case more_last => first | (apply Ev.more_last <;> assumption) | contradiction
  case more => first | (apply Ev.more <;> assumption) | contradiction
  case more_err => first | (apply Ev.more_err <;> assumption) | contradiction
  case var => first | (apply Ev.var <;> assumption) | contradiction
  case var_k => first | (apply Ev.var_k <;> assumption) | contradiction
  case var_bad => first | (apply Ev.var_bad <;> assumption) | contradiction
  case lambda => first | (apply Ev.lambda <;> assumption) | contradiction
  case ite => first | (apply Ev.ite <;> assumption) | contradiction
  case ite_true => first | (apply Ev.ite_true <;> assumption) | contradiction
  case ite_false => first | (apply Ev.ite_false <;> assumption) | contradiction
  case cond_nil => first | (apply Ev.cond_nil <;> assumption) | contradiction
  case cond => first | (apply Ev.cond <;> assumption) | contradiction
  case cond_bad => first | (apply Ev.cond_bad <;> assumption) | contradiction
  case letf => first | (apply Ev.letf <;> assumption) | contradiction
  case letb_none => first | (apply Ev.letb_none <;> assumption) | contradiction
  case letb => first | (apply Ev.letb <;> assumption) | contradiction
  case bind_more => first | (apply Ev.bind_more <;> assumption) | contradiction
  case bind_last => first | (apply Ev.bind_last <;> assumption) | contradiction
  case bind_bad => first | (apply Ev.bind_bad <;> assumption) | contradiction
  case and_nil => first | (apply Ev.and_nil <;> assumption) | contradiction
  case and => first | (apply Ev.and <;> assumption) | contradiction
  case and_false => first | (apply Ev.and_false <;> assumption) | contradiction
  case and_last => first | (apply Ev.and_last <;> assumption) | contradiction
  case and_more => first | (apply Ev.and_more <;> assumption) | contradiction
  case or_nil => first | (apply Ev.or_nil <;> assumption) | contradiction
  case or => first | (apply Ev.or <;> assumption) | contradiction
  case or_true => first | (apply Ev.or_true <;> assumption) | contradiction
  case or_last => first | (apply Ev.or_last <;> assumption) | contradiction
  case or_more => first | (apply Ev.or_more <;> assumption) | contradiction
  case mtch => first | (apply Ev.mtch <;> assumption) | contradiction
  case cases_nil => first | (apply Ev.cases_nil <;> assumption) | contradiction
  case cases_no => first | (apply Ev.cases_no <;> assumption) | contradiction
  case cases_yes => first | (apply Ev.cases_yes <;> assumption) | contradiction
  case guard_yes => first | (apply Ev.guard_yes <;> assumption) | contradiction
  case guard_err => first | (apply Ev.guard_err <;> assumption) | contradiction
  case guard_no => first | (apply Ev.guard_no <;> assumption) | contradiction
  case setq => first | (apply Ev.setq <;> assumption) | contradiction
  case setq_k => first | (apply Ev.setq_k <;> assumption) | contradiction
  case setq_bad => first | (apply Ev.setq_bad <;> assumption) | contradiction
  case atomic => first | (apply Ev.atomic <;> assumption) | contradiction
  case atomic_err => first | (apply Ev.atomic_err <;> assumption) | contradiction
  case trap_ok => first | (apply Ev.trap_ok <;> assumption) | contradiction
  case trap_err => first | (apply Ev.trap_err <;> assumption) | contradiction
  case trap_fatal => first | (apply Ev.trap_fatal <;> assumption) | contradiction
  case loop => first | (apply Ev.loop <;> assumption) | contradiction
  case loop_end => first | (apply Ev.loop_end <;> assumption) | contradiction
  case loop_again => first | (apply Ev.loop_again <;> assumption) | contradiction
  case app => first | (apply Ev.app <;> assumption) | contradiction
  case start_sym => first | (apply Ev.start_sym <;> assumption) | contradiction
  case start_bad => first | (apply Ev.start_bad <;> assumption) | contradiction
  case start_clo => first | (apply Ev.start_clo <;> assumption) | contradiction
  case start_thunk => first | (apply Ev.start_thunk <;> assumption) | contradiction
  case start_rest => first | (apply Ev.start_rest <;> assumption) | contradiction
  case start_few => first | (apply Ev.start_few <;> assumption) | contradiction
  case pars_more => first | (apply Ev.pars_more <;> assumption) | contradiction
  case pars_last => first | (apply Ev.pars_last <;> assumption) | contradiction
  case pars_rest => first | (apply Ev.pars_rest <;> assumption) | contradiction
  case pars_few => first | (apply Ev.pars_few <;> assumption) | contradiction
  case rest_last => first | (apply Ev.rest_last <;> assumption) | contradiction
  case rest_more => first | (apply Ev.rest_more <;> assumption) | contradiction
  case start_macro => first | (apply Ev.start_macro <;> assumption) | contradiction
  case evalR => first | (apply Ev.evalR <;> assumption) | contradiction
  case args_more => first | (apply Ev.args_more <;> assumption) | contradiction
  case prim_ok => first | (apply Ev.prim_ok <;> assumption) | contradiction
  case prim_err => first | (apply Ev.prim_err <;> assumption) | contradiction
  case setvar_ok => first | (apply Ev.setvar_ok <;> assumption) | contradiction
  case setvar_err => first | (apply Ev.setvar_err <;> assumption) | contradiction
  case eval1 => first | (apply Ev.eval1 <;> assumption) | contradiction
  case eval2 => first | (apply Ev.eval2 <;> assumption) | contradiction
  case exitError => first | (apply Ev.exitError <;> assumption) | contradiction
  case restArgs => first | (apply Ev.restArgs <;> assumption) | contradiction
  case restArgs_none => first | (apply Ev.restArgs_none <;> assumption) | contradiction
  case map_nil => first | (apply Ev.map_nil <;> assumption) | contradiction
  case map => first | (apply Ev.map <;> assumption) | contradiction
  case map_more => first | (apply Ev.map_more <;> assumption) | contradiction
  case map_last => first | (apply Ev.map_last <;> assumption) | contradiction
  case map_bad => first | (apply Ev.map_bad <;> assumption) | contradiction
  case notFun => first | (apply Ev.notFun <;> assumption) | contradiction

theorem letLocs_none {s : St} {n : Nat} {binds env : V} (h : binds.isCons = false) : letLocs s (n + 1) binds env = some (some (s, env)) := by
  cases binds <;> first | rfl | cases h

/-- A loop whose condition and body end in their environment: the bindings are evaluated, then the condition and the body in the environment of the bindings until the condition is nil; the machine gives
nil to the stack, as in the semantics. Partial: `Tidy` (for example no `let` and no call of a closure at the end of the condition or the body); loops that end. -/
theorem C62_loop_partial {s s1 s' : St} {env env1 e parts c : V} (hform : s.isForm e 0x115) (hp : s.gcdr e = some parts) (hs : LoopStarts P (s.hd (s.tl parts)) s env (s.hd parts) env1 s1 c)
    (hr : LoopRuns P (s.hd (s.tl parts)) (s.hd (s.tl (s.tl parts))) env1 s1 c s') (K : List W) (r : V) (fl : Nat) (prog : V) (ht : flagTrap fl = false) (hc : flagConst fl = false) :
    (∃ n x env', steps none P n (.next ⟨K, r, e, env, false, fl, prog, s⟩) = .next ⟨K, .nil, x, env', true, fl, prog, s'⟩) ∧ Ev P true s none (.exp env e) s' none (.ok .nil) := by
  constructor
  · obtain ⟨a, rfl, ha⟩ := hform
    generalize hcond : s.hd (s.tl parts) = cond at hs hr
    generalize hbody : s.hd (s.tl (s.tl parts)) = body at hr
    generalize hbinds : s.hd parts = binds at hs
    have e0 : steps none P 1 (.next ⟨K, r, .cons a, env, false, fl, prog, s⟩) = letBind none ⟨.k 39 :: .v cond :: .v body :: K, r, .cons a, env, false, fl, prog, s⟩ binds cond := by
      simp [steps, step, ha, special, evalSpecial, evalLoop, hp, reserve, hcond, hbody, hbinds]
    have e1 : TEnds P (.k 39 :: .v cond :: .v body :: K) s1 fl prog (letBind none ⟨.k 39 :: .v cond :: .v body :: K, r, .cons a, env, false, fl, prog, s⟩ binds cond) c env1 := by
      cases hs with
      | none h1 h2 =>
        have : letBind none ⟨.k 39 :: .v cond :: .v body :: K, r, .cons a, env, false, fl, prog, s⟩ binds cond = .next ⟨.k 39 :: .v cond :: .v body :: K, r, cond, env, false, fl, prog, s⟩ := by
          cases binds <;> first | rfl | cases h1
        rw [this]
        exact tidy_exp h2 fl prog ht hc _ _
      | some h1 h2 h3 =>
        rename_i s0 s1' b w
        have : letBind none ⟨.k 39 :: .v cond :: .v body :: K, r, .cons a, env, false, fl, prog, s⟩ (.cons b) cond =
            .next ⟨.k 2 :: [.v (s0.hd (s0.car b)), .v env1, .v (s0.cdr b), .v cond] ++ (.k 39 :: .v cond :: .v body :: K), r, s0.hd (s0.tl (s0.car b)), env1, false, fl, prog, s0⟩ := by
          simp [letBind, h1, reserve, M.go, St.hd, St.tl]
        rw [this]
        exact TEnds.ev ht hc h2 fun x env2 => tidy_sim h3 fl prog ht hc _ _ ⟨x, env2, rfl⟩
    obtain ⟨n, x, e1⟩ := e1
    obtain ⟨n2, x2, env2, e2⟩ := loopRuns_sim fl prog ht hc K hr x
    exact ⟨1 + (n + n2), x2, env2, by rw [steps_add, e0, steps_add, e1, e2]⟩
  · have hl : ∀ {cond body : V} {s s' : St} {c : V}, LoopRuns P cond body env1 s c s' → Ev P true s none (.loop env1 cond body c) s' none (.ok .nil) := by
      intro cond body s s' c h
      induction h with
      | stop => exact .loop_end rfl
      | again h1 h2 h3 _ ih => exact .loop_again rfl h1 h2.ev.toFull h3.ev.toFull ih
    generalize hbinds : s.hd parts = binds at hs
    cases hs with
    | none h1 h2 => exact .loop rfl hform hp (by rw [hbinds]; exact letLocs_none h1) (by rw [hbinds]; exact (Ev.letb_none h1 h2.ev).toFull) (hl hr)
    | some h1 h2 h3 => exact .loop rfl hform hp (by rw [hbinds]; exact h1) (by rw [hbinds]; exact (Ev.letb h1 (.sub_ok h2 h3.ev)).toFull) (hl hr)

/-! ## C42: a guard that fails -/

section
variable {s s1 s2 : St} {env env1 v p : V} {a : Nat}

/-- As `C42_start_partial`, for `e` whose evaluation ends in its environment. -/
theorem C42_start_tidy_partial {e : V} {c : Nat} (hform : s.isForm e 0x108) (ha : s.gcdr e = some (.cons a)) (hcs : s.cdr a = .cons c)
    (h : Tidy P s (.exp env (s.car a)) s1 v) (K : List W) (r : V) (fl : Nat) (prog : V) (ht : flagTrap fl = false) (hc : flagConst fl = false) :
    ∃ n x, steps none P n (.next ⟨K, r, e, env, false, fl, prog, s⟩) = .next (matching K env c v x env fl prog s1) := by
  obtain ⟨b, rfl, hb⟩ := hform
  obtain ⟨n, x, hn⟩ := tidy_exp h fl prog ht hc (.k 9 :: .v env :: .v (.cons c) :: K) r
  refine ⟨1 + n, x, ?_⟩
  rw [steps_add]
  unfold matching
  rw [← hn]
  congr 1
  simp only [steps, step, hb, special, evalSpecial, evalMatch, ha, Bool.false_eq_true, if_false]
  simp [reserve, M.go, hcs]

/-- A case `(p guard body)` whose pattern matches and whose guard evaluates to nil: the next case is looked at, in the environment of the match, if that is the one in the
register. Partial: it is there after the evaluation of the scrutinee if this is `Tidy`, and as long as no guard has failed before (see below). -/
theorem C42_failed_guard_partial {guard body : V} {a' : Nat} (hp : s.gcar (s.car a) = some p) (h1 : s.gcadr (s.car a) = some guard)
    (h2 : (s.gcdr (s.car a)).bind s.gcadr = some body) (hb : body ≠ .nil) (hm : s.matchP P.eq (s.next + 1) p v env = some (true, s1, env1)) (hnext : s1.cdr a = .cons a')
    (hg : Ev P false s1 none (.exp env1 guard) s2 none (.ok .nil)) (K : List W) (x : V) (fl : Nat) (prog : V) (ht : flagTrap fl = false) (hc : flagConst fl = false) :
    ∃ n x' lenv, steps none P n (.next (matching K env a v x env fl prog s)) = .next (matching K env a' v x' lenv fl prog s2) := by
  have e1 : steps none P 1 (.next (matching K env a v x env fl prog s)) =
      .next ⟨.k 24 :: .v v :: .v body :: .v env1 :: .k 9 :: .v env :: .v (.cons a') :: K, v, guard, env1, false, fl, prog, s1⟩ := by
    simp [steps, matching, step, runCont, contMatch, hp, h1, h2, hm, hb, hnext, reserve, M.go]
  obtain ⟨n, x', env', hn⟩ := C39_value_partial hg (.k 24 :: .v v :: .v body :: .v env1 :: .k 9 :: .v env :: .v (.cons a') :: K) v fl prog ht hc
  refine ⟨1 + (n + 1), x', env', ?_⟩
  rw [steps_add, e1, steps_add, hn]
  simp [steps, step, runCont, contGuard, M.ret, matching]

end

/-! ## Examples -/

section
open Sx

/-- `(let ((x 1)) (match 5 ((? x) nil 0) ((? y) nil 0) (_ x)))` -/
def demoGuards : Sx := l [s 0x105, l [l [v 0, n 1]], l [s 0x108, n 5, l [l [s 0x41, v 0], s 0, n 0], l [l [s 0x41, v 1], s 0, n 0], l [s 9, v 0]]]
/-- `(loop ((i t)) i (setq i nil))` -/
def demoLoopOk : Sx := l [s 0x115, l [l [v 0, s 2]], v 0, l [s 0x113, v 0, s 0]]
/-- `(match 5 ((? y) nil 0) (_ 7))` -/
def demoGuardOk : Sx := l [s 0x108, n 5, l [l [s 0x41, v 1], s 0, n 0], l [s 9, n 7]]
/-- `(progn (define f (lambda (x) x)) (loop ((i nil)) (if i nil t) (setq i (f t))))` -/
def demoLoopCall : Sx := l [s 0x102, l [s 0x101, v 5, l [s 0x103, l [v 1], v 1]], l [s 0x115, l [l [v 0, s 0]], l [s 0x104, v 0, s 0, s 2], l [s 0x113, v 0, l [v 5, s 2]]]]

end

/-- Example: `(loop ((i t)) i (setq i nil))` meets the hypotheses of `C62_loop_partial`, with one iteration. -/
example : ∃ parts env1 s1 c s', (load demoLoopOk st0).1.isForm (load demoLoopOk st0).2 0x115 ∧ (load demoLoopOk st0).1.gcdr (load demoLoopOk st0).2 = some parts ∧
    LoopStarts P0 ((load demoLoopOk st0).1.hd ((load demoLoopOk st0).1.tl parts)) (load demoLoopOk st0).1 .nil ((load demoLoopOk st0).1.hd parts) env1 s1 c ∧ c ≠ .nil ∧
    LoopRuns P0 ((load demoLoopOk st0).1.hd ((load demoLoopOk st0).1.tl parts)) ((load demoLoopOk st0).1.hd ((load demoLoopOk st0).1.tl ((load demoLoopOk st0).1.tl parts))) env1 s1 c s' := by
  refine ⟨.cons 8, .cons 11, _, .sym 2, _, ⟨9, rfl, rfl⟩, rfl, .some (a := 2) (w := .sym 2) rfl (.name (by decide)) (.bind_last rfl rfl (.simple (Or.inl rfl) (.loc (Nat.le_refl _) rfl))), by decide,
    .again (v := .nil) (c1 := .nil) (by decide) (.setq (n := 262144) ⟨5, rfl, rfl⟩ rfl (Nat.le_refl _) (.simple (Or.inl rfl) (.name (by decide))) rfl) (.simple (Or.inl rfl) (.loc (Nat.le_refl _) rfl)) .stop⟩

/-- C62, what does not hold: a loop whose body ends with the call of a closure in `setq`. The program is `(progn (define f (lambda (x) x)) (loop ((i nil)) (if i nil t) (setq i (f t))))`: its value is nil, but the machine evaluates
the condition in the environment of the closure, where `i` is not bound. -/
theorem C62_closure_violated : HasValue true demoLoopCall .nil ∧ (steps none P0 60 (boot 0 demoLoopCall)).result = some (.notFound, false) := ⟨hasValue (by decide +kernel), by decide +kernel⟩

/-- Example: the first case of `(match 5 ((? y) nil 0) (_ 7))` meets the hypotheses of `C42_failed_guard_partial`. -/
example : ∃ s1 env1, (load demoGuardOk st0).1.gcar ((load demoGuardOk st0).1.car 8) = some (.cons 1) ∧ (load demoGuardOk st0).1.gcadr ((load demoGuardOk st0).1.car 8) = some .nil ∧
    ((load demoGuardOk st0).1.gcdr ((load demoGuardOk st0).1.car 8)).bind (load demoGuardOk st0).1.gcadr = some (.atom 0) ∧
    (load demoGuardOk st0).1.matchP P0.eq ((load demoGuardOk st0).1.next + 1) (.cons 1) (.atom 5) .nil = some (true, s1, env1) ∧ s1.cdr 8 = .cons 7 ∧
    Ev P0 false s1 none (.exp env1 .nil) s1 none (.ok .nil) := by
  exact ⟨_, .cons 12, rfl, rfl, rfl, rfl, rfl, .name (by decide)⟩

/-- C42, what does not hold: after the second guard that fails, the cases are evaluated in the environment of the first one. The program is
`(let ((x 1)) (match 5 ((? x) nil 0) ((? y) nil 0) (_ x)))`; its value is 1, the machine gives 5. -/
theorem C42_two_guards_violated : HasValue true demoGuards (.atom 1) ∧ (steps none P0 60 (boot 0 demoGuards)).result = some (.atom 5, true) :=
  ⟨hasValue (by decide +kernel), by decide +kernel⟩

end Verif.Eval
