import Verif.Eval.Props

/-!
# Evaluations after which the environment is what it was

`loop` and failing guards continue in the environment that the last evaluation left in the register. `Tidy` describes evaluations that leave their own environment there:
they end with an atom, a quoted value, a function, or the call of a built-in function; not with the body of a `let` or of a function.
-/

namespace Verif.Eval

/-- A case of the semantics `Ev P false` (see `Tidy.ev`). The task has the value `v`, and the last part of it that is evaluated has the environment of the task. -/
inductive Tidy (P : Prims) : St → Task → St → V → Prop
  /-- a number, a symbol, a variable, a quoted value, a lambda expression -/
  | simple {s env e s' v} : (e.isCons = false ∨ s.isForm e 0x100 ∨ s.isForm e 0x103) → Ev P false s none (.exp env e) s' none (.ok v) → Tidy P s (.exp env e) s' v
  /-- `(f e1 ... en)` for a fundamental operation or an extension `f` -/
  | call {s env a n s' v} : s.car a = .sym n → n / 0x10000 = 1 ∨ n / 0x10000 = 2 → Ev P false s none (.exp env (.cons a)) s' none (.ok v) → Tidy P s (.exp env (.cons a)) s' v
  | ite {s env e d br c s1 w e1 s' v} : s.isForm e 0x104 → s.gcdr e = some d → s.gcdr d = some br → s.gcar d = some c → Ev P false s none (.exp env c) s1 none (.ok w) →
      (if w = .nil then s1.gcadr br else s1.gcar br) = some e1 → Tidy P s1 (.exp env e1) s' v → Tidy P s (.exp env e) s' v
  | cond_nil {s env e} : s.isForm e 0x110 → s.hd (s.tl e) = .nil → Tidy P s (.exp env e) s .nil
  | cond {s s1 s2 s3 s4 s' env e c1 other t br w e1 v} : s.isForm e 0x110 → s.hd (s.tl e) = c1 → c1 ≠ .nil → s.len (s.next + 1) c1 = some 2 →
      s.cons .cond (s.tl (s.tl e)) = (s1, other) → s1.cons other .nil = (s2, t) → s2.cons (s.hd (s.tl c1)) t = (s3, br) →
      Ev P false s3 none (.exp env (s.hd c1)) s4 none (.ok w) →
      (if w = .nil then s4.gcadr br else s4.gcar br) = some e1 → Tidy P s4 (.exp env e1) s' v → Tidy P s (.exp env e) s' v
  | setq {s env e n s1 s' v} : s.isForm e 0x113 → s.hd (s.tl e) = .sym n → runtimeStart ≤ n → Tidy P s (.exp env (s.hd (s.tl (s.tl e)))) s1 v →
      s1.setvar n v env = some (s', true) → Tidy P s (.exp env e) s' v
  | define {s env e n s1 s' v} : s.isForm e 0x101 → s.hd (s.tl e) = .sym n → runtimeStart ≤ n → s.tl (s.tl (s.tl e)) = .nil → Tidy P s (.exp env (s.hd (s.tl (s.tl e)))) s1 v →
      s1.define n v = some s' → Tidy P s (.exp env e) s' v
  /-- `(progn e1 ... en)`; no `var` -/
  | progn {s env e exps s' v} : s.isForm e 0x102 → s.gcdr e = some exps → Tidy P s (.body env exps) s' v → Tidy P s (.exp env e) s' v
  | body_nil {s env} : Tidy P s (.body env .nil) s .nil
  | body_last {s s' env a v} : (s.cdr a).isCons = false → Tidy P s (.exp env (s.car a)) s' v → Tidy P s (.body env (.cons a)) s' v
  | body_more {s s1 s' env a w v} : (s.cdr a).isCons = true → Ev P false s none (.exp env (s.car a)) s1 none (.ok w) → Tidy P s1 (.k (.more env 0 (s.cdr a)) w) s' v →
      Tidy P s (.body env (.cons a)) s' v
  | more_last {s s' env a w v} : (s.cdr a).isCons = false → Tidy P s (.exp env (s.car a)) s' v → Tidy P s (.k (.more env 0 (.cons a)) w) s' v
  | more {s s1 s' env a w w1 v} : (s.cdr a).isCons = true → Ev P false s none (.exp env (s.car a)) s1 none (.ok w1) → Tidy P s1 (.k (.more env 0 (s.cdr a)) w1) s' v →
      Tidy P s (.k (.more env 0 (.cons a)) w) s' v
  /-- `and`, `or` -/
  | and_nil {s env e} : s.isForm e 0x106 → s.gcdr e = some .nil → Tidy P s (.exp env e) s .tru
  | and {s env e rest d x s1 w s' v} : s.isForm e 0x106 → s.gcdr e = some rest → rest ≠ .nil → s.gcdr rest = some d → s.gcar rest = some x →
      Tidy P s (.exp env x) s1 w → Tidy P s1 (.k (.and env d) w) s' v → Tidy P s (.exp env e) s' v
  | and_false {s env rest} : Tidy P s (.k (.and env rest) .nil) s .nil
  | and_last {s env v} : v ≠ .nil → Tidy P s (.k (.and env .nil) v) s v
  | and_more {s env rest d x w s1 w1 s' v} : w ≠ .nil → rest ≠ .nil → s.gcdr rest = some d → s.gcar rest = some x →
      Tidy P s (.exp env x) s1 w1 → Tidy P s1 (.k (.and env d) w1) s' v → Tidy P s (.k (.and env rest) w) s' v
  | or_nil {s env e} : s.isForm e 0x107 → s.gcdr e = some .nil → Tidy P s (.exp env e) s .nil
  | or {s env e rest d x s1 w s' v} : s.isForm e 0x107 → s.gcdr e = some rest → rest ≠ .nil → s.gcdr rest = some d → s.gcar rest = some x →
      Tidy P s (.exp env x) s1 w → Tidy P s1 (.k (.or env d) w) s' v → Tidy P s (.exp env e) s' v
  | or_true {s env rest v} : v ≠ .nil → Tidy P s (.k (.or env rest) v) s v
  | or_last {s env} : Tidy P s (.k (.or env .nil) .nil) s .nil
  | or_more {s env rest d x s1 w1 s' v} : rest ≠ .nil → s.gcdr rest = some d → s.gcar rest = some x →
      Tidy P s (.exp env x) s1 w1 → Tidy P s1 (.k (.or env d) w1) s' v → Tidy P s (.k (.or env rest) .nil) s' v
  /-- the bindings of a `loop` -/
  | bind_more {s s1 s2 s' body a env key v w r} : s.fillLoc (s.next + 1) key v env = some (s1, true) → Ev P false s1 none (.exp env (s1.hd (s1.tl (s1.car a)))) s2 none (.ok w) →
      Tidy P s2 (.k (.bind body (s1.cdr a) env (s1.hd (s1.car a))) w) s' r → Tidy P s (.k (.bind body (.cons a) env key) v) s' r
  | bind_last {s s1 s' body rest env key v r} : rest.isCons = false → s.fillLoc (s.next + 1) key v env = some (s1, true) →
      Tidy P s1 (.exp env body) s' r → Tidy P s (.k (.bind body rest env key) v) s' r

/-- `LoopRuns cond body env s c s'`: a loop whose condition has the value `c`. The body and then the condition are evaluated in `env` until the condition is nil. -/
inductive LoopRuns (P : Prims) (cond body env : V) : St → V → St → Prop
  | stop {s} : LoopRuns P cond body env s .nil s
  | again {s s1 s2 s' c v c1} : c ≠ .nil → Tidy P s (.exp env body) s1 v → Tidy P s1 (.exp env cond) s2 c1 → LoopRuns P cond body env s2 c1 s' → LoopRuns P cond body env s c s'

/-! ## Proofs -/

variable {P : Prims}

/-- What can be evaluated outside of a `progn` can be evaluated in it. -/
theorem Ev.anyScope {full : Bool} {s s' : St} {sc sc' : Scope} {t : Task} {r : Res} (h : Ev P full s sc t s' sc' r) : sc = none → ∀ sc2, Ev P full s sc2 t s' sc2 r := by
  induction h
  case sub_ok => intro hs sc2; (try subst hs); apply Ev.sub_ok <;> first | assumption | (rename_i ih; exact ih rfl sc2) | solve_by_elim
  case sub_err => intro hs sc2; (try subst hs); apply Ev.sub_err <;> first | assumption | (rename_i ih; exact ih rfl sc2) | solve_by_elim
  case self => intro hs sc2; (try subst hs); apply Ev.self <;> first | assumption | (rename_i ih; exact ih rfl sc2) | solve_by_elim
  case name => intro hs sc2; (try subst hs); apply Ev.name <;> first | assumption | (rename_i ih; exact ih rfl sc2) | solve_by_elim
  case loc => intro hs sc2; (try subst hs); apply Ev.loc <;> first | assumption | (rename_i ih; exact ih rfl sc2) | solve_by_elim
  case glob => intro hs sc2; (try subst hs); apply Ev.glob <;> first | assumption | (rename_i ih; exact ih rfl sc2) | solve_by_elim
  case unbound => intro hs sc2; (try subst hs); apply Ev.unbound <;> first | assumption | (rename_i ih; exact ih rfl sc2) | solve_by_elim
  case quote => intro hs sc2; (try subst hs); apply Ev.quote <;> first | assumption | (rename_i ih; exact ih rfl sc2) | solve_by_elim
  case fnval => intro hs sc2; (try subst hs); apply Ev.fnval <;> first | assumption | (rename_i ih; exact ih rfl sc2) | solve_by_elim
  case define => intro hs sc2; (try subst hs); apply Ev.define <;> first | assumption | (rename_i ih; exact ih rfl sc2) | solve_by_elim
  case define_k => intro hs sc2; (try subst hs); apply Ev.define_k <;> first | assumption | (rename_i ih; exact ih rfl sc2) | solve_by_elim
  case define_bad => intro hs sc2; (try subst hs); apply Ev.define_bad <;> first | assumption | (rename_i ih; exact ih rfl sc2) | solve_by_elim
  case progn => intro hs sc2; (try subst hs); apply Ev.progn <;> first | assumption | (rename_i ih; exact ih rfl sc2) | solve_by_elim
  case body_nil => intro hs sc2; (try subst hs); apply Ev.body_nil <;> first | assumption | (rename_i ih; exact ih rfl sc2) | solve_by_elim
  case body_last => intro hs sc2; (try subst hs); apply Ev.body_last <;> first | assumption | (rename_i ih; exact ih rfl sc2) | solve_by_elim
  case body_more => intro hs sc2; (try subst hs); apply Ev.body_more <;> first | assumption | (rename_i ih; exact ih rfl sc2) | solve_by_elim
  case body_err => intro hs sc2; (try subst hs); apply Ev.body_err <;> first | assumption | (rename_i ih; exact ih rfl sc2) | solve_by_elim
  case more_last => intro hs sc2; (try subst hs); apply Ev.more_last <;> first | assumption | (rename_i ih; exact ih rfl sc2) | solve_by_elim
  case more => intro hs sc2; (try subst hs); apply Ev.more <;> first | assumption | (rename_i ih; exact ih rfl sc2) | solve_by_elim
  case more_err => intro hs sc2; (try subst hs); apply Ev.more_err <;> first | assumption | (rename_i ih; exact ih rfl sc2) | solve_by_elim
  case var => intro h; cases h
  case var_k => intro hs sc2; (try subst hs); apply Ev.var_k <;> first | assumption | (rename_i ih; exact ih rfl sc2) | solve_by_elim
  case var_bad => intro hs sc2; (try subst hs); apply Ev.var_bad <;> first | assumption | (rename_i ih; exact ih rfl sc2) | solve_by_elim
  case lambda => intro hs sc2; (try subst hs); apply Ev.lambda <;> first | assumption | (rename_i ih; exact ih rfl sc2) | solve_by_elim
  case ite => intro hs sc2; (try subst hs); apply Ev.ite <;> first | assumption | (rename_i ih; exact ih rfl sc2) | solve_by_elim
  case ite_true => intro hs sc2; (try subst hs); apply Ev.ite_true <;> first | assumption | (rename_i ih; exact ih rfl sc2) | solve_by_elim
  case ite_false => intro hs sc2; (try subst hs); apply Ev.ite_false <;> first | assumption | (rename_i ih; exact ih rfl sc2) | solve_by_elim
  case cond_nil => intro hs sc2; (try subst hs); apply Ev.cond_nil <;> first | assumption | (rename_i ih; exact ih rfl sc2) | solve_by_elim
  case cond => intro hs sc2; (try subst hs); apply Ev.cond <;> first | assumption | (rename_i ih; exact ih rfl sc2) | solve_by_elim
  case cond_bad => intro hs sc2; (try subst hs); apply Ev.cond_bad <;> first | assumption | (rename_i ih; exact ih rfl sc2) | solve_by_elim
  case letf => intro hs sc2; (try subst hs); apply Ev.letf <;> first | assumption | (rename_i ih; exact ih rfl sc2) | solve_by_elim
  case letb_none => intro hs sc2; (try subst hs); apply Ev.letb_none <;> first | assumption | (rename_i ih; exact ih rfl sc2) | solve_by_elim
  case letb => intro hs sc2; (try subst hs); apply Ev.letb <;> first | assumption | (rename_i ih; exact ih rfl sc2) | solve_by_elim
  case bind_more => intro hs sc2; (try subst hs); apply Ev.bind_more <;> first | assumption | (rename_i ih; exact ih rfl sc2) | solve_by_elim
  case bind_last => intro hs sc2; (try subst hs); apply Ev.bind_last <;> first | assumption | (rename_i ih; exact ih rfl sc2) | solve_by_elim
  case bind_bad => intro hs sc2; (try subst hs); apply Ev.bind_bad <;> first | assumption | (rename_i ih; exact ih rfl sc2) | solve_by_elim
  case and_nil => intro hs sc2; (try subst hs); apply Ev.and_nil <;> first | assumption | (rename_i ih; exact ih rfl sc2) | solve_by_elim
  case and => intro hs sc2; (try subst hs); apply Ev.and <;> first | assumption | (rename_i ih; exact ih rfl sc2) | solve_by_elim
  case and_false => intro hs sc2; (try subst hs); apply Ev.and_false <;> first | assumption | (rename_i ih; exact ih rfl sc2) | solve_by_elim
  case and_last => intro hs sc2; (try subst hs); apply Ev.and_last <;> first | assumption | (rename_i ih; exact ih rfl sc2) | solve_by_elim
  case and_more => intro hs sc2; (try subst hs); apply Ev.and_more <;> first | assumption | (rename_i ih; exact ih rfl sc2) | solve_by_elim
  case or_nil => intro hs sc2; (try subst hs); apply Ev.or_nil <;> first | assumption | (rename_i ih; exact ih rfl sc2) | solve_by_elim
  case or => intro hs sc2; (try subst hs); apply Ev.or <;> first | assumption | (rename_i ih; exact ih rfl sc2) | solve_by_elim
  case or_true => intro hs sc2; (try subst hs); apply Ev.or_true <;> first | assumption | (rename_i ih; exact ih rfl sc2) | solve_by_elim
  case or_last => intro hs sc2; (try subst hs); apply Ev.or_last <;> first | assumption | (rename_i ih; exact ih rfl sc2) | solve_by_elim
  case or_more => intro hs sc2; (try subst hs); apply Ev.or_more <;> first | assumption | (rename_i ih; exact ih rfl sc2) | solve_by_elim
  case mtch => intro hs sc2; (try subst hs); apply Ev.mtch <;> first | assumption | (rename_i ih; exact ih rfl sc2) | solve_by_elim
  case cases_nil => intro hs sc2; (try subst hs); apply Ev.cases_nil <;> first | assumption | (rename_i ih; exact ih rfl sc2) | solve_by_elim
  case cases_no => intro hs sc2; (try subst hs); apply Ev.cases_no <;> first | assumption | (rename_i ih; exact ih rfl sc2) | solve_by_elim
  case cases_yes => intro hs sc2; (try subst hs); apply Ev.cases_yes <;> first | assumption | (rename_i ih; exact ih rfl sc2) | solve_by_elim
  case guard_yes => intro hs sc2; (try subst hs); apply Ev.guard_yes <;> first | assumption | (rename_i ih; exact ih rfl sc2) | solve_by_elim
  case guard_err => intro hs sc2; (try subst hs); apply Ev.guard_err <;> first | assumption | (rename_i ih; exact ih rfl sc2) | solve_by_elim
  case guard_no => intro hs sc2; (try subst hs); apply Ev.guard_no <;> first | assumption | (rename_i ih; exact ih rfl sc2) | solve_by_elim
  case setq => intro hs sc2; (try subst hs); apply Ev.setq <;> first | assumption | (rename_i ih; exact ih rfl sc2) | solve_by_elim
  case setq_k => intro hs sc2; (try subst hs); apply Ev.setq_k <;> first | assumption | (rename_i ih; exact ih rfl sc2) | solve_by_elim
  case setq_bad => intro hs sc2; (try subst hs); apply Ev.setq_bad <;> first | assumption | (rename_i ih; exact ih rfl sc2) | solve_by_elim
  case atomic => intro hs sc2; (try subst hs); apply Ev.atomic <;> first | assumption | (rename_i ih; exact ih rfl sc2) | solve_by_elim
  case atomic_err => intro hs sc2; (try subst hs); apply Ev.atomic_err <;> first | assumption | (rename_i ih; exact ih rfl sc2) | solve_by_elim
  case trap_ok => intro hs sc2; (try subst hs); apply Ev.trap_ok <;> first | assumption | (rename_i ih; exact ih rfl sc2) | solve_by_elim
  case trap_err => intro hs sc2; (try subst hs); apply Ev.trap_err <;> first | assumption | (rename_i ih; exact ih rfl sc2) | solve_by_elim
  case trap_fatal => intro hs sc2; (try subst hs); apply Ev.trap_fatal <;> first | assumption | (rename_i ih; exact ih rfl sc2) | solve_by_elim
  case loop => intro hs sc2; (try subst hs); apply Ev.loop <;> first | assumption | (rename_i ih; exact ih rfl sc2) | solve_by_elim
  case loop_end => intro hs sc2; (try subst hs); apply Ev.loop_end <;> first | assumption | (rename_i ih; exact ih rfl sc2) | solve_by_elim
  case loop_again => intro hs sc2; (try subst hs); apply Ev.loop_again <;> first | assumption | (rename_i ih; exact ih rfl sc2) | solve_by_elim
  case app => intro hs sc2; (try subst hs); apply Ev.app <;> first | assumption | (rename_i ih; exact ih rfl sc2) | solve_by_elim
  case start_sym => intro hs sc2; (try subst hs); apply Ev.start_sym <;> first | assumption | (rename_i ih; exact ih rfl sc2) | solve_by_elim
  case start_bad => intro hs sc2; (try subst hs); apply Ev.start_bad <;> first | assumption | (rename_i ih; exact ih rfl sc2) | solve_by_elim
  case start_clo => intro hs sc2; (try subst hs); apply Ev.start_clo <;> first | assumption | (rename_i ih; exact ih rfl sc2) | solve_by_elim
  case start_thunk => intro hs sc2; (try subst hs); apply Ev.start_thunk <;> first | assumption | (rename_i ih; exact ih rfl sc2) | solve_by_elim
  case start_rest => intro hs sc2; (try subst hs); apply Ev.start_rest <;> first | assumption | (rename_i ih; exact ih rfl sc2) | solve_by_elim
  case start_few => intro hs sc2; (try subst hs); apply Ev.start_few <;> first | assumption | (rename_i ih; exact ih rfl sc2) | solve_by_elim
  case pars_more => intro hs sc2; (try subst hs); apply Ev.pars_more <;> first | assumption | (rename_i ih; exact ih rfl sc2) | solve_by_elim
  case pars_last => intro hs sc2; (try subst hs); apply Ev.pars_last <;> first | assumption | (rename_i ih; exact ih rfl sc2) | solve_by_elim
  case pars_rest => intro hs sc2; (try subst hs); apply Ev.pars_rest <;> first | assumption | (rename_i ih; exact ih rfl sc2) | solve_by_elim
  case pars_few => intro hs sc2; (try subst hs); apply Ev.pars_few <;> first | assumption | (rename_i ih; exact ih rfl sc2) | solve_by_elim
  case rest_last => intro hs sc2; (try subst hs); apply Ev.rest_last <;> first | assumption | (rename_i ih; exact ih rfl sc2) | solve_by_elim
  case rest_more => intro hs sc2; (try subst hs); apply Ev.rest_more <;> first | assumption | (rename_i ih; exact ih rfl sc2) | solve_by_elim
  case start_macro => intro hs sc2; (try subst hs); apply Ev.start_macro <;> first | assumption | (rename_i ih; exact ih rfl sc2) | solve_by_elim
  case evalR => intro hs sc2; (try subst hs); apply Ev.evalR <;> first | assumption | (rename_i ih; exact ih rfl sc2) | solve_by_elim
  case args_more => intro hs sc2; (try subst hs); apply Ev.args_more <;> first | assumption | (rename_i ih; exact ih rfl sc2) | solve_by_elim
  case prim_ok => intro hs sc2; (try subst hs); apply Ev.prim_ok <;> first | assumption | (rename_i ih; exact ih rfl sc2) | solve_by_elim
  case prim_err => intro hs sc2; (try subst hs); apply Ev.prim_err <;> first | assumption | (rename_i ih; exact ih rfl sc2) | solve_by_elim
  case setvar_ok => intro hs sc2; (try subst hs); apply Ev.setvar_ok <;> first | assumption | (rename_i ih; exact ih rfl sc2) | solve_by_elim
  case setvar_err => intro hs sc2; (try subst hs); apply Ev.setvar_err <;> first | assumption | (rename_i ih; exact ih rfl sc2) | solve_by_elim
  case eval1 => intro hs sc2; (try subst hs); apply Ev.eval1 <;> first | assumption | (rename_i ih; exact ih rfl sc2) | solve_by_elim
  case eval2 => intro hs sc2; (try subst hs); apply Ev.eval2 <;> first | assumption | (rename_i ih; exact ih rfl sc2) | solve_by_elim
  case exitError => intro hs sc2; (try subst hs); apply Ev.exitError <;> first | assumption | (rename_i ih; exact ih rfl sc2) | solve_by_elim
  case restArgs => intro hs sc2; (try subst hs); apply Ev.restArgs <;> first | assumption | (rename_i ih; exact ih rfl sc2) | solve_by_elim
  case restArgs_none => intro hs sc2; (try subst hs); apply Ev.restArgs_none <;> first | assumption | (rename_i ih; exact ih rfl sc2) | solve_by_elim
  case map_nil => intro hs sc2; (try subst hs); apply Ev.map_nil <;> first | assumption | (rename_i ih; exact ih rfl sc2) | solve_by_elim
  case map => intro hs sc2; (try subst hs); apply Ev.map <;> first | assumption | (rename_i ih; exact ih rfl sc2) | solve_by_elim
  case map_more => intro hs sc2; (try subst hs); apply Ev.map_more <;> first | assumption | (rename_i ih; exact ih rfl sc2) | solve_by_elim
  case map_last => intro hs sc2; (try subst hs); apply Ev.map_last <;> first | assumption | (rename_i ih; exact ih rfl sc2) | solve_by_elim
  case map_bad => intro hs sc2; (try subst hs); apply Ev.map_bad <;> first | assumption | (rename_i ih; exact ih rfl sc2) | solve_by_elim
  case notFun => intro hs sc2; (try subst hs); apply Ev.notFun <;> first | assumption | (rename_i ih; exact ih rfl sc2) | solve_by_elim

theorem Ev.inProgn {s s' : St} {env e : V} {r : Res} (h : Ev P false s none (.exp env e) s' none r) (sc : Scope) : Ev P false s sc (.exp env e) s' sc r := h.anyScope rfl sc

/-- `Tidy` is a part of the semantics. -/
theorem Tidy.ev {s s' : St} {t : Task} {v : V} (h : Tidy P s t s' v) : Ev P false s none t s' none (.ok v) := by
  induction h with
  | simple _ h => exact h
  | call _ _ h => exact h
  | @ite s env e d br c s1 w e1 s' v h1 h2 h3 h4 h5 h6 _ ih =>
    refine .ite h1 h2 h3 h4 (.sub_ok h5 ?_)
    split at h6
    · rename_i hw; subst hw; exact .ite_false h6 ih
    · rename_i hw; exact .ite_true hw h6 ih
  | cond_nil h1 h2 => exact .cond_nil h1 h2
  | cond h1 h2 h3 h4 h5 h6 h7 h8 h9 _ ih =>
    refine .cond h1 h2 h3 h4 h5 h6 h7 (.sub_ok h8 ?_)
    split at h9
    · rename_i hw; subst hw; exact .ite_false h9 ih
    · rename_i hw; exact .ite_true hw h9 ih
  | setq h1 h2 h3 _ h5 ih => exact .setq h1 (.sub_ok ih (by rw [h2]; exact .setq_k h3 h5))
  | define h1 h2 h3 h4 _ h6 ih => exact .define h1 h2 h3 h4 (.sub_ok ih (.define_k h6))
  | progn h1 h2 _ ih => exact .progn h1 h2 ih
  | body_nil => exact .body_nil
  | body_last h1 _ ih => exact .body_last h1 ih
  | body_more h1 h2 _ ih => exact .body_more h1 (h2.inProgn _) ih
  | more_last h1 _ ih => exact .more_last h1 ih
  | more h1 h2 _ ih => exact .more h1 (h2.inProgn _) ih
  | and_nil h1 h2 => exact .and_nil h1 h2
  | and h1 h2 h3 h4 h5 _ _ ih1 ih2 => exact .and h1 h2 h3 h4 h5 (.sub_ok ih1 ih2)
  | and_false => exact .and_false
  | and_last h => exact .and_last h
  | and_more h1 h2 h3 h4 _ _ ih1 ih2 => exact .and_more h1 h2 h3 h4 (.sub_ok ih1 ih2)
  | or_nil h1 h2 => exact .or_nil h1 h2
  | or h1 h2 h3 h4 h5 _ _ ih1 ih2 => exact .or h1 h2 h3 h4 h5 (.sub_ok ih1 ih2)
  | or_true h => exact .or_true h
  | or_last => exact .or_last
  | or_more h1 h2 h3 _ _ ih1 ih2 => exact .or_more h1 h2 h3 (.sub_ok ih1 ih2)
  | bind_more h1 h2 _ ih => exact .bind_more h1 (.sub_ok h2 ih)
  | bind_last h1 h2 _ ih => exact .bind_last h1 h2 ih

/-- The environment in which the last part is evaluated. -/
def Task.last : Task → V
  | .exp env _ => env
  | .body env _ => env
  | .k (.more env ..) _ => env
  | .k (.and env _) _ => env
  | .k (.or env _) _ => env
  | .k (.bind _ _ env _) _ => env
  | _ => .nil

/-- The machine at the start of a task; the environment in the register is that of the task. -/
def TStarts (P : Prims) (K : List W) (s : St) (fl : Nat) (prog : V) (o : Out) : Task → Prop
  | .exp env e => ∃ r, o = .next ⟨K, r, e, env, false, fl, prog, s⟩
  | .body env exps => ∃ r x, s.gcdr x = some exps ∧ o = evalProgn none ⟨K, r, x, env, false, fl, prog, s⟩
  | .k (.bind body rest env key) v => ∃ x lenv, o = runCont none P 2 ⟨[.v key, .v env, .v rest, .v body] ++ K, v, x, lenv, false, fl, prog, s⟩
  | .k (.more env c rest) v => ∃ x lenv, o = runCont none P 4 ⟨[.v rest, .v (.u c), .v env] ++ K, v, x, lenv, false, fl, prog, s⟩
  | .k f v => ∃ x, o = runCont none P f.code ⟨f.words ++ K, v, x, (Task.k f v).last, false, fl, prog, s⟩
  | _ => False

/-- It comes to hand the value to the stack, with the environment `env` in the register. -/
def TEnds (P : Prims) (K : List W) (s : St) (fl : Nat) (prog : V) (o : Out) (v env : V) : Prop := ∃ n x, steps none P n o = .next ⟨K, v, x, env, true, fl, prog, s⟩

theorem TEnds.here {K : List W} {s : St} {fl : Nat} {prog v env x : V} : TEnds P K s fl prog (.next ⟨K, v, x, env, true, fl, prog, s⟩) v env := ⟨0, x, rfl⟩

theorem TEnds.step {K : List W} {s : St} {fl : Nat} {prog v env : V} {m : M} (h : TEnds P K s fl prog (step none P m) v env) : TEnds P K s fl prog (.next m) v env := by
  obtain ⟨n, x, h⟩ := h
  exact ⟨n + 1, x, h⟩

/-- A part, and then what remains. -/
theorem TEnds.sub {K : List W} {s s1 : St} {fl : Nat} {prog v env env1 w : V} {c : Nat} {Kw : List W} {o : Out} (h : TEnds P (.k c :: Kw ++ K) s1 fl prog o w env1)
    (h2 : ∀ x, TEnds P K s fl prog (runCont none P c ⟨Kw ++ K, w, x, env1, false, fl, prog, s1⟩) v env) : TEnds P K s fl prog o v env := by
  obtain ⟨n, x, h⟩ := h
  obtain ⟨n2, x2, h2⟩ := h2 x
  refine ⟨n + (1 + n2), x2, ?_⟩
  rw [steps_add, h, steps_add, ← h2]
  rfl

/-- The same for a part of the semantics. -/
theorem TEnds.ev {K : List W} {s s0 s1 : St} {fl : Nat} {prog v env env0 e w r : V} {c : Nat} {Kw : List W} (ht : flagTrap fl = false) (hc : flagConst fl = false)
    (h : Ev P false s0 none (.exp env0 e) s1 none (.ok w))
    (h2 : ∀ x env1, TEnds P K s fl prog (runCont none P c ⟨Kw ++ K, w, x, env1, false, fl, prog, s1⟩) v env) :
    TEnds P K s fl prog (.next ⟨.k c :: Kw ++ K, r, e, env0, false, fl, prog, s0⟩) v env := by
  obtain ⟨n, x, env1, h⟩ := C39_value_partial h (.k c :: Kw ++ K) r fl prog ht hc
  exact TEnds.sub ⟨n, x, h⟩ (fun x => h2 x env1)

/-- The arguments of a built-in function. -/
theorem args_tidy {fl : Nat} {prog : V} (ht : flagTrap fl = false) (hc : flagConst fl = false) {K : List W} {n : Nat} (hn : n / 0x10000 = 1 ∨ n / 0x10000 = 2) {s s' : St} {sc sc' : Scope} {t : Task} {r : Res}
    (h : Ev P false s sc t s' sc' r) : (∀ {env : V} {vals : List V} {rest w v : V}, t = .k (.args env vals rest) w → r = .ok v → (w :: vals).reverse.head? = some (.sym n) →
        ∀ x lenv, TEnds P K s' fl prog (runCont none P 5 ⟨(Frame.args env vals rest).words ++ K, w, x, lenv, false, fl, prog, s⟩) v env) ∧
      (∀ {env env0 : V} {vals : List V} {rest e v : V}, t = .sub (.args env vals rest) env0 e → r = .ok v → (∀ w, (w :: vals).reverse.head? = some (.sym n)) →
        ∀ y, TEnds P K s' fl prog (.next ⟨.k 5 :: (Frame.args env vals rest).words ++ K, y, e, env0, false, fl, prog, s⟩) v env) := by
  have key : ∀ {w : V} {vals : List V} {k : Nat} {as : List V}, (w :: vals).reverse = .sym k :: as → (w :: vals).reverse.head? = some (.sym n) → k = n := by
    intro w vals k as h1 h2
    rw [h1] at h2
    cases h2; rfl
  induction h with
  | @sub_ok s s1 s2 sc sc' f env e v r h1 h2 ih1 ih2 =>
    refine ⟨(fun e => by cases e), ?_⟩
    intro env' env0 vals rest e' v' e1 e2 e3 y
    cases e1
    exact TEnds.ev ht hc h1 fun x env1 => ih2.1 rfl e2 (e3 _) x env1
  | sub_err h1 ih1 => exact ⟨(fun e => by cases e), fun e1 e2 => by cases e2⟩
  | @args_more s s' sc sc' env vals a v r h1 ih =>
    refine ⟨?_, fun e => by cases e⟩
    intro env' vals' rest w v' e1 e2 e3 x lenv
    cases e1
    have h3 : ∀ w', (w' :: v :: vals).reverse.head? = some (.sym n) := by
      intro w'
      rw [List.reverse_cons, List.head?_append, e3]; rfl
    have := ih.2 rfl e2 h3 v
    simpa only [Frame.words, runCont, contArgs, List.cons_append, List.nil_append, reserve_none, List.length_cons, List.map_cons, M.go] using this
  | @prim_ok s s' sc env vals rest' v k args w h1 h2 h3 h4 =>
    refine ⟨?_, fun e => by cases e⟩
    intro env' vals' rest w' v' e1 e2 e3 x lenv
    cases e1; cases e2
    refine ⟨0, x, ?_⟩
    rw [steps, show 5 = (Frame.args env vals rest').code from rfl, contArgs_done h1, application_eq rfl h2, if_pos h3]
    simp only [h4]; rfl
  | setvar_ok h1 h2 => exact ⟨fun e1 e2 e3 => by cases e1; have := key h2 e3; omega, fun e => by cases e⟩
  | eval1 h1 h2 => exact ⟨fun e1 e2 e3 => by cases e1; have := key h2 e3; omega, fun e => by cases e⟩
  | eval2 h1 h2 => exact ⟨fun e1 e2 e3 => by cases e1; have := key h2 e3; omega, fun e => by cases e⟩
  | restArgs h1 h2 => exact ⟨fun e1 e2 e3 => by cases e1; have := key h2 e3; omega, fun e => by cases e⟩
  | restArgs_none h1 h2 => exact ⟨fun e1 e2 e3 => by cases e1; have := key h2 e3; omega, fun e => by cases e⟩
  | map_nil h1 h2 => exact ⟨fun e1 e2 e3 => by cases e1; have := key h2 e3; omega, fun e => by cases e⟩
  | map h1 h2 => exact ⟨fun e1 e2 e3 => by cases e1; have := key h2 e3; omega, fun e => by cases e⟩
  | _ =>
    refine ⟨?_, ?_⟩
    · intro _ _ _ _ _ e1 e2; first | cases e1; done | cases e2; done
    · intro _ _ _ _ _ _ e; cases e

/-- The machine does what `Tidy` says, and leaves the environment of the task in the register. -/
theorem tidy_sim {s s' : St} {t : Task} {v : V} (h : Tidy P s t s' v) : ∀ fl prog, flagTrap fl = false → flagConst fl = false → ∀ K o, TStarts P K s fl prog o t →
    TEnds P K s' fl prog o v t.last := by
  induction h with
  | @simple s env e s' v h1 h2 =>
    rintro fl prog ht hc K o ⟨r, rfl⟩
    apply TEnds.step
    rcases h1 with h1 | ⟨a, rfl, h1⟩ | ⟨a, rfl, h1⟩
    · have hn : ∀ n, ¬ s.isForm e n := by rintro n ⟨a, rfl, _⟩; cases h1
      cases h2
      case self h3 h4 => refine ⟨0, e, ?_⟩; cases e <;> simp_all [V.isSym, V.isCons, steps, step, M.ret, Task.last]
      case name h3 => exact ⟨0, _, by simp [steps, step, evalSymbol, Nat.not_le.2 h3, M.ret, Task.last]; rfl⟩
      case loc h3 h4 => exact ⟨0, _, by simp [steps, step, evalSymbol, h3, h4, M.ret, Task.last]; rfl⟩
      case glob h3 h4 h5 => exact ⟨0, _, by simp [steps, step, evalSymbol, h3, h4, h5, M.ret, Task.last]; rfl⟩
      case app => cases h1
      all_goals (first | exact absurd ‹St.isForm _ _ _› (hn _))
    · have hf : ∀ n, s.isForm (.cons a) n → n = 0x100 := by rintro n ⟨b, e, hb⟩; cases e; rw [h1] at hb; cases hb; rfl
      cases h2
      case quote h3 h4 => exact ⟨0, .cons a, by simp [steps, step, h1, special, evalSpecial, evalQuote, h4, M.ret, Task.last]⟩
      case self h3 h4 => cases h4
      case app h3 _ => rw [h1] at h3; simp [special] at h3
      case fnval h4 h3 => have := hf _ h3; omega
      all_goals (have := hf _ ‹St.isForm _ _ _›; omega)
    · have hf : ∀ n, s.isForm (.cons a) n → n = 0x103 := by rintro n ⟨b, e, hb⟩; cases e; rw [h1] at hb; cases hb; rfl
      cases h2
      case lambda h3 h4 =>
        refine ⟨0, .cons a, ?_⟩
        simp [steps, step, h1, special, evalSpecial, evalLambda, h4, M.ret, Task.last]
      case self h3 h4 => cases h4
      case app h3 _ => rw [h1] at h3; simp [special] at h3
      case fnval h4 h3 => have := hf _ h3; omega
      all_goals (have := hf _ ‹St.isForm _ _ _›; omega)
  | @call s env a n s' v h1 h2 h3 =>
    rintro fl prog ht hc K o ⟨r, rfl⟩
    have hsp : special (s.car a) = none := by rw [h1]; simp only [special]; rw [if_neg (by omega)]
    have hlt : n < runtimeStart := by have : runtimeStart = 0x40000 := rfl; omega
    have hform : ∀ k, s.isForm (.cons a) k → k = n := by rintro k ⟨b, e, hb⟩; cases e; rw [h1] at hb; cases hb; rfl
    cases h3
    case self h3 h4 => cases h4
    case app h3 h4 =>
      cases h4
      rename_i s1 w h4 h5
      rw [h1] at h4
      cases h4
      case self h _ => simp [V.isSym] at h
      case loc h _ => omega
      case glob h _ _ => omega
      case name =>
        have h6 : Ev P false s none (.k (.args env [] (s.cdr a)) (.sym n)) s' none (.ok v) := by
          generalize s.cdr a = as at h5
          cases h5 with
          | start_sym h => exact h
        have := (args_tidy ht hc (K := K) (fl := fl) (prog := prog) h2 h6).1 rfl rfl (by simp)
        apply TEnds.step
        have e1 : step none P ⟨K, r, .cons a, env, false, fl, prog, s⟩ = .next ⟨.k 10 :: .v (s.cdr a) :: .v env :: K, r, .sym n, env, false, fl, prog, s⟩ := by
          rw [h1] at hsp
          simp [step, hsp, h1, reserve, M.go]
        rw [e1]
        apply TEnds.step
        have e2 : step none P ⟨.k 10 :: .v (s.cdr a) :: .v env :: K, r, .sym n, env, false, fl, prog, s⟩ = .next ⟨.k 10 :: .v (s.cdr a) :: .v env :: K, .sym n, .sym n, env, true, fl, prog, s⟩ := by
          simp [step, evalSymbol, Nat.not_le.2 hlt, M.ret]
        rw [e2]
        apply TEnds.step
        exact this (.sym n) env
      all_goals (obtain ⟨_, e, _⟩ := ‹St.isForm _ _ _›; cases e)
    all_goals (have := hform _ ‹St.isForm _ _ _›; omega)
  | @ite s env e d br c s1 w e1 s' v h1 h2 h3 h4 h5 h6 h7 ih =>
    rintro fl prog ht hc K o ⟨r, rfl⟩
    obtain ⟨a, rfl, ha⟩ := h1
    apply TEnds.step
    have e1 : step none P ⟨K, r, .cons a, env, false, fl, prog, s⟩ = .next ⟨.k 3 :: [.v env, .v br] ++ K, r, c, env, false, fl, prog, s⟩ := by
      simp [step, ha, special, evalSpecial, evalIf, h2, h3, h4, reserve, M.go]
    rw [e1]
    refine TEnds.ev ht hc h5 fun x env1 => ih fl prog ht hc K _ ⟨w, ?_⟩
    simp only [runCont, List.cons_append, List.nil_append]
    by_cases hw : w = .nil
    · simp only [hw, if_true] at h6; simp [contIf, hw, h6, M.go]
    · simp only [hw, if_false] at h6; simp [contIf, hw, h6, M.go]
  | cond_nil h1 h2 =>
    rintro fl prog ht hc K o ⟨r, rfl⟩
    obtain ⟨a, rfl, ha⟩ := h1
    apply TEnds.step
    exact ⟨0, .cons a, by simp [steps, step, ha, special, evalSpecial, evalCond, h2, M.ret]; rfl⟩
  | @cond s s1 s2 s3 s4 s' env e c1 other t br w e1 v h1 h2 h3 h4 h5 h6 h7 h8 h9 h10 ih =>
    rintro fl prog ht hc K o ⟨r, rfl⟩
    obtain ⟨a, rfl, ha⟩ := h1
    apply TEnds.step
    have e1 : step none P ⟨K, r, .cons a, env, false, fl, prog, s⟩ = .next ⟨.k 3 :: [.v env, .v br] ++ K, r, s.hd c1, env, false, fl, prog, s3⟩ := by
      simp [step, ha, special, evalSpecial, evalCond, h2, h3, h4, h5, h6, h7, reserve, M.go]
    rw [e1]
    refine TEnds.ev ht hc h8 fun x env1 => ih fl prog ht hc K _ ⟨w, ?_⟩
    simp only [runCont, List.cons_append, List.nil_append]
    by_cases hw : w = .nil
    · simp only [hw, if_true] at h9; simp [contIf, hw, h9, M.go]
    · simp only [hw, if_false] at h9; simp [contIf, hw, h9, M.go]
  | @setq s env e n s1 s' v h1 h2 h3 h4 h5 ih =>
    rintro fl prog ht hc K o ⟨r, rfl⟩
    obtain ⟨a, rfl, ha⟩ := h1
    apply TEnds.step
    have e1 : step none P ⟨K, r, .cons a, env, false, fl, prog, s⟩ = .next ⟨.k 27 :: [.v (.sym n), .v env] ++ K, r, s.hd (s.tl (s.tl (.cons a))), env, false, fl, prog, s⟩ := by
      simp [step, ha, special, evalSpecial, evalSetq, h2, reserve, M.go]
    rw [e1]
    refine TEnds.sub (ih fl prog ht hc _ _ ⟨r, rfl⟩) fun y => ⟨0, y, ?_⟩
    simp [steps, runCont, contSetq, h3, h5, M.ret, Task.last]
  | @define s env e n s1 s' v h1 h2 h3 h4 h5 h6 ih =>
    rintro fl prog ht hc K o ⟨r, rfl⟩
    obtain ⟨a, rfl, ha⟩ := h1
    apply TEnds.step
    have e1 : step none P ⟨K, r, .cons a, env, false, fl, prog, s⟩ = .next ⟨.k 1 :: [.v (.sym n)] ++ K, r, s.hd (s.tl (s.tl (.cons a))), env, false, fl, prog, s⟩ := by
      simp [step, ha, special, evalSpecial, evalDefine, h2, h3, h4, hc, reserve, M.go]
    rw [e1]
    refine TEnds.sub (ih fl prog ht hc _ _ ⟨r, rfl⟩) fun y => ⟨0, y, ?_⟩
    simp [steps, runCont, contDefine, h6, M.ret, Task.last]
  | progn h1 h2 h3 ih =>
    rintro fl prog ht hc K o ⟨r, rfl⟩
    obtain ⟨a, rfl, ha⟩ := h1
    apply TEnds.step
    refine ih fl prog ht hc K _ ⟨r, .cons a, h2, ?_⟩
    simp [step, ha, special, evalSpecial]
  | body_nil =>
    rintro fl prog ht hc K o ⟨r, x, h, rfl⟩
    exact ⟨0, x, by simp [steps, evalProgn, h, M.ret, Task.last]⟩
  | body_last h1 h2 ih =>
    rintro fl prog ht hc K o ⟨r, x, h, rfl⟩
    exact ih fl prog ht hc K _ ⟨r, by simp [evalProgn, h, h1, M.go]⟩
  | @body_more s s1 s' env a w v h1 h2 h3 ih =>
    rintro fl prog ht hc K o ⟨r, x, h, rfl⟩
    have e1 : evalProgn none ⟨K, r, x, env, false, fl, prog, s⟩ = .next ⟨.k 4 :: [.v (s.cdr a), .v (.u 0), .v env] ++ K, r, s.car a, env, false, fl, prog, s⟩ := by
      simp [evalProgn, h, h1, reserve, M.go]
    rw [e1]
    exact TEnds.ev ht hc h2 fun x env1 => ih fl prog ht hc K _ ⟨x, env1, rfl⟩
  | more_last h1 h2 ih =>
    rintro fl prog ht hc K o ⟨x, lenv, rfl⟩
    exact ih fl prog ht hc K _ ⟨_, by simp [runCont, contProgn, h1, M.go]; rfl⟩
  | @more s s1 s' env a w w1 v h1 h2 h3 ih =>
    rintro fl prog ht hc K o ⟨x, lenv, rfl⟩
    have e1 : runCont none P 4 ⟨[.v (.cons a), .v (.u 0), .v env] ++ K, w, x, lenv, false, fl, prog, s⟩ =
        .next ⟨.k 4 :: [.v (s.cdr a), .v (.u 0), .v env] ++ K, w, s.car a, env, false, fl, prog, s⟩ := by
      simp [runCont, contProgn, h1, reserve, M.go]
    rw [e1]
    exact TEnds.ev ht hc h2 fun x env1 => ih fl prog ht hc K _ ⟨x, env1, rfl⟩
  | and_nil h1 h2 =>
    rintro fl prog ht hc K o ⟨r, rfl⟩
    obtain ⟨a, rfl, ha⟩ := h1
    apply TEnds.step
    exact ⟨0, .cons a, by simp [steps, step, ha, special, evalSpecial, evalJunct, h2, M.ret]; rfl⟩
  | @and s env e rest d x s1 w s' v h1 h2 h3 h4 h5 h6 h7 ih1 ih2 =>
    rintro fl prog ht hc K o ⟨r, rfl⟩
    obtain ⟨a, rfl, ha⟩ := h1
    apply TEnds.step
    have e1 : step none P ⟨K, r, .cons a, env, false, fl, prog, s⟩ = .next ⟨.k 6 :: [.v d, .v env] ++ K, r, x, env, false, fl, prog, s⟩ := by
      simp [step, ha, special, evalSpecial, evalJunct, h2, h3, h4, h5, reserve, M.go]
    rw [e1]
    exact TEnds.sub (ih1 fl prog ht hc _ _ ⟨r, rfl⟩) fun y => ih2 fl prog ht hc K _ ⟨y, rfl⟩
  | and_false =>
    rintro fl prog ht hc K o ⟨x, rfl⟩
    exact ⟨0, x, by simp [steps, runCont, Frame.code, Frame.words, contAnd, M.ret]⟩
  | and_last h =>
    rintro fl prog ht hc K o ⟨x, rfl⟩
    exact ⟨0, x, by simp [steps, runCont, Frame.code, Frame.words, contAnd, M.ret, h]⟩
  | @and_more s env rest d x w s1 w1 s' v h1 h2 h3 h4 h5 h6 ih1 ih2 =>
    rintro fl prog ht hc K o ⟨y, rfl⟩
    have e1 : runCont none P (Frame.and env rest).code ⟨(Frame.and env rest).words ++ K, w, y, env, false, fl, prog, s⟩ = .next ⟨.k 6 :: [.v d, .v env] ++ K, w, x, env, false, fl, prog, s⟩ := by
      simp [runCont, Frame.code, Frame.words, contAnd, h1, h2, h3, h4, reserve, M.go]
    show TEnds P K s' fl prog (runCont none P (Frame.and env rest).code ⟨(Frame.and env rest).words ++ K, w, y, env, false, fl, prog, s⟩) v env
    rw [e1]
    exact TEnds.sub (ih1 fl prog ht hc _ _ ⟨w, rfl⟩) fun y => ih2 fl prog ht hc K _ ⟨y, rfl⟩
  | or_nil h1 h2 =>
    rintro fl prog ht hc K o ⟨r, rfl⟩
    obtain ⟨a, rfl, ha⟩ := h1
    apply TEnds.step
    exact ⟨0, .cons a, by simp [steps, step, ha, special, evalSpecial, evalJunct, h2, M.ret]; rfl⟩
  | @or s env e rest d x s1 w s' v h1 h2 h3 h4 h5 h6 h7 ih1 ih2 =>
    rintro fl prog ht hc K o ⟨r, rfl⟩
    obtain ⟨a, rfl, ha⟩ := h1
    apply TEnds.step
    have e1 : step none P ⟨K, r, .cons a, env, false, fl, prog, s⟩ = .next ⟨.k 7 :: [.v d, .v env] ++ K, r, x, env, false, fl, prog, s⟩ := by
      simp [step, ha, special, evalSpecial, evalJunct, h2, h3, h4, h5, reserve, M.go]
    rw [e1]
    exact TEnds.sub (ih1 fl prog ht hc _ _ ⟨r, rfl⟩) fun y => ih2 fl prog ht hc K _ ⟨y, rfl⟩
  | or_true h =>
    rintro fl prog ht hc K o ⟨x, rfl⟩
    exact ⟨0, x, by simp [steps, runCont, Frame.code, Frame.words, contOr, M.ret, h]⟩
  | or_last =>
    rintro fl prog ht hc K o ⟨x, rfl⟩
    exact ⟨0, x, by simp [steps, runCont, Frame.code, Frame.words, contOr, M.ret]⟩
  | @or_more s env rest d x s1 w1 s' v h2 h3 h4 h5 h6 ih1 ih2 =>
    rintro fl prog ht hc K o ⟨y, rfl⟩
    have e1 : runCont none P (Frame.or env rest).code ⟨(Frame.or env rest).words ++ K, .nil, y, env, false, fl, prog, s⟩ = .next ⟨.k 7 :: [.v d, .v env] ++ K, .nil, x, env, false, fl, prog, s⟩ := by
      simp [runCont, Frame.code, Frame.words, contOr, h2, h3, h4, reserve, M.go]
    show TEnds P K s' fl prog (runCont none P (Frame.or env rest).code ⟨(Frame.or env rest).words ++ K, .nil, y, env, false, fl, prog, s⟩) v env
    rw [e1]
    exact TEnds.sub (ih1 fl prog ht hc _ _ ⟨_, rfl⟩) fun y => ih2 fl prog ht hc K _ ⟨y, rfl⟩
  | @bind_more s s1 s2 s' body a env key v w r h1 h2 h3 ih =>
    rintro fl prog ht hc K o ⟨x, lenv, rfl⟩
    have e1 : runCont none P 2 ⟨[.v key, .v env, .v (.cons a), .v body] ++ K, v, x, lenv, false, fl, prog, s⟩ =
        .next ⟨.k 2 :: [.v (s1.hd (s1.car a)), .v env, .v (s1.cdr a), .v body] ++ K, v, s1.hd (s1.tl (s1.car a)), env, false, fl, prog, s1⟩ := by
      simp [runCont, contBind, h1, reserve, M.go]
    rw [e1]
    exact TEnds.ev ht hc h2 fun x env1 => ih fl prog ht hc K _ ⟨x, env1, rfl⟩
  | @bind_last s s1 s' body rest env key v r h1 h2 h3 ih =>
    rintro fl prog ht hc K o ⟨x, lenv, rfl⟩
    refine ih fl prog ht hc K _ ⟨v, ?_⟩
    cases rest <;> simp_all [runCont, contBind, M.go, V.isCons]

/-- `tidy_sim` for an expression. -/
theorem tidy_exp {s s' : St} {env e v : V} (h : Tidy P s (.exp env e) s' v) (fl : Nat) (prog : V) (ht : flagTrap fl = false) (hc : flagConst fl = false) (K : List W) (r : V) :
    TEnds P K s' fl prog (.next ⟨K, r, e, env, false, fl, prog, s⟩) v env := tidy_sim h fl prog ht hc K _ ⟨r, rfl⟩

theorem loopRuns_sim {cond body env : V} (fl : Nat) (prog : V) (ht : flagTrap fl = false) (hc : flagConst fl = false) (K : List W) {s s' : St} {c : V} (h : LoopRuns P cond body env s c s') :
    ∀ x, ∃ n x' env', steps none P n (.next ⟨.k 39 :: .v cond :: .v body :: K, c, x, env, true, fl, prog, s⟩) = .next ⟨K, .nil, x', env', true, fl, prog, s'⟩ := by
  induction h with
  | stop => exact fun x => ⟨1, x, env, by simp [steps, step, runCont, contLoopCond, M.ret]⟩
  | @again s s1 s2 s' c v c1 h1 h2 h3 h4 ih =>
    intro x
    obtain ⟨n1, x1, e1⟩ := tidy_exp h2 fl prog ht hc (.k 38 :: .v cond :: .v body :: K) c
    obtain ⟨n2, x2, e2⟩ := tidy_exp h3 fl prog ht hc (.k 39 :: .v cond :: .v body :: K) v
    obtain ⟨n3, x3, env3, e3⟩ := ih x2
    refine ⟨1 + (n1 + (1 + (n2 + n3))), x3, env3, ?_⟩
    have g1 : steps none P 1 (.next ⟨.k 39 :: .v cond :: .v body :: K, c, x, env, true, fl, prog, s⟩) = .next ⟨.k 38 :: .v cond :: .v body :: K, c, body, env, false, fl, prog, s⟩ := by
      simp [steps, step, runCont, contLoopCond, h1, reserve, M.go]
    have g2 : steps none P 1 (.next ⟨.k 38 :: .v cond :: .v body :: K, v, x1, env, true, fl, prog, s1⟩) = .next ⟨.k 39 :: .v cond :: .v body :: K, v, cond, env, false, fl, prog, s1⟩ := by
      simp [steps, step, runCont, contLoop, reserve, M.go]
    rw [steps_add, g1, steps_add, e1, steps_add, g2, steps_add, e2, e3]

end Verif.Eval
