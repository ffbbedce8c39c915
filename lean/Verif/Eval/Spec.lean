import Verif.Eval.Model

/-!
# The semantics of the language

A big-step semantics, in the style where each form first evaluates its next part and then continues
with the value of that part (`Frame` lists what remains to be done). There is no stack and there are no registers: evaluating an expression in an
environment gives a value or an error, and a store. Errors of parts are errors of the whole
(`sub_err`), except in `trap`.

The semantics only covers forms that are written correctly. Code is data in the store; the rules say
when a part of it is read.

`full` selects the full semantics. The rules marked with `full = true` are those which the evaluator does not
follow; `Ev P false` is the semantics without them.
-/

namespace Verif.Eval

/-- A value or an error. -/
inductive Res where
  | ok (v : V)
  | err (v : V)
  deriving DecidableEq, Repr

/-- For an expression that is an item (not the last) of a `progn`, or chosen by an `if`, a `cond` or a macro that is such an item: the
environment of that `progn`, and whether it has been copied already. `(var x e)` adds a binding there. -/
abbrev Scope := Option (V × Nat)

/-- What remains to be done when a part has been evaluated. -/
inductive Frame where
  /-- bind the value to a global variable -/
  | define (n : Nat)
  /-- bind the value to the names in `key`, then evaluate the other bindings and the body -/
  | bind (body rest env key : V)
  /-- choose a branch -/
  | ite (env br : V)
  /-- the value is ignored, the rest of a `progn` follows -/
  | more (env : V) (c : Nat) (rest : V)
  /-- the value is the function or an argument, `vals` are the function and the arguments before it (last first) -/
  | args (env : V) (vals : List V) (rest : V)
  | and (env rest : V)
  | or (env rest : V)
  /-- the value is matched against the cases -/
  | cases (env pats : V)
  /-- the value is the function, `args` the argument expressions -/
  | start (env args : V)
  /-- the value is the expansion of a macro -/
  | evalR (env : V)
  /-- the value is the argument for the first of `params` -/
  | pars (aenv body cenv params args : V)
  /-- the value is an argument for which there is no parameter; `last` is the end of the list of such arguments -/
  | rest (aenv body cenv last args : V)
  /-- bind the value to a local variable of a `progn` -/
  | var (env key : V)
  /-- assign the value to a variable -/
  | setq (env key : V)
  /-- the value is that of the call `call` for an element of a list; it is written to `last`, the last cell of the list `res`. `arg` is the cell
  of the call that holds the element, `ls` are the elements that are left. -/
  | map (env arg call last res ls : V)

/-- What is evaluated. -/
inductive Task where
  /-- an expression -/
  | exp (env e : V)
  /-- the expressions of a `progn` -/
  | body (env exps : V)
  /-- the bindings and the body of a `let` -/
  | letb (env binds body : V)
  /-- an expression and then what remains -/
  | sub (f : Frame) (env e : V)
  /-- what remains, with a value -/
  | k (f : Frame) (v : V)
  /-- the rest of a loop, with the value of the condition -/
  | loop (env cond body c : V)

/-- The cell for `(exit-ok v)` or `(exit-error e)`: a list of two elements, the first is `exit-ok`. -/
def St.exitCell (s : St) : St × V :=
  let (s1, c1) := s.cons .nil .nil
  s1.cons .exitOk c1

/-- Write the second element of a list. -/
def St.setSecond (s : St) (l v : V) : Option St :=
  match s.gcdr l with
  | none => none
  | some c => some (s.setCar c v)

/-- The expression `(f (quote x))`: the store with it, the cell that holds `x`, and the expression. -/
def St.callOf (s : St) (f x : V) : St × V × V :=
  let (s1, arg) := s.cons x .nil
  let (s2, q) := s1.cons .quote arg
  let (s3, t) := s2.cons q .nil
  let (s4, call) := s3.cons f t
  (s4, arg, call)

/-- `e` is a list that starts with the symbol of a special form. -/
def St.isForm (s : St) (e : V) (n : Nat) : Prop := ∃ a, e = .cons a ∧ s.car a = .sym n

/-- `Ev P full s sc t s' sc' r`: in the store `s` the task `t` ends with the result `r` in the store `s'`;
`sc` and `sc'` are the scope of the enclosing `progn` before and after. -/
inductive Ev (P : Prims) (full : Bool) : St → Scope → Task → St → Scope → Res → Prop
  /- parts -/
  | sub_ok {s s1 s2 sc sc' f env e v r} : Ev P full s none (.exp env e) s1 none (.ok v) → Ev P full s1 sc (.k f v) s2 sc' r →
      Ev P full s sc (.sub f env e) s2 sc' r
  | sub_err {s s1 sc f env e x} : Ev P full s none (.exp env e) s1 none (.err x) → Ev P full s sc (.sub f env e) s1 sc (.err x)
  /- atoms: numbers and so on are their own value, so are symbols that are not variables -/
  | self {s sc env e} : e.isSym = false → e.isCons = false → Ev P full s sc (.exp env e) s sc (.ok e)
  | name {s sc env n} : n < runtimeStart → Ev P full s sc (.exp env (.sym n)) s sc (.ok (.sym n))
  | loc {s sc env n v} : runtimeStart ≤ n → s.lookup (.sym n) (s.next + 1) env = some (some v) → Ev P full s sc (.exp env (.sym n)) s sc (.ok v)
  | glob {s sc env n v} : runtimeStart ≤ n → s.lookup (.sym n) (s.next + 1) env = some none → s.glookup n = some (some v) →
      Ev P full s sc (.exp env (.sym n)) s sc (.ok v)
  | unbound {s sc env n} : runtimeStart ≤ n → s.lookup (.sym n) (s.next + 1) env = some none → s.glookup n = some none →
      Ev P full s sc (.exp env (.sym n)) s sc (.err .notFound)
  /- (quote v), and lists that are closures, macros or continuations -/
  | quote {s sc env e v} : s.isForm e 0x100 → s.gcadr e = some v → Ev P full s sc (.exp env e) s sc (.ok v)
  | fnval {s sc env e n} : s.isForm e n → n = 0x10D ∨ n = 0x10E ∨ n = 0x10F → Ev P full s sc (.exp env e) s sc (.ok e)
  /- (define x e) -/
  | define {s s' sc sc' env e n r} : s.isForm e 0x101 → s.hd (s.tl e) = .sym n → runtimeStart ≤ n → s.tl (s.tl (s.tl e)) = .nil →
      Ev P full s sc (.sub (.define n) env (s.hd (s.tl (s.tl e)))) s' sc' r → Ev P full s sc (.exp env e) s' sc' r
  | define_k {s s' sc n v} : s.define n v = some s' → Ev P full s sc (.k (.define n) v) s' sc (.ok v)
  | define_bad {s sc env e} : full = true → s.isForm e 0x101 → (∀ n, s.hd (s.tl e) = .sym n → n < runtimeStart) → Ev P full s sc (.exp env e) s sc (.err .eerror)
  /- (progn e1 ... en) -/
  | progn {s s' sc sc' env e exps r} : s.isForm e 0x102 → s.gcdr e = some exps → Ev P full s sc (.body env exps) s' sc' r → Ev P full s sc (.exp env e) s' sc' r
  | body_nil {s sc env} : Ev P full s sc (.body env .nil) s sc (.ok .nil)
  | body_last {s s' sc env a r} : (s.cdr a).isCons = false → Ev P full s none (.exp env (s.car a)) s' none r → Ev P full s sc (.body env (.cons a)) s' sc r
  | body_more {s s1 s2 sc sc' env a env1 c v r} : (s.cdr a).isCons = true → Ev P full s (some (env, 0)) (.exp env (s.car a)) s1 (some (env1, c)) (.ok v) →
      Ev P full s1 sc (.k (.more env1 c (s.cdr a)) v) s2 sc' r → Ev P full s sc (.body env (.cons a)) s2 sc' r
  | body_err {s s1 sc env a sc1 x} : (s.cdr a).isCons = true → Ev P full s (some (env, 0)) (.exp env (s.car a)) s1 (some sc1) (.err x) →
      Ev P full s sc (.body env (.cons a)) s1 sc (.err x)
  | more_last {s s' sc env c a v r} : (s.cdr a).isCons = false → Ev P full s none (.exp env (s.car a)) s' none r →
      Ev P full s sc (.k (.more env c (.cons a)) v) s' sc r
  | more {s s1 s2 sc sc' env c a v env1 c1 w r} : (s.cdr a).isCons = true → Ev P full s (some (env, c)) (.exp env (s.car a)) s1 (some (env1, c1)) (.ok w) →
      Ev P full s1 sc (.k (.more env1 c1 (s.cdr a)) w) s2 sc' r → Ev P full s sc (.k (.more env c (.cons a)) v) s2 sc' r
  | more_err {s s1 sc env c a v sc1 x} : (s.cdr a).isCons = true → Ev P full s (some (env, c)) (.exp env (s.car a)) s1 (some sc1) (.err x) →
      Ev P full s sc (.k (.more env c (.cons a)) v) s1 sc (.err x)
  /- (var x e): the environment of the progn is copied once, then extended -/
  | var {s s1 s2 s3 env e c penv1 penv2 args key x r} : s.isForm e 0x112 →
      (if c = 0 then s.copySpine (s.next + 1) env else some (s, env)) = some (s1, penv1) → s1.gcdr e = some args → s1.gcar args = some key →
      s1.createLoc (s1.next + 1) key penv1 = some (s2, penv2) → s2.gcadr args = some x →
      Ev P full s2 none (.sub (.var penv2 key) penv2 x) s3 none r →
      Ev P full s (some (env, c)) (.exp env e) s3 (some (penv2, if c = 0 then 1 else c)) r
  | var_k {s s' sc env key v} : s.fillLoc (s.next + 1) key v env = some (s', true) → Ev P full s sc (.k (.var env key) v) s' sc (.ok v)
  | var_bad {s s' sc env key v} : s.fillLoc (s.next + 1) key v env = some (s', false) → Ev P full s sc (.k (.var env key) v) s' sc (.err .terror)
  /- (lambda params body) -/
  | lambda {s s' sc env e c} : s.isForm e 0x103 → allocClosure s (s.hd (s.tl e)) (s.hd (s.tl (s.tl e))) env = (s', c) → Ev P full s sc (.exp env e) s' sc (.ok c)
  /- (if c e1 e2) -/
  | ite {s s' sc sc' env e d br c r} : s.isForm e 0x104 → s.gcdr e = some d → s.gcdr d = some br → s.gcar d = some c →
      Ev P full s sc (.sub (.ite env br) env c) s' sc' r → Ev P full s sc (.exp env e) s' sc' r
  | ite_true {s s' sc sc' env br v e r} : v ≠ .nil → s.gcar br = some e → Ev P full s sc (.exp env e) s' sc' r → Ev P full s sc (.k (.ite env br) v) s' sc' r
  | ite_false {s s' sc sc' env br e r} : s.gcadr br = some e → Ev P full s sc (.exp env e) s' sc' r → Ev P full s sc (.k (.ite env br) .nil) s' sc' r
  /- (cond (c1 e1) ... (cn en)) is (if c1 e1 (cond ... (cn en))) -/
  | cond_nil {s sc env e} : s.isForm e 0x110 → s.hd (s.tl e) = .nil → Ev P full s sc (.exp env e) s sc (.ok .nil)
  | cond {s s1 s2 s3 s' sc sc' env e c1 other t br r} : s.isForm e 0x110 → s.hd (s.tl e) = c1 → c1 ≠ .nil → s.len (s.next + 1) c1 = some 2 →
      s.cons .cond (s.tl (s.tl e)) = (s1, other) → s1.cons other .nil = (s2, t) → s2.cons (s.hd (s.tl c1)) t = (s3, br) →
      Ev P full s3 sc (.sub (.ite env br) env (s.hd c1)) s' sc' r → Ev P full s sc (.exp env e) s' sc' r
  | cond_bad {s sc env e n} : s.isForm e 0x110 → s.hd (s.tl e) ≠ .nil → s.len (s.next + 1) (s.hd (s.tl e)) = some n → n ≠ 2 →
      Ev P full s sc (.exp env e) s sc (.err .eerror)
  /- (let ((x1 e1) ... (xn en)) body): all names are bound first, without values -/
  | letf {s s' sc sc' env e r} : s.isForm e 0x105 → Ev P full s sc (.letb env (s.hd (s.tl e)) (s.hd (s.tl (s.tl e)))) s' sc' r → Ev P full s sc (.exp env e) s' sc' r
  | letb_none {s s' sc env binds body r} : binds.isCons = false → Ev P full s none (.exp env body) s' none r → Ev P full s sc (.letb env binds body) s' sc r
  | letb {s s1 s' sc sc' env a body env1 r} : letLocs s (s.next + 1) (.cons a) env = some (some (s1, env1)) →
      Ev P full s1 sc (.sub (.bind body (s1.cdr a) env1 (s1.hd (s1.car a))) env1 (s1.hd (s1.tl (s1.car a)))) s' sc' r →
      Ev P full s sc (.letb env (.cons a) body) s' sc' r
  | bind_more {s s1 s' sc sc' body a env key v r} : s.fillLoc (s.next + 1) key v env = some (s1, true) →
      Ev P full s1 sc (.sub (.bind body (s1.cdr a) env (s1.hd (s1.car a))) env (s1.hd (s1.tl (s1.car a)))) s' sc' r →
      Ev P full s sc (.k (.bind body (.cons a) env key) v) s' sc' r
  | bind_last {s s1 s' sc body rest env key v r} : rest.isCons = false → s.fillLoc (s.next + 1) key v env = some (s1, true) →
      Ev P full s1 none (.exp env body) s' none r → Ev P full s sc (.k (.bind body rest env key) v) s' sc r
  | bind_bad {s s1 sc body rest env key v} : s.fillLoc (s.next + 1) key v env = some (s1, false) →
      Ev P full s sc (.k (.bind body rest env key) v) s1 sc (.err .terror)
  /- (and e1 ... en), (or e1 ... en) -/
  | and_nil {s sc env e} : s.isForm e 0x106 → s.gcdr e = some .nil → Ev P full s sc (.exp env e) s sc (.ok .tru)
  | and {s s' sc sc' env e rest d x r} : s.isForm e 0x106 → s.gcdr e = some rest → rest ≠ .nil → s.gcdr rest = some d → s.gcar rest = some x →
      Ev P full s sc (.sub (.and env d) env x) s' sc' r → Ev P full s sc (.exp env e) s' sc' r
  | and_false {s sc env rest} : Ev P full s sc (.k (.and env rest) .nil) s sc (.ok .nil)
  | and_last {s sc env v} : v ≠ .nil → Ev P full s sc (.k (.and env .nil) v) s sc (.ok v)
  | and_more {s s' sc sc' env rest d x v r} : v ≠ .nil → rest ≠ .nil → s.gcdr rest = some d → s.gcar rest = some x →
      Ev P full s sc (.sub (.and env d) env x) s' sc' r → Ev P full s sc (.k (.and env rest) v) s' sc' r
  | or_nil {s sc env e} : s.isForm e 0x107 → s.gcdr e = some .nil → Ev P full s sc (.exp env e) s sc (.ok .nil)
  | or {s s' sc sc' env e rest d x r} : s.isForm e 0x107 → s.gcdr e = some rest → rest ≠ .nil → s.gcdr rest = some d → s.gcar rest = some x →
      Ev P full s sc (.sub (.or env d) env x) s' sc' r → Ev P full s sc (.exp env e) s' sc' r
  | or_true {s sc env rest v} : v ≠ .nil → Ev P full s sc (.k (.or env rest) v) s sc (.ok v)
  | or_last {s sc env} : Ev P full s sc (.k (.or env .nil) .nil) s sc (.ok .nil)
  | or_more {s s' sc sc' env rest d x r} : rest ≠ .nil → s.gcdr rest = some d → s.gcar rest = some x →
      Ev P full s sc (.sub (.or env d) env x) s' sc' r → Ev P full s sc (.k (.or env rest) .nil) s' sc' r
  /- (match e (p1 e1) ... (pn gn en)): bodies and guards are evaluated in the environment of the match extended by the pattern -/
  | mtch {s s' sc sc' env e a r} : s.isForm e 0x108 → s.gcdr e = some (.cons a) → Ev P full s sc (.sub (.cases env (s.cdr a)) env (s.car a)) s' sc' r →
      Ev P full s sc (.exp env e) s' sc' r
  | cases_nil {s sc env v} : Ev P full s sc (.k (.cases env .nil) v) s sc (.ok .noMatch)
  | cases_no {s s1 s' sc sc' env a v p n1 n2 env1 r} : s.gcar (s.car a) = some p → s.gcadr (s.car a) = some n1 → (s.gcdr (s.car a)).bind s.gcadr = some n2 →
      s.matchP P.eq (s.next + 1) p v env = some (false, s1, env1) → Ev P full s1 sc (.k (.cases env (s1.cdr a)) v) s' sc' r →
      Ev P full s sc (.k (.cases env (.cons a)) v) s' sc' r
  | cases_yes {s s1 s' sc env a v p n1 env1 r} : s.gcar (s.car a) = some p → s.gcadr (s.car a) = some n1 → (s.gcdr (s.car a)).bind s.gcadr = some .nil →
      s.matchP P.eq (s.next + 1) p v env = some (true, s1, env1) → Ev P full s1 none (.exp env1 n1) s' none r →
      Ev P full s sc (.k (.cases env (.cons a)) v) s' sc r
  | guard_yes {s s1 s2 s' sc env a v p n1 n2 env1 g r} : s.gcar (s.car a) = some p → s.gcadr (s.car a) = some n1 →
      (s.gcdr (s.car a)).bind s.gcadr = some n2 → n2 ≠ .nil → s.matchP P.eq (s.next + 1) p v env = some (true, s1, env1) →
      Ev P full s1 none (.exp env1 n1) s2 none (.ok g) → g ≠ .nil → Ev P full s2 none (.exp env1 n2) s' none r →
      Ev P full s sc (.k (.cases env (.cons a)) v) s' sc r
  | guard_err {s s1 s2 sc env a v p n1 n2 env1 x} : s.gcar (s.car a) = some p → s.gcadr (s.car a) = some n1 →
      (s.gcdr (s.car a)).bind s.gcadr = some n2 → n2 ≠ .nil → s.matchP P.eq (s.next + 1) p v env = some (true, s1, env1) →
      Ev P full s1 none (.exp env1 n1) s2 none (.err x) → Ev P full s sc (.k (.cases env (.cons a)) v) s2 sc (.err x)
  | guard_no {s s1 s2 s' sc sc' env a v p n1 n2 env1 r} : full = true → s.gcar (s.car a) = some p → s.gcadr (s.car a) = some n1 →
      (s.gcdr (s.car a)).bind s.gcadr = some n2 → n2 ≠ .nil → s.matchP P.eq (s.next + 1) p v env = some (true, s1, env1) →
      Ev P full s1 none (.exp env1 n1) s2 none (.ok .nil) → Ev P full s2 sc (.k (.cases env (s1.cdr a)) v) s' sc' r →
      Ev P full s sc (.k (.cases env (.cons a)) v) s' sc' r
  /- (setq x e) -/
  | setq {s s' sc sc' env e r} : s.isForm e 0x113 → Ev P full s sc (.sub (.setq env (s.hd (s.tl e))) env (s.hd (s.tl (s.tl e)))) s' sc' r →
      Ev P full s sc (.exp env e) s' sc' r
  | setq_k {s s' sc env n v} : runtimeStart ≤ n → s.setvar n v env = some (s', true) → Ev P full s sc (.k (.setq env (.sym n)) v) s' sc (.ok v)
  | setq_bad {s s' sc env n v} : runtimeStart ≤ n → s.setvar n v env = some (s', false) → Ev P full s sc (.k (.setq env (.sym n)) v) s' sc (.err .notFound)
  /- (atomic e1 ... en) -/
  | atomic {s s' sc env e exps v} : s.isForm e 0x10C → s.atomic = false → s.gcdr e = some exps →
      Ev P full { s with atomic := true } none (.body env exps) s' none (.ok v) → Ev P full s sc (.exp env e) { s' with atomic := false } sc (.ok v)
  | atomic_err {s s' sc env e exps x} : full = true → s.isForm e 0x10C → s.atomic = false → s.gcdr e = some exps →
      Ev P full { s with atomic := true } none (.body env exps) s' none (.err x) → Ev P full s sc (.exp env e) { s' with atomic := false } sc (.err x)
  /- (trap e) -/
  | trap_ok {s s1 s2 s' sc env e x rv v} : s.isForm e 0x116 → s.gcadr e = some x → s.exitCell = (s1, rv) →
      Ev P full s1 none (.exp env x) s2 none (.ok v) → s2.setSecond rv v = some s' → Ev P full s sc (.exp env e) s' sc (.ok rv)
  | trap_err {s s1 s2 s' sc env e x rv y} : s.isForm e 0x116 → s.gcadr e = some x → s.exitCell = (s1, rv) →
      Ev P full s1 none (.exp env x) s2 none (.err y) → y ≠ .fatal → (s2.setCar rv .exitError).setSecond rv y = some s' →
      Ev P full s sc (.exp env e) s' sc (.ok rv)
  | trap_fatal {s s1 s2 sc env e x rv} : s.isForm e 0x116 → s.gcadr e = some x → s.exitCell = (s1, rv) →
      Ev P full s1 none (.exp env x) s2 none (.err .fatal) → full = true → Ev P full s sc (.exp env e) s2 sc (.err .fatal)
  /- (loop binds cond body) -/
  | loop {s s0 s1 s' sc sc' env e parts env1 c r} : full = true → s.isForm e 0x115 → s.gcdr e = some parts →
      letLocs s (s.next + 1) (s.hd parts) env = some (some (s0, env1)) →
      Ev P full s none (.letb env (s.hd parts) (s.hd (s.tl parts))) s1 none (.ok c) →
      Ev P full s1 sc (.loop env1 (s.hd (s.tl parts)) (s.hd (s.tl (s.tl parts))) c) s' sc' r → Ev P full s sc (.exp env e) s' sc' r
  | loop_end {s sc env cond body} : full = true → Ev P full s sc (.loop env cond body .nil) s sc (.ok .nil)
  | loop_again {s s1 s2 s' sc sc' env cond body c v c1 r} : full = true → c ≠ .nil → Ev P full s none (.exp env body) s1 none (.ok v) →
      Ev P full s1 none (.exp env cond) s2 none (.ok c1) → Ev P full s2 sc (.loop env cond body c1) s' sc' r → Ev P full s sc (.loop env cond body c) s' sc' r
  /- (f e1 ... en) -/
  | app {s s' sc sc' env a r} : special (s.car a) = none → Ev P full s sc (.sub (.start env (s.cdr a)) env (s.car a)) s' sc' r →
      Ev P full s sc (.exp env (.cons a)) s' sc' r
  | start_sym {s s' sc sc' env args n r} : Ev P full s sc (.k (.args env [] args) (.sym n)) s' sc' r → Ev P full s sc (.k (.start env args) (.sym n)) s' sc' r
  | start_bad {s sc env args f} : f.isSym = false → (∀ a, f = .cons a → s.car a ≠ .closure ∧ s.car a ≠ .cont ∧ s.car a ≠ .macroSym) →
      Ev P full s sc (.k (.start env args) f) s sc (.err .eerror)
  /- closures: arguments are evaluated in order, each is bound to its parameter, the others to `rest-args` -/
  | start_clo {s s' sc sc' env args c a0 as r} : s.car c = .closure → args ≠ .nil → s.hd (s.cdr c) ≠ .nil → s.gcar args = some a0 → s.gcdr args = some as →
      Ev P full s sc (.sub (.pars env (s.hd (s.tl (s.cdr c))) (s.hd (s.tl (s.tl (s.cdr c)))) (s.hd (s.cdr c)) as) env a0) s' sc' r →
      Ev P full s sc (.k (.start env args) (.cons c)) s' sc' r
  | start_thunk {s s' sc env c r} : s.car c = .closure → s.hd (s.cdr c) = .nil →
      Ev P full s none (.exp (s.hd (s.tl (s.tl (s.cdr c)))) (s.hd (s.tl (s.cdr c)))) s' none r → Ev P full s sc (.k (.start env .nil) (.cons c)) s' sc r
  | start_rest {s s1 s' sc sc' env args c a0 as rb r} : s.car c = .closure → args ≠ .nil → s.hd (s.cdr c) = .nil → s.gcar args = some a0 → s.gcdr args = some as →
      allocBinding s .restArgs .nil (s.hd (s.tl (s.tl (s.cdr c)))) = (s1, rb) →
      Ev P full s1 sc (.sub (.rest env (s.hd (s.tl (s.cdr c))) rb (s1.hd rb) as) env a0) s' sc' r →
      Ev P full s sc (.k (.start env args) (.cons c)) s' sc' r
  | start_few {s sc env c} : full = true → s.car c = .closure → s.hd (s.cdr c) ≠ .nil → Ev P full s sc (.k (.start env .nil) (.cons c)) s sc (.err .eerror)
  | pars_more {s s1 s' sc sc' aenv body cenv params args v p ps env a as r} : s.gcar params = some p → s.gcdr params = some ps →
      allocBinding s p v cenv = (s1, env) → args ≠ .nil → ps ≠ .nil → s1.gcar args = some a → s1.gcdr args = some as →
      Ev P full s1 sc (.sub (.pars aenv body env ps as) aenv a) s' sc' r → Ev P full s sc (.k (.pars aenv body cenv params args) v) s' sc' r
  | pars_last {s s1 s' sc aenv body cenv params v p env r} : s.gcar params = some p → s.gcdr params = some .nil → allocBinding s p v cenv = (s1, env) →
      Ev P full s1 none (.exp env body) s' none r → Ev P full s sc (.k (.pars aenv body cenv params .nil) v) s' sc r
  | pars_rest {s s1 s2 s' sc sc' aenv body cenv params args v p env rb a as r} : s.gcar params = some p → s.gcdr params = some .nil →
      allocBinding s p v cenv = (s1, env) → args ≠ .nil → allocBinding s1 .restArgs .nil env = (s2, rb) → s2.gcar args = some a → s2.gcdr args = some as →
      Ev P full s2 sc (.sub (.rest aenv body rb (s2.hd rb) as) aenv a) s' sc' r → Ev P full s sc (.k (.pars aenv body cenv params args) v) s' sc' r
  | pars_few {s s1 sc aenv body cenv params v p ps env} : s.gcar params = some p → s.gcdr params = some ps → ps ≠ .nil → allocBinding s p v cenv = (s1, env) →
      Ev P full s sc (.k (.pars aenv body cenv params .nil) v) s1 sc (.err .eerror)
  | rest_last {s s1 s' sc aenv body cenv last v b r} : s.cons v .nil = (s1, b) → Ev P full (s1.setCdr last b) none (.exp cenv body) s' none r →
      Ev P full s sc (.k (.rest aenv body cenv last .nil) v) s' sc r
  | rest_more {s s1 s' sc sc' aenv body cenv last args v b a as r} : s.cons v .nil = (s1, b) → args ≠ .nil →
      (s1.setCdr last b).gcar args = some a → (s1.setCdr last b).gcdr args = some as →
      Ev P full (s1.setCdr last b) sc (.sub (.rest aenv body cenv b as) aenv a) s' sc' r → Ev P full s sc (.k (.rest aenv body cenv last args) v) s' sc' r
  /- macros: the body is evaluated with the parameters bound to the argument expressions, then the result is evaluated -/
  | start_macro {s s1 s' sc sc' env args c params d eenv e r} : s.car c = .macroSym → s.gcadr (.cons c) = some params → s.gcdr (.cons c) = some d →
      s.macroEnv (s.next + 1) params args env = some (s1, eenv) → s1.gcadr d = some e → Ev P full s1 sc (.sub (.evalR env) eenv e) s' sc' r →
      Ev P full s sc (.k (.start env args) (.cons c)) s' sc' r
  | evalR {s s' sc sc' env v r} : Ev P full s sc (.exp env v) s' sc' r → Ev P full s sc (.k (.evalR env) v) s' sc' r
  /- built-in functions: arguments are evaluated in order -/
  | args_more {s s' sc sc' env vals a v r} : Ev P full s sc (.sub (.args env (v :: vals) (s.cdr a)) env (s.car a)) s' sc' r →
      Ev P full s sc (.k (.args env vals (.cons a)) v) s' sc' r
  | prim_ok {s s' sc env vals rest v n args w} : rest.isCons = false → (v :: vals).reverse = .sym n :: args → n / 0x10000 = 1 ∨ n / 0x10000 = 2 →
      P.run n args env s = .ok s' w → Ev P full s sc (.k (.args env vals rest) v) s' sc (.ok w)
  | prim_err {s s' sc env vals rest v n args x} : rest.isCons = false → (v :: vals).reverse = .sym n :: args → n / 0x10000 = 1 ∨ n / 0x10000 = 2 →
      P.run n args env s = .err s' x → Ev P full s sc (.k (.args env vals rest) v) s' sc (.err x)
  | setvar_ok {s s' sc env vals rest v n w} : rest.isCons = false → (v :: vals).reverse = [.sym 0x30000, .sym n, w] → runtimeStart ≤ n →
      s.setvar n w env = some (s', true) → Ev P full s sc (.k (.args env vals rest) v) s' sc (.ok w)
  | setvar_err {s s' sc env vals rest v n w} : rest.isCons = false → (v :: vals).reverse = [.sym 0x30000, .sym n, w] → runtimeStart ≤ n →
      s.setvar n w env = some (s', false) → Ev P full s sc (.k (.args env vals rest) v) s' sc (.err .notFound)
  | eval1 {s s' sc env vals rest v e r} : rest.isCons = false → (v :: vals).reverse = [.sym 0x30008, e] → Ev P full s none (.exp env e) s' none r →
      Ev P full s sc (.k (.args env vals rest) v) s' sc r
  | eval2 {s s' sc env vals rest v env1 e r} : rest.isCons = false → (v :: vals).reverse = [.sym 0x30008, env1, e] → Ev P full s none (.exp env1 e) s' none r →
      Ev P full s sc (.k (.args env vals rest) v) s' sc r
  | exitError {s sc env vals rest v args} : rest.isCons = false → (v :: vals).reverse = .sym 0x3000C :: args →
      Ev P full s sc (.k (.args env vals rest) v) s sc (.err (args.headD .eerror))
  | restArgs {s sc env vals rest v w} : rest.isCons = false → (v :: vals).reverse = [.sym 0x30015] → s.lookup .restArgs (s.next + 1) env = some (some w) →
      Ev P full s sc (.k (.args env vals rest) v) s sc (.ok w)
  | restArgs_none {s sc env vals rest v} : rest.isCons = false → (v :: vals).reverse = [.sym 0x30015] → s.lookup .restArgs (s.next + 1) env = some none →
      Ev P full s sc (.k (.args env vals rest) v) s sc (.ok .nil)
  /- (map f l): the function is called for each element in turn; the results are collected in a new list -/
  | map_nil {s sc env vals rest v f} : rest.isCons = false → (v :: vals).reverse = [.sym 0x3000D, f, .nil] →
      Ev P full s sc (.k (.args env vals rest) v) s sc (.ok .nil)
  | map {s s1 s2 s' sc sc' env vals rest v f a arg call elt r} : rest.isCons = false → (v :: vals).reverse = [.sym 0x3000D, f, .cons a] →
      s.callOf f (s.car a) = (s1, arg, call) → s1.cons (.cons a) .nil = (s2, elt) →
      Ev P full s2 sc (.sub (.map env arg call elt elt (s.cdr a)) env call) s' sc' r → Ev P full s sc (.k (.args env vals rest) v) s' sc' r
  | map_more {s s1 s2 s3 s' sc sc' env arg call last res a v elt r} : s.setCar last v = s1 → s1.setCar arg (s1.car a) = s2 → s2.cons .nil .nil = (s3, elt) →
      Ev P full (s3.setCdr last elt) sc (.sub (.map env arg call elt res (s1.cdr a)) env call) s' sc' r →
      Ev P full s sc (.k (.map env arg call last res (.cons a)) v) s' sc' r
  | map_last {s sc env arg call last res ls v} : ls.isCons = false → Ev P full s sc (.k (.map env arg call last res ls) v) (s.setCar last v) sc (.ok res)
  | map_bad {s sc env vals rest v args} : rest.isCons = false → (v :: vals).reverse = .sym 0x3000D :: args →
      (∀ f l, args = [f, l] → l.isCons = false ∧ l ≠ .nil) → Ev P full s sc (.k (.args env vals rest) v) s sc (.err .eerror)
  | notFun {s sc env vals rest v n args} : rest.isCons = false → (v :: vals).reverse = .sym n :: args → n / 0x10000 = 0 ∨ 4 ≤ n / 0x10000 →
      Ev P full s sc (.k (.args env vals rest) v) s sc (.err .eerror)

end Verif.Eval
