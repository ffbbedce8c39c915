import Verif.Eval.Sized

/-!
# Programs for the examples

S-expressions that are loaded into a store, and a small set of operations. Nothing here is a model of the code.
-/

namespace Verif.Eval

/-- S-expressions. -/
inductive Sx where
  | a (v : V)
  | c (x y : Sx)

namespace Sx
/-- A list. -/
def l : List Sx → Sx
  | [] => .a .nil
  | x :: xs => .c x (l xs)
/-- A number. -/
def n (k : Nat) : Sx := .a (.atom k)
/-- A variable. -/
def v (k : Nat) : Sx := .a (.sym (runtimeStart + k))
/-- A symbol. -/
def s (k : Nat) : Sx := .a (.sym k)
end Sx

/-- The empty store. -/
def st0 : St := { car := fun _ => .nil, cdr := fun _ => .nil, next := 0, globals := fun _ => .nil, atomic := false, konts := fun _ => [], nk := 0 }

/-- Load an expression. -/
def load : Sx → St → St × V
  | .a v, s => (s, v)
  | .c x y, s =>
    let (s1, a) := load x s
    let (s2, b) := load y s1
    s2.cons a b

/-- `+` on numbers; all else is an error. -/
def P0 : Prims where
  run n args _ s :=
    match n, args with
    | 0x20000, [.atom a, .atom b] => .ok s (.atom (a + b))
    | _, _ => .err s .terror
  eq _ a b := decide (a = b)

/-- The machine at the start of an expression, in a context of its own. -/
def boot (fl : Nat) (x : Sx) : Out :=
  let (s, e) := load x st0
  .next ⟨[.k 0], .nil, e, .nil, false, fl, .nil, s⟩

/-- How a context ended. -/
def Out.result : Out → Option (V × Bool)
  | .fin _ v ok => some (v, ok)
  | _ => none

/-- The flag for atomic blocks at the end. -/
def Out.atomicAtEnd : Out → Option Bool
  | .fin s _ _ => some s.atomic
  | _ => none

/-- Undefined behaviour. -/
def Out.isUb : Out → Bool
  | .ub => true
  | _ => false

/-- The elements of a list of two at the end. -/
def Out.pairResult : Out → Option (V × V)
  | .fin s (.cons a) true =>
    match s.cdr a with
    | .cons b => if s.cdr b = .nil then some (s.car a, s.car b) else none
    | _ => none
  | _ => none

section Programs
open Sx

/-- `(let ((x 1)) (match (let ((x 2)) 5) ((? y) nil 0) (_ x)))` -/
def demoGuard : Sx :=
  l [s 0x105, l [l [v 0, n 1]], l [s 0x108, l [s 0x105, l [l [v 0, n 2]], n 5], l [l [s 0x41, v 1], s 0, n 0], l [s 9, v 0]]]

/-- `(trap undefined)` -/
def demoTrap : Sx := l [s 0x116, v 7]

/-- `(progn (call-cc (lambda (k) (trap (k 1)))) undefined)` -/
def demoEscape : Sx := l [s 0x102, l [s 0x10B, l [s 0x103, l [v 3], l [s 0x116, l [v 3, n 1]]]], v 7]

/-- `(trap (define 1 2))` -/
def demoDefine : Sx := l [s 0x116, l [s 0x101, n 1, n 2]]

/-- `(trap ((lambda (x) x)))` -/
def demoArity : Sx := l [s 0x116, l [l [s 0x103, l [v 0], v 0]]]

/-- `(trap (atomic (exit-error 1)))` -/
def demoAtomic : Sx := l [s 0x116, l [s 0x10C, l [s 0x3000C, n 1]]]

/-- `(let ((y nil) (r 0)) (progn (loop ((x 1)) (if y (progn (setq r x) nil) t) (let ((x 2)) (setq y t))) r))` -/
def demoLoop : Sx :=
  l [s 0x105, l [l [v 1, s 0], l [v 2, n 0]], l [s 0x102, l [s 0x115, l [l [v 0, n 1]],
    l [s 0x104, v 1, l [s 0x102, l [s 0x113, v 2, v 0], s 0], s 2],
    l [s 0x105, l [l [v 0, n 2]], l [s 0x113, v 1, s 2]]], v 2]]

/-- `(progn (let ((x 1)) (var a x)) a)` -/
def demoVar : Sx := l [s 0x102, l [s 0x105, l [l [v 0, n 1]], l [s 0x112, v 1, v 0]], v 1]

/-- `(progn (define f (lambda () (var y 2))) (progn (f) y))`: a local variable made by a function is visible in its caller -/
def demoLeak : Sx := l [s 0x102, l [s 0x101, v 2, l [s 0x103, s 0, l [s 0x112, v 1, n 2]]], l [s 0x102, l [v 2], v 1]]

/-- `(call-cc (lambda (k) (let ((x 1)) ((let ((x 2)) k) x))))` -/
def demoContArg : Sx := l [s 0x10B, l [s 0x103, l [v 3], l [s 0x105, l [l [v 0, n 1]], l [l [s 0x105, l [l [v 0, n 2]], v 3], v 0]]]]

/-- `(+ 1 (call-cc (lambda (k) (+ 10 (k 5)))))` -/
def demoCont : Sx := l [s 0x20000, n 1, l [s 0x10B, l [s 0x103, l [v 3], l [s 0x20000, n 10, l [v 3, n 5]]]]]

/-- `((lambda (x) (if x (+ x 1) 7)) 5)` -/
def demoCall : Sx := l [l [s 0x103, l [v 0], l [s 0x104, v 0, l [s 0x20000, v 0, n 1], n 7]], n 5]

/-- `(map (lambda (x) (+ x 1)) '(3 4))` -/
def demoMap : Sx := l [s 0x3000D, l [s 0x103, l [v 0], l [s 0x20000, v 0, n 1]], l [s 0x100, l [n 3, n 4]]]

end Programs

/-- The full semantics as a function, for the forms used in the examples. -/
def run (P : Prims) (full : Bool) : Nat → St → Scope → Task → Option (St × Scope × V)
  | 0, _, _, _ => none
  | f + 1, s, sc, t =>
    match t with
    | .exp env e =>
      match e with
      | .sym n =>
        if runtimeStart ≤ n then
          match s.lookup (.sym n) (s.next + 1) env with
          | some (some v) => some (s, sc, v)
          | some none =>
            match s.glookup n with
            | some (some v) => some (s, sc, v)
            | _ => none
          | _ => none
        else some (s, sc, .sym n)
      | .cons a =>
        match s.car a with
        | .sym 0x100 => (s.gcadr e).bind fun v => some (s, sc, v)
        | .sym 0x101 =>
          match s.hd (s.tl e) with
          | .sym n => if runtimeStart ≤ n ∧ s.tl (s.tl (s.tl e)) = .nil then run P full f s sc (.sub (.define n) env (s.hd (s.tl (s.tl e)))) else none
          | _ => none
        | .sym 0x102 => (s.gcdr e).bind fun d => run P full f s sc (.body env d)
        | .sym 0x103 => some ((allocClosure s (s.hd (s.tl e)) (s.hd (s.tl (s.tl e))) env).1, sc, (allocClosure s (s.hd (s.tl e)) (s.hd (s.tl (s.tl e))) env).2)
        | .sym 0x104 => (s.gcdr e).bind fun d => (s.gcdr d).bind fun br => (s.gcar d).bind fun c => run P full f s sc (.sub (.ite env br) env c)
        | .sym 0x105 => run P full f s sc (.letb env (s.hd (s.tl e)) (s.hd (s.tl (s.tl e))))
        | .sym 0x108 =>
          match s.gcdr e with
          | some (.cons b) => run P full f s sc (.sub (.cases env (s.cdr b)) env (s.car b))
          | _ => none
        | .sym 0x10F => some (s, sc, e)
        | .sym 0x113 => run P full f s sc (.sub (.setq env (s.hd (s.tl e))) env (s.hd (s.tl (s.tl e))))
        | .sym 0x115 => if full = false then none else (s.gcdr e).bind fun parts =>
          match letLocs s (s.next + 1) (s.hd parts) env with
          | some (some (_, env1)) =>
            match run P full f s none (.letb env (s.hd parts) (s.hd (s.tl parts))) with
            | some (s1, none, c) => run P full f s1 sc (.loop env1 (s.hd (s.tl parts)) (s.hd (s.tl (s.tl parts))) c)
            | _ => none
          | _ => none
        | h => if special h = none then run P full f s sc (.sub (.start env (s.cdr a)) env h) else none
      | v => some (s, sc, v)
    | .body env exps =>
      match exps with
      | .sym 0 => some (s, sc, .nil)
      | .cons a =>
        if (s.cdr a).isCons then
          match run P full f s (some (env, 0)) (.exp env (s.car a)) with
          | some (s1, some (env1, c), v) => run P full f s1 sc (.k (.more env1 c (s.cdr a)) v)
          | _ => none
        else
          match run P full f s none (.exp env (s.car a)) with
          | some (s1, none, v) => some (s1, sc, v)
          | _ => none
      | _ => none
    | .letb env binds body =>
      match binds with
      | .cons a =>
        match letLocs s (s.next + 1) (.cons a) env with
        | some (some (s1, env1)) => run P full f s1 sc (.sub (.bind body (s1.cdr a) env1 (s1.hd (s1.car a))) env1 (s1.hd (s1.tl (s1.car a))))
        | _ => none
      | _ => none
    | .sub fr env e =>
      match run P full f s none (.exp env e) with
      | some (s1, none, v) => run P full f s1 sc (.k fr v)
      | _ => none
    | .loop env cond body c =>
      if full = false then none
      else if c = .nil then some (s, sc, .nil)
      else
        match run P full f s none (.exp env body) with
        | some (s1, none, _) =>
          match run P full f s1 none (.exp env cond) with
          | some (s2, none, c1) => run P full f s2 sc (.loop env cond body c1)
          | _ => none
        | _ => none
    | .k (.define n) v => (s.define n v).bind fun s' => some (s', sc, v)
    | .k (.ite env br) v =>
      if v = .nil then (s.gcadr br).bind fun e => run P full f s sc (.exp env e)
      else (s.gcar br).bind fun e => run P full f s sc (.exp env e)
    | .k (.more env c rest) _ =>
      match rest with
      | .cons a =>
        if (s.cdr a).isCons then
          match run P full f s (some (env, c)) (.exp env (s.car a)) with
          | some (s1, some (env1, c1), w) => run P full f s1 sc (.k (.more env1 c1 (s.cdr a)) w)
          | _ => none
        else
          match run P full f s none (.exp env (s.car a)) with
          | some (s1, none, w) => some (s1, sc, w)
          | _ => none
      | _ => none
    | .k (.bind body rest env key) v =>
      match s.fillLoc (s.next + 1) key v env with
      | some (s1, true) =>
        match rest with
        | .cons a => run P full f s1 sc (.sub (.bind body (s1.cdr a) env (s1.hd (s1.car a))) env (s1.hd (s1.tl (s1.car a))))
        | _ =>
          match run P full f s1 none (.exp env body) with
          | some (s2, none, w) => some (s2, sc, w)
          | _ => none
      | _ => none
    | .k (.setq env (.sym n)) v =>
      if runtimeStart ≤ n then
        match s.setvar n v env with
        | some (s1, true) => some (s1, sc, v)
        | _ => none
      else none
    | .k (.cases env pats) v =>
      match pats with
      | .cons a =>
        match s.gcar (s.car a), s.gcadr (s.car a), (s.gcdr (s.car a)).bind s.gcadr with
        | some p, some n1, some n2 =>
          match s.matchP P.eq (s.next + 1) p v env with
          | some (false, s1, _) => run P full f s1 sc (.k (.cases env (s1.cdr a)) v)
          | some (true, s1, env1) =>
            match run P full f s1 none (.exp env1 n1) with
            | some (s2, none, g) =>
              if n2 = .nil then some (s2, sc, g)
              else if g = .nil then if full = false then none else run P full f s2 sc (.k (.cases env (s1.cdr a)) v)
              else
                match run P full f s2 none (.exp env1 n2) with
                | some (s3, none, w) => some (s3, sc, w)
                | _ => none
            | _ => none
          | none => none
        | _, _, _ => none
      | _ => none
    | .k (.start env args) fv =>
      match fv with
      | .sym n => run P full f s sc (.k (.args env [] args) (.sym n))
      | .cons c =>
        if s.car c = .closure ∧ args ≠ .nil ∧ s.hd (s.cdr c) ≠ .nil then
          (s.gcar args).bind fun a0 => (s.gcdr args).bind fun as =>
            run P full f s sc (.sub (.pars env (s.hd (s.tl (s.cdr c))) (s.hd (s.tl (s.tl (s.cdr c)))) (s.hd (s.cdr c)) as) env a0)
        else none
      | _ => none
    | .k (.pars _ body cenv params args) v =>
      if args = .nil ∧ s.gcdr params = some .nil then
        (s.gcar params).bind fun p =>
          match run P full f (allocBinding s p v cenv).1 none (.exp (allocBinding s p v cenv).2 body) with
          | some (s2, none, w) => some (s2, sc, w)
          | _ => none
      else none
    | .k (.args env vals rest) v =>
      match rest with
      | .cons a => run P full f s sc (.sub (.args env (v :: vals) (s.cdr a)) env (s.car a))
      | _ =>
        match (v :: vals).reverse with
        | .sym n :: args =>
          if n / 0x10000 = 1 ∨ n / 0x10000 = 2 then
            match P.run n args env s with
            | .ok s1 w => some (s1, sc, w)
            | _ => none
          else if n = 0x3000D then
            match args with
            | [g, .cons a] =>
              run P full f ((s.callOf g (s.car a)).1.cons (.cons a) .nil).1 sc (.sub (.map env (s.callOf g (s.car a)).2.1 (s.callOf g (s.car a)).2.2
                ((s.callOf g (s.car a)).1.cons (.cons a) .nil).2 ((s.callOf g (s.car a)).1.cons (.cons a) .nil).2 (s.cdr a)) env (s.callOf g (s.car a)).2.2)
            | _ => none
          else none
        | _ => none
    | .k (.map env arg call last res ls) v =>
      match ls with
      | .cons a =>
        run P full f ((((s.setCar last v).setCar arg ((s.setCar last v).car a)).cons .nil .nil).1.setCdr last
            (((s.setCar last v).setCar arg ((s.setCar last v).car a)).cons .nil .nil).2) sc
          (.sub (.map env arg call (((s.setCar last v).setCar arg ((s.setCar last v).car a)).cons .nil .nil).2 res ((s.setCar last v).cdr a)) env call)
      | _ => some (s.setCar last v, sc, res)
    | _ => none

theorem run_sound (P : Prims) (full : Bool) : ∀ (f : Nat) (s : St) (sc : Scope) (t : Task) (s' : St) (sc' : Scope) (v : V),
    run P full f s sc t = some (s', sc', v) → Ev P full s sc t s' sc' (.ok v)
  | 0, _, _, _, _, _, _, h => by cases h
  | f + 1, s, sc, t, s', sc', v, h => by
    have ih := run_sound P full f
    cases t with
    | exp env e =>
      cases e with
      | sym n =>
        simp only [run] at h
        split at h
        · rename_i hn
          split at h
          · rename_i h1; cases h; exact .loc hn h1
          · rename_i h1
            split at h
            · rename_i h2; cases h; exact .glob hn h1 h2
            · cases h
          · cases h
        · rename_i hn; cases h; exact .name (by omega)
      | cons a =>
        simp only [run] at h
        split at h
        · rename_i ha
          obtain ⟨v1, h1, h2⟩ := Option.bind_eq_some_iff.1 h
          cases h2; exact .quote ⟨a, rfl, ha⟩ h1
        · rename_i ha
          split at h
          · rename_i n hn
            split at h
            · rename_i hc; exact .define ⟨a, rfl, ha⟩ hn hc.1 hc.2 (ih _ _ _ _ _ _ h)
            · cases h
          · cases h
        · rename_i ha
          obtain ⟨d, h1, h2⟩ := Option.bind_eq_some_iff.1 h
          exact .progn ⟨a, rfl, ha⟩ h1 (ih _ _ _ _ _ _ h2)
        · rename_i ha; cases h; exact .lambda ⟨a, rfl, ha⟩ rfl
        · rename_i ha
          obtain ⟨d, h1, h⟩ := Option.bind_eq_some_iff.1 h
          obtain ⟨br, h2, h⟩ := Option.bind_eq_some_iff.1 h
          obtain ⟨c, h3, h⟩ := Option.bind_eq_some_iff.1 h
          exact .ite ⟨a, rfl, ha⟩ h1 h2 h3 (ih _ _ _ _ _ _ h)
        · rename_i ha; exact .letf ⟨a, rfl, ha⟩ (ih _ _ _ _ _ _ h)
        · rename_i ha
          split at h
          · rename_i h1; exact .mtch ⟨a, rfl, ha⟩ h1 (ih _ _ _ _ _ _ h)
          · cases h
        · rename_i ha; cases h; exact .fnval ⟨a, rfl, ha⟩ (.inr (.inr rfl))
        · rename_i ha; exact .setq ⟨a, rfl, ha⟩ (ih _ _ _ _ _ _ h)
        · rename_i ha
          split at h
          · cases h
          rename_i hf
          have hf : full = true := by simpa using hf
          obtain ⟨parts, h1, h⟩ := Option.bind_eq_some_iff.1 h
          split at h
          · rename_i h2
            split at h
            · rename_i h3; exact .loop hf ⟨a, rfl, ha⟩ h1 h2 (ih _ _ _ _ _ _ h3) (ih _ _ _ _ _ _ h)
            · cases h
          · cases h
        · split at h
          · rename_i hs; exact .app hs (ih _ _ _ _ _ _ h)
          · cases h
      | u n => cases h; exact .self rfl rfl
      | atom n => cases h; exact .self rfl rfl
      | arr n => cases h; exact .self rfl rfl
    | body env exps =>
      simp only [run] at h
      split at h
      · cases h; exact .body_nil
      · split at h
        · rename_i hc
          split at h
          · rename_i h1; exact .body_more hc (ih _ _ _ _ _ _ h1) (ih _ _ _ _ _ _ h)
          · cases h
        · rename_i hc
          split at h
          · rename_i h1; cases h; exact .body_last (by simpa using hc) (ih _ _ _ _ _ _ h1)
          · cases h
      · cases h
    | letb env binds body =>
      simp only [run] at h
      split at h
      · split at h
        · rename_i h1; exact .letb h1 (ih _ _ _ _ _ _ h)
        · cases h
      · cases h
    | sub fr env e =>
      simp only [run] at h
      split at h
      · rename_i h1; exact .sub_ok (ih _ _ _ _ _ _ h1) (ih _ _ _ _ _ _ h)
      · cases h
    | loop env cond body c =>
      simp only [run] at h
      split at h
      · cases h
      rename_i hf
      have hf : full = true := by simpa using hf
      split at h
      · rename_i hc; cases h; subst hc; exact .loop_end hf
      · rename_i hc
        split at h
        · rename_i h1
          split at h
          · rename_i h2; exact .loop_again hf hc (ih _ _ _ _ _ _ h1) (ih _ _ _ _ _ _ h2) (ih _ _ _ _ _ _ h)
          · cases h
        · cases h
    | k fr w =>
      cases fr with
      | define n =>
        obtain ⟨s1, h1, h⟩ := Option.bind_eq_some_iff.1 h
        cases h; exact .define_k h1
      | ite env br =>
        simp only [run] at h
        split at h
        · rename_i hw; subst hw
          obtain ⟨e, h1, h⟩ := Option.bind_eq_some_iff.1 h
          exact .ite_false h1 (ih _ _ _ _ _ _ h)
        · rename_i hw
          obtain ⟨e, h1, h⟩ := Option.bind_eq_some_iff.1 h
          exact .ite_true hw h1 (ih _ _ _ _ _ _ h)
      | more env c rest =>
        simp only [run] at h
        split at h
        · split at h
          · rename_i hc
            split at h
            · rename_i h1; exact .more hc (ih _ _ _ _ _ _ h1) (ih _ _ _ _ _ _ h)
            · cases h
          · rename_i hc
            split at h
            · rename_i h1; cases h; exact .more_last (by simpa using hc) (ih _ _ _ _ _ _ h1)
            · cases h
        · cases h
      | bind body rest env key =>
        simp only [run] at h
        split at h
        · rename_i h1
          split at h
          · exact .bind_more h1 (ih _ _ _ _ _ _ h)
          · rename_i hr
            split at h
            · rename_i h2
              cases h
              exact .bind_last (by cases rest <;> first | rfl | exact absurd rfl (hr _)) h1 (ih _ _ _ _ _ _ h2)
            · cases h
        · cases h
      | setq env key =>
        cases key with
        | sym n =>
          simp only [run] at h
          split at h
          · rename_i hn
            split at h
            · rename_i h1; cases h; exact .setq_k hn h1
            · cases h
          · cases h
        | _ => cases h
      | cases env pats =>
        simp only [run] at h
        split at h
        · split at h
          · rename_i h1 h2 h3
            split at h
            · rename_i h4; exact .cases_no h1 h2 h3 h4 (ih _ _ _ _ _ _ h)
            · rename_i h4
              split at h
              · rename_i h5
                split at h
                · rename_i hn; cases h; subst hn; exact .cases_yes h1 h2 h3 h4 (ih _ _ _ _ _ _ h5)
                · rename_i hn
                  split at h
                  · rename_i hg; subst hg
                    split at h
                    · cases h
                    rename_i hf
                    exact .guard_no (by simpa using hf) h1 h2 h3 hn h4 (ih _ _ _ _ _ _ h5) (ih _ _ _ _ _ _ h)
                  · rename_i hg
                    split at h
                    · rename_i h6; cases h; exact .guard_yes h1 h2 h3 hn h4 (ih _ _ _ _ _ _ h5) hg (ih _ _ _ _ _ _ h6)
                    · cases h
              · cases h
            · cases h
          · cases h
        · cases h
      | start env args =>
        cases w with
        | sym n => exact .start_sym (ih _ _ _ _ _ _ h)
        | cons c =>
          simp only [run] at h
          split at h
          · rename_i hc
            obtain ⟨a0, h1, h⟩ := Option.bind_eq_some_iff.1 h
            obtain ⟨as, h2, h⟩ := Option.bind_eq_some_iff.1 h
            exact .start_clo hc.1 hc.2.1 hc.2.2 h1 h2 (ih _ _ _ _ _ _ h)
          · cases h
        | _ => cases h
      | pars aenv body cenv params args =>
        simp only [run] at h
        split at h
        · rename_i hc
          obtain ⟨rfl, hp⟩ := hc
          obtain ⟨p, h1, h⟩ := Option.bind_eq_some_iff.1 h
          split at h
          · rename_i h2; cases h; exact .pars_last h1 hp rfl (ih _ _ _ _ _ _ h2)
          · cases h
        · cases h
      | args env vals rest =>
        simp only [run] at h
        split at h
        · exact .args_more (ih _ _ _ _ _ _ h)
        · rename_i hr
          split at h
          · rename_i h1
            split at h
            · rename_i hn
              split at h
              · rename_i h2; cases h
                exact .prim_ok (by cases rest <;> first | rfl | exact absurd rfl (hr _)) h1 hn h2
              · cases h
            · split at h
              · rename_i hn; subst hn
                split at h
                · exact .map (by cases rest <;> first | rfl | exact absurd rfl (hr _)) h1 rfl rfl (ih _ _ _ _ _ _ h)
                · cases h
              · cases h
          · cases h
      | map env arg call last res ls =>
        simp only [run] at h
        split at h
        · exact .map_more rfl rfl rfl (ih _ _ _ _ _ _ h)
        · rename_i hr; cases h
          exact .map_last (by cases ls <;> first | rfl | exact absurd rfl (hr _))
      | and env rest => cases h
      | or env rest => cases h
      | evalR env => cases h
      | rest _ _ _ _ _ => cases h
      | var _ _ => cases h

/-- The value of an example in the semantics. -/
def value (full : Bool) (x : Sx) : Option V := (run P0 full 60 (load x st0).1 none (.exp .nil (load x st0).2)).map (·.2.2)

/-- The example has the value `v`. -/
def HasValue (full : Bool) (x : Sx) (v : V) : Prop :=
  ∃ s' sc', Ev P0 full (load x st0).1 none (.exp .nil (load x st0).2) s' sc' (.ok v)

theorem hasValue {full : Bool} {x : Sx} {v : V} (h : value full x = some v) : HasValue full x v := by
  unfold value at h
  cases hr : run P0 full 60 (load x st0).1 none (.exp .nil (load x st0).2) with
  | none => rw [hr] at h; cases h
  | some p =>
    rw [hr] at h
    cases h
    exact ⟨p.1, p.2.1, run_sound _ _ _ _ _ _ _ _ _ hr⟩

end Verif.Eval
