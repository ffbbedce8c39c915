import Verif.Eval.Match
import Verif.Eval.StoreProps
import Mathlib.Data.Nat.Find

/-!
# Properties of the evaluator

`Verif.Eval.Spec` has the semantics of the language (`Ev`), `Verif.Eval.Tail` what is in tail position (`Tl`, `Tails`), `Verif.Eval.Match`
what a pattern matches (`Pat`).
-/

namespace Verif.Eval

theorem Ev.scope {P : Prims} {full : Bool} {s s' : St} {sc sc' : Scope} {t : Task} {r : Res} (h : Ev P full s sc t s' sc' r) : sc.isSome = sc'.isSome := by
  induction h <;> simp_all

theorem Ev.none_scope {P : Prims} {full : Bool} {s s' : St} {sc' : Scope} {t : Task} {r : Res} (h : Ev P full s none t s' sc' r) : sc' = none := by
  have := h.scope
  cases sc' <;> simp_all

/-! ## C39: the stack machine implements the semantics -/

/-- If the semantics gives an expression a value, then the machine, started on the expression with any stack, comes to the point where it
hands this value to that same stack. Partial: for `Ev P false`, which lacks failing guards in `match`, `loop`, `call-cc`,
errors that leave an atomic block, malformed forms, and calls of a closure with parameters without any argument; the context does not have the flag of `spawn-trap`. -/
theorem C39_value_partial {P : Prims} {s s' : St} {env e v : V} (h : Ev P false s none (.exp env e) s' none (.ok v))
    (K : List W) (r : V) (fl : Nat) (prog : V) (ht : flagTrap fl = false) (hc : flagConst fl = false) :
    ∃ n x env', steps none P n (.next ⟨K, r, e, env, false, fl, prog, s⟩) = .next ⟨K, v, x, env', true, fl, prog, s'⟩ :=
  sim h fl prog ht hc .junk K _ ⟨r, rfl⟩

/-- The same for a machine whose stack has a size, if that is large enough. -/
theorem C39_sized_partial {P : Prims} {s s' : St} {env e v : V} (h : Ev P false s none (.exp env e) s' none (.ok v))
    (K : List W) (r : V) (fl : Nat) (prog : V) (ht : flagTrap fl = false) (hc : flagConst fl = false) :
    ∃ z0, ∀ z, z0 ≤ z → ∃ n x env',
      steps (some z) P n (.next ⟨K, r, e, env, false, fl, prog, s⟩) = .next ⟨K, v, x, env', true, fl, prog, s'⟩ := by
  obtain ⟨n, x, env', hn⟩ := C39_value_partial h K r fl prog ht hc
  have hz : ∀ n, ∃ z0, ∀ z, z0 ≤ z → Fits P z n (.next ⟨K, r, e, env, false, fl, prog, s⟩) := by
    intro n
    induction n with
    | zero =>
      refine ⟨K.length + 16, fun z hz i hi m hm => ?_⟩
      obtain rfl : i = 0 := by omega
      cases hm
      exact hz
    | succ n ih =>
      obtain ⟨z0, h0⟩ := ih
      cases hs : steps none P (n + 1) (.next ⟨K, r, e, env, false, fl, prog, s⟩) with
      | next m' =>
        refine ⟨max z0 (m'.K.length + 16), fun z hz i hi m hm => ?_⟩
        by_cases hin : i = n + 1
        · subst hin
          rw [hs] at hm
          cases hm
          omega
        · exact h0 z (by omega) i (by omega) m hm
      | _ =>
        refine ⟨z0, fun z hz i hi m hm => ?_⟩
        by_cases hin : i = n + 1
        · subst hin
          rw [hs] at hm
          cases hm
        · exact h0 z hz i (by omega) m hm
  obtain ⟨z0, h0⟩ := hz n
  exact ⟨z0, fun z hz => ⟨n, x, env', (steps_sized n _ (h0 z hz)).trans hn⟩⟩

/-- A program is a list of expressions in the store, which are evaluated in order in the empty environment. The value is that of the last. -/
inductive Prog (P : Prims) : St → V → St → Res → Prop
  | last {s a s' v} : s.cdr a = .nil → Ev P false s none (.exp .nil (s.car a)) s' none (.ok v) → Prog P s (.cons a) s' (.ok v)
  | more {s a s1 v s' r} : Ev P false s none (.exp .nil (s.car a)) s1 none (.ok v) → Prog P s1 (s.cdr a) s' r → Prog P s (.cons a) s' r
  | err {s a s' e} : Ev P false s none (.exp .nil (s.car a)) s' none (.err e) → Prog P s (.cons a) s' (.err e)

theorem Prog.is_cons {P : Prims} {s s' : St} {p : V} {r : Res} (h : Prog P s p s' r) : ∃ b, p = .cons b := by
  cases h <;> exact ⟨_, rfl⟩

/-- How a context ends. -/
def Out.ended (s : St) : Res → Out
  | .ok v => .fin s v true
  | .err e => .fin s e false

/-- A context runs its program to the end: it ends with the value of the last expression, or with the first error. -/
theorem C39_program_partial {P : Prims} {s s' : St} {p : V} {res : Res} (h : Prog P s p s' res) (fl : Nat) (ht : flagTrap fl = false)
    (hc : flagConst fl = false) (hu : flagUnroll fl = false) (r env : V) :
    ∀ a, p = .cons a → ∃ n, steps none P n (.next ⟨[.k 0], r, s.car a, .nil, false, fl, s.cdr a, s⟩) = Out.ended s' res := by
  clear env
  induction h generalizing r with
  | @last s a s' v h1 h2 =>
    intro a' ha; cases ha
    obtain ⟨n, x, env', hn⟩ := C39_value_partial h2 [.k 0] r fl (s.cdr a) ht hc
    refine ⟨n + 1, ?_⟩
    rw [steps_add, hn, h1]
    rfl
  | @more s a s1 v s' res h1 h2 ih =>
    intro a' ha; cases ha
    obtain ⟨n, x, env', hn⟩ := C39_value_partial h1 [.k 0] r fl (s.cdr a) ht hc
    obtain ⟨b, hb⟩ := h2.is_cons
    obtain ⟨n2, hn2⟩ := ih v b hb
    refine ⟨n + (1 + n2), ?_⟩
    rw [steps_add, hn, steps_add, ← hn2, hb]
    rfl
  | @err s a s' e h1 =>
    intro a' ha; cases ha
    obtain ⟨n, K', r', x, env, app, hn, _⟩ := sim h1 fl (s.cdr a) ht hc .junk [.k 0] _ ⟨r, rfl⟩
    refine ⟨n, hn.trans ?_⟩
    simp [raise, ht, hu, Out.ended]

theorem steps_fin {P : Prims} (n : Nat) (s : St) (v : V) (b : Bool) : steps none P n (.fin s v b) = .fin s v b := by
  cases n <;> rfl

/-- The semantics gives at most one result. -/
theorem C39_deterministic_partial {P : Prims} {s s1 s2 : St} {env e : V} {v1 v2 : V} (h1 : Ev P false s none (.exp env e) s1 none (.ok v1))
    (h2 : Ev P false s none (.exp env e) s2 none (.ok v2)) : s1 = s2 ∧ v1 = v2 := by
  obtain ⟨n1, x1, e1, hn1⟩ := C39_value_partial h1 [.k 0] .nil 0 .nil rfl rfl
  obtain ⟨n2, x2, e2, hn2⟩ := C39_value_partial h2 [.k 0] .nil 0 .nil rfl rfl
  have f1 : ∀ k, steps none P (n1 + 1 + k) (.next ⟨[.k 0], .nil, e, env, false, 0, .nil, s⟩) = .fin s1 v1 true := by
    intro k
    rw [steps_add, steps_add, hn1]
    exact steps_fin k _ _ _
  have f2 : ∀ k, steps none P (n2 + 1 + k) (.next ⟨[.k 0], .nil, e, env, false, 0, .nil, s⟩) = .fin s2 v2 true := by
    intro k
    rw [steps_add, steps_add, hn2]
    exact steps_fin k _ _ _
  have a := f1 (n2 + 1)
  have b := f2 (n1 + 1)
  rw [show n1 + 1 + (n2 + 1) = n2 + 1 + (n1 + 1) by omega, b] at a
  cases a
  exact ⟨rfl, rfl⟩

/-- `((lambda (x) (if x (+ x 1) 7)) 5)` has the value 6, so the theorems apply to it. -/
example : HasValue false demoCall (.atom 6) := hasValue (by decide +kernel)

/-! ## C40: tail calls -/

theorem tails_reach {P : Prims} {s s' : St} {t t' : Task} (h : Tails P s t s' t') : ∀ fl prog, flagTrap fl = false → flagConst fl = false → ∀ K o,
    Starts P K s fl prog o t → Reach P K s' fl prog o t' := by
  induction h with
  | refl => intro fl prog _ _ K o h; exact Reach.now h
  | step h1 _ ih =>
    intro fl prog ht hc K o h
    obtain ⟨n, o', hn, hs⟩ := tl_reach h1 fl prog ht hc K o h
    exact Reach.of_steps n hn (ih fl prog ht hc K o' hs)

/-- When the machine starts an expression `e'` in tail position of `e`, its stack is exactly the stack it had when it started `e`.
Partial: `Tails` uses the semantics without the features listed at `C39_value_partial`. -/
theorem C40_tail_partial {P : Prims} {s s' : St} {env e env' e' : V} (h : Tails P s (.exp env e) s' (.exp env' e'))
    (K : List W) (r : V) (fl : Nat) (prog : V) (ht : flagTrap fl = false) (hc : flagConst fl = false) :
    ∃ n r', steps none P n (.next ⟨K, r, e, env, false, fl, prog, s⟩) = .next ⟨K, r', e', env', false, fl, prog, s'⟩ := by
  obtain ⟨n, o, hn, r', ho⟩ := tails_reach h fl prog ht hc K _ ⟨r, rfl⟩
  exact ⟨n, r', hn.trans ho⟩

/-- A loop written as a tail call runs in constant stack: let `E 0, E 1, ...` be expressions (with store and environment) each of which is in tail position of the one before, and
suppose that the machine, on its way from one to the next, never needs more than `b` words above the stack `K`. Then a machine whose stack has room for `b + 16` words above `K`
reaches every `E i`, and does not run out of stack however large `i` is. -/
theorem C40_constant_stack_partial {P : Prims} (E : Nat → St × V × V) (K : List W) (fl : Nat) (prog : V) (ht : flagTrap fl = false) (hc : flagConst fl = false) (b : Nat)
    (h : ∀ i, Tails P (E i).1 (.exp (E i).2.1 (E i).2.2) (E (i + 1)).1 (.exp (E (i + 1)).2.1 (E (i + 1)).2.2))
    (hb : ∀ i r n,
      (∀ j, j < n → ∀ r', steps none P j (.next ⟨K, r, (E i).2.2, (E i).2.1, false, fl, prog, (E i).1⟩) ≠
        .next ⟨K, r', (E (i + 1)).2.2, (E (i + 1)).2.1, false, fl, prog, (E (i + 1)).1⟩) →
      ∀ j, j ≤ n → ∀ m, steps none P j (.next ⟨K, r, (E i).2.2, (E i).2.1, false, fl, prog, (E i).1⟩) = .next m → m.K.length ≤ K.length + b)
    (z : Nat) (hz : K.length + b + 16 ≤ z) (i : Nat) (r : V) :
    ∃ n r', steps (some z) P n (.next ⟨K, r, (E 0).2.2, (E 0).2.1, false, fl, prog, (E 0).1⟩) =
      .next ⟨K, r', (E i).2.2, (E i).2.1, false, fl, prog, (E i).1⟩ := by
  induction i with
  | zero => exact ⟨0, r, rfl⟩
  | succ i ih =>
    obtain ⟨n, r', hn⟩ := ih
    have hex := C40_tail_partial (h i) K r' fl prog ht hc
    classical
    obtain ⟨r2, hn2⟩ := Nat.find_spec hex
    have hf := hb i r' (Nat.find hex) (fun j hj r'' he => Nat.find_min hex hj ⟨r'', he⟩)
    refine ⟨n + Nat.find hex, r2, ?_⟩
    rw [steps_add, hn]
    rw [steps_sized _ _ (fun j hj m hm => by have := hf j hj m hm; omega)]
    exact hn2

/-- The store for `(define f (lambda (x) (f x)))`: the closure is at 4, its body at 6, the list of parameters at 5. -/
def spin0 : St where
  car i := match i with
    | 0 => .cons 1 | 1 => .sym 0x40000 | 2 => .cons 5 | 3 => .cons 6 | 4 => .closure | 5 => .sym 0x40001 | 6 => .sym 0x40000 | 7 => .sym 0x40001 | _ => .nil
  cdr i := match i with
    | 0 => .nil | 1 => .cons 4 | 2 => .cons 3 | 3 => .cons 8 | 4 => .cons 2 | 5 => .nil | 6 => .cons 7 | 7 => .nil | 8 => .nil | _ => .nil
  next := 9
  globals i := if i = 0 then .cons 0 else .nil
  atomic := false
  konts _ := []
  nk := 0

/-- The store after `i` calls of `f`. -/
def spin : Nat → St
  | 0 => (allocBinding spin0 (.sym 0x40001) (.atom 1) .nil).1
  | i + 1 => (allocBinding (spin i) (.sym 0x40001) (.atom 1) .nil).1

theorem spin_next (i : Nat) : (spin i).next = 11 + 2 * i := by
  induction i with
  | zero => rfl
  | succ i ih => simp only [spin, allocBinding, St.cons, ih]; omega

theorem spin_old (i : Nat) : (∀ a, a < 9 → (spin i).car a = spin0.car a ∧ (spin i).cdr a = spin0.cdr a) ∧ (spin i).globals = spin0.globals := by
  induction i with
  | zero =>
    refine ⟨fun a ha => ?_, rfl⟩
    have h1 : a ≠ 9 := by omega
    have h2 : a ≠ 10 := by omega
    simp [spin, allocBinding, St.cons, show spin0.next = 9 from rfl, h1, h2]
  | succ i ih =>
    refine ⟨fun a ha => ?_, ih.2⟩
    have := ih.1 a ha
    have h1 : a ≠ 11 + 2 * i := by omega
    have h2 : a ≠ 11 + 2 * i + 1 := by omega
    simp [spin, allocBinding, St.cons, spin_next, h1, h2, this]

theorem spin_env (i : Nat) : (spin i).car (10 + 2 * i) = .cons (9 + 2 * i) ∧ (spin i).cdr (10 + 2 * i) = .nil ∧
    (spin i).car (9 + 2 * i) = .sym 0x40001 ∧ (spin i).cdr (9 + 2 * i) = .atom 1 := by
  cases i with
  | zero => exact ⟨rfl, rfl, rfl, rfl⟩
  | succ i =>
    simp only [spin, allocBinding, St.cons, spin_next]
    have h1 : 10 + 2 * (i + 1) = 11 + 2 * i + 1 := by omega
    have h2 : 9 + 2 * (i + 1) = 11 + 2 * i := by omega
    simp [h1, h2]

/-- The calls `(f x)`, `(f x)`, ... of the loop. -/
def spinE (i : Nat) : St × V × V := (spin i, .cons (10 + 2 * i), .cons 6)

theorem spin_facts (i : Nat) : (spin i).car 6 = .sym 0x40000 ∧ (spin i).cdr 6 = .cons 7 ∧ (spin i).car 7 = .sym 0x40001 ∧ (spin i).cdr 7 = .nil ∧
    (spin i).car 4 = .closure ∧ (spin i).cdr 4 = .cons 2 ∧ (spin i).car 2 = .cons 5 ∧ (spin i).cdr 2 = .cons 3 ∧ (spin i).car 3 = .cons 6 ∧
    (spin i).cdr 3 = .cons 8 ∧ (spin i).car 8 = .nil ∧ (spin i).car 5 = .sym 0x40001 ∧ (spin i).cdr 5 = .nil ∧
    (spin i).lookup (.sym 0x40000) ((spin i).next + 1) (.cons (10 + 2 * i)) = some none ∧
    (spin i).lookup (.sym 0x40001) ((spin i).next + 1) (.cons (10 + 2 * i)) = some (some (.atom 1)) ∧
    (spin i).glookup 0x40000 = some (some (.cons 4)) := by
  obtain ⟨h1, h2⟩ := spin_old i
  obtain ⟨e1, e2, e3, e4⟩ := spin_env i
  have c : ∀ a, a < 9 → (spin i).car a = spin0.car a := fun a ha => (h1 a ha).1
  have d : ∀ a, a < 9 → (spin i).cdr a = spin0.cdr a := fun a ha => (h1 a ha).2
  have hn : (spin i).next + 1 = (10 + 2 * i) + 1 + 1 := by rw [spin_next]; omega
  refine ⟨c 6 (by omega), d 6 (by omega), c 7 (by omega), d 7 (by omega), c 4 (by omega), d 4 (by omega), c 2 (by omega), d 2 (by omega), c 3 (by omega), d 3 (by omega),
    c 8 (by omega), c 5 (by omega), d 5 (by omega), ?_, ?_, ?_⟩
  · rw [hn]; simp [St.lookup, e1, e2, e3]
  · rw [hn]; simp [St.lookup, e1, e3, e4]
  · have c0 := c 0 (by omega)
    have c1 := c 1 (by omega)
    have d1 := d 1 (by omega)
    simp only [spin0] at c0 c1 d1
    simp [St.glookup, h2, spin0, hn, St.glookupLoop, c0, c1, d1]

/-- The hypotheses of `C40_constant_stack_partial` are met by the loop `(define f (lambda (x) (f x)))`: it runs forever in 23 words. -/
example (i : Nat) (r : V) : ∃ n r', steps (some 23) P0 n (.next ⟨[.k 0], r, .cons 6, .cons 10, false, 0, .nil, spin 0⟩) =
    .next ⟨[.k 0], r', .cons 6, .cons (10 + 2 * i), false, 0, .nil, spin i⟩ := by
  have hE : ∀ i, spinE i = (spin i, .cons (10 + 2 * i), .cons 6) := fun _ => rfl
  refine C40_constant_stack_partial (P := P0) spinE [.k 0] 0 .nil rfl rfl 6 (fun i => ?_) (fun i r n hmin j hj m hm => ?_) 23 (by decide) i r
  · obtain ⟨f1, f2, f3, f4, f5, f6, f7, f8, f9, f10, f11, f12, f13, l1, l2, l3⟩ := spin_facts i
    have hal : allocBinding (spin i) (.sym 0x40001) (.atom 1) .nil = (spin (i + 1), .cons (10 + 2 * (i + 1))) := by
      refine Prod.ext rfl ?_
      simp only [allocBinding, St.cons, spin_next]
      congr 1; omega
    simp only [hE]
    refine .step (.app (by rw [f1]; rfl)) ?_
    rw [f1, f2]
    refine .step (.sub_ok (.glob (by decide) l1 l3)) ?_
    refine .step (.start_clo f5 (by decide) (by simp [f6, St.hd, f7]) (by rfl) (by rfl)) ?_
    simp only [f6, f7, f8, f9, f10, f11, f3, f4, St.hd, St.tl]
    refine .step (.sub_ok (.loc (by decide) l2)) ?_
    exact .step (.pars_last (by simp [St.gcar, f12]) (by simp [St.gcdr, f13]) hal) .refl
  · obtain ⟨f1, f2, f3, f4, f5, f6, f7, f8, f9, f10, f11, f12, f13, l1, l2, l3⟩ := spin_facts i
    have hal : allocBinding (spin i) (.sym 0x40001) (.atom 1) .nil = (spin (i + 1), .cons (10 + 2 * (i + 1))) := by
      refine Prod.ext rfl ?_
      simp only [allocBinding, St.cons, spin_next]
      congr 1; omega
    simp only [hE] at hmin hm
    have s1 : steps none P0 1 (.next ⟨[.k 0], r, .cons 6, .cons (10 + 2 * i), false, 0, .nil, spin i⟩) =
        .next ⟨[.k 10, .v (.cons 7), .v (.cons (10 + 2 * i)), .k 0], r, .sym 0x40000, .cons (10 + 2 * i), false, 0, .nil, spin i⟩ := by
      simp [steps, step, f1, f2, special, reserve, M.go]
    have s2 : steps none P0 2 (.next ⟨[.k 0], r, .cons 6, .cons (10 + 2 * i), false, 0, .nil, spin i⟩) =
        .next ⟨[.k 10, .v (.cons 7), .v (.cons (10 + 2 * i)), .k 0], .cons 4, .sym 0x40000, .cons (10 + 2 * i), true, 0, .nil, spin i⟩ := by
      rw [show 2 = 1 + 1 from rfl, steps_add, s1]
      simp [steps, step, evalSymbol, runtimeStart, l1, l3, M.ret]
    have s3 : steps none P0 3 (.next ⟨[.k 0], r, .cons 6, .cons (10 + 2 * i), false, 0, .nil, spin i⟩) =
        .next ⟨[.k 13, .v .nil, .v (.cons 5), .v .nil, .v (.cons 6), .v (.cons (10 + 2 * i)), .k 0], .cons 4, .sym 0x40001, .cons (10 + 2 * i), false, 0, .nil, spin i⟩ := by
      rw [show 3 = 2 + 1 from rfl, steps_add, s2]
      simp [steps, step, runCont, contStart, f3, f4, f5, f6, f7, f8, f9, f10, f11, St.hd, St.tl, St.gcar, St.gcdr, reserve, M.go]
    have s4 : steps none P0 4 (.next ⟨[.k 0], r, .cons 6, .cons (10 + 2 * i), false, 0, .nil, spin i⟩) =
        .next ⟨[.k 13, .v .nil, .v (.cons 5), .v .nil, .v (.cons 6), .v (.cons (10 + 2 * i)), .k 0], .atom 1, .sym 0x40001, .cons (10 + 2 * i), true, 0, .nil, spin i⟩ := by
      rw [show 4 = 3 + 1 from rfl, steps_add, s3]
      simp [steps, step, evalSymbol, runtimeStart, l2, M.ret]
    have s5 : steps none P0 5 (.next ⟨[.k 0], r, .cons 6, .cons (10 + 2 * i), false, 0, .nil, spin i⟩) =
        .next ⟨[.k 0], .atom 1, .cons 6, .cons (10 + 2 * (i + 1)), false, 0, .nil, spin (i + 1)⟩ := by
      rw [show 5 = 4 + 1 from rfl, steps_add, s4]
      simp [steps, step, runCont, contCloArgs, St.gcar, St.gcdr, f12, f13, hal, M.go]
    have hn : n ≤ 5 := by
      by_contra hlt
      exact hmin 5 (by omega) _ s5
    have hj5 : j = 0 ∨ j = 1 ∨ j = 2 ∨ j = 3 ∨ j = 4 ∨ j = 5 := by omega
    rcases hj5 with rfl | rfl | rfl | rfl | rfl | rfl
    · cases hm; simp
    · rw [s1] at hm; cases hm; simp
    · rw [s2] at hm; cases hm; simp
    · rw [s3] at hm; cases hm; simp
    · rw [s4] at hm; cases hm; simp
    · rw [s5] at hm; cases hm; simp

/-! ## C41: `trap` -/

/-- `v` is the list `(x y)`. -/
def IsList2 (s : St) (v x y : V) : Prop := ∃ a b, v = .cons a ∧ s.car a = x ∧ s.cdr a = .cons b ∧ s.car b = y ∧ s.cdr b = .nil

/-- The two cells `a` and `a + 1` are the same in both stores. -/
def SameTwo (a : Nat) (s s' : St) : Prop :=
  s'.car a = s.car a ∧ s'.cdr a = s.cdr a ∧ s'.car (a + 1) = s.car (a + 1) ∧ s'.cdr (a + 1) = s.cdr (a + 1)

/-- All else is the same. -/
def ElseSame (a : Nat) (s s' : St) : Prop :=
  s'.next = s.next ∧ s'.globals = s.globals ∧ s'.atomic = s.atomic ∧ s'.konts = s.konts ∧
    ∀ i, i ≠ a → i ≠ a + 1 → s'.car i = s.car i ∧ s'.cdr i = s.cdr i

/-- `(trap x)` evaluates to `(exit-ok v)` if `x` evaluates to `v`, with the stack and the flags as before. The two cells of the result are allocated before
`x` is evaluated; the hypothesis `hf` is that `x` did not write to them. -/
theorem C41_value_partial {P : Prims} {s s1 s2 : St} {env e x rv v : V} (hform : s.isForm e 0x116) (hx : s.gcadr e = some x) (hcell : s.exitCell = (s1, rv))
    (h : Ev P false s1 none (.exp env x) s2 none (.ok v)) (hf : SameTwo s.next s1 s2)
    (K : List W) (r : V) (fl : Nat) (prog : V) (ht : flagTrap fl = false) (hc : flagConst fl = false) :
    ∃ n x' env' s', steps none P n (.next ⟨K, r, e, env, false, fl, prog, s⟩) = .next ⟨K, rv, x', env', true, fl, prog, s'⟩ ∧
      IsList2 s' rv .exitOk v ∧ ElseSame s.next s2 s' := by
  simp only [St.exitCell, St.cons, Prod.mk.injEq] at hcell
  obtain ⟨rfl, rfl⟩ := hcell
  obtain ⟨f1, f2, f3, f4⟩ := hf
  simp at f1 f2 f3 f4
  have hs : s2.setSecond (.cons (s.next + 1)) v = some (s2.setCar (.cons s.next) v) := by simp [St.setSecond, St.gcdr, f4]
  obtain ⟨n, x', env', hn⟩ := C39_value_partial (.trap_ok hform hx rfl h hs) K r fl prog ht hc
  refine ⟨n, x', env', _, hn, ⟨s.next + 1, s.next, rfl, ?_⟩, ?_⟩
  · simp [St.setCar, f2, f3, f4]
  · refine ⟨rfl, rfl, rfl, rfl, fun i h1 _ => ?_⟩
    simp [St.setCar, h1]

/-- `(trap x)` evaluates to `(exit-error y)` if the evaluation of `x` raises the error `y`, with the stack and the flags as before. -/
theorem C41_error_partial {P : Prims} {s s1 s2 : St} {env e x rv y : V} (hform : s.isForm e 0x116) (hx : s.gcadr e = some x) (hcell : s.exitCell = (s1, rv))
    (h : Ev P false s1 none (.exp env x) s2 none (.err y)) (hy : y ≠ .fatal) (hf : SameTwo s.next s1 s2)
    (K : List W) (r : V) (fl : Nat) (prog : V) (ht : flagTrap fl = false) (hc : flagConst fl = false) :
    ∃ n x' env' s', steps none P n (.next ⟨K, r, e, env, false, fl, prog, s⟩) = .next ⟨K, rv, x', env', true, fl, prog, s'⟩ ∧
      IsList2 s' rv .exitError y ∧ ElseSame s.next s2 s' := by
  simp only [St.exitCell, St.cons, Prod.mk.injEq] at hcell
  obtain ⟨rfl, rfl⟩ := hcell
  obtain ⟨f1, f2, f3, f4⟩ := hf
  simp at f1 f2 f3 f4
  have hs : (s2.setCar (.cons (s.next + 1)) .exitError).setSecond (.cons (s.next + 1)) y = some ((s2.setCar (.cons (s.next + 1)) .exitError).setCar (.cons s.next) y) := by
    simp [St.setSecond, St.gcdr, St.setCar, f4]
  obtain ⟨n, x', env', hn⟩ := C39_value_partial (.trap_err hform hx rfl h hy hs) K r fl prog ht hc
  refine ⟨n, x', env', _, hn, ⟨s.next + 1, s.next, rfl, ?_⟩, ?_⟩
  · simp [St.setCar, f2, f4]
  · refine ⟨rfl, rfl, rfl, rfl, fun i h1 h2 => ?_⟩
    simp [St.setCar, h1, h2]

/-- Whatever the machine is doing when it raises an error (other than a fatal one) in the dynamic extent of a `trap`: it goes on after the innermost `trap` with `(exit-error y)`, the stack
below the `trap` and the flags saved by it. The hypothesis `hc` is that all words above the handler have been written and that no other handler is above. -/
theorem C41_unwind_partial {P : Prims} {m : M} {y rv : V} {above K : List W} {f a b : Nat} (hK : m.K = above ++ .k 45 :: .raw f :: .v rv :: K)
    (hc : ∀ w ∈ above, w ≠ .k 45 ∧ w ≠ .junk) (ht : flagTrap m.flags = false) (hu : flagUnroll m.flags = true) (hy : y ≠ .fatal)
    (hrv : rv = .cons a) (hab : a ≠ b) (h1 : m.st.cdr a = .cons b) (h2 : m.st.cdr b = .nil) :
    ∃ m', steps none P 1 (raise m y) = .next m' ∧ m'.K = K ∧ m'.app = true ∧ m'.flags = f ∧ m'.r = rv ∧ IsList2 m'.st rv .exitError y := by
  obtain ⟨mK, r, x, env, app, fl, prog, s⟩ := m
  simp only at hK ht hu h1 h2
  subst hK hrv
  rw [raise_trap ht hu hy hc]
  refine ⟨_, rfl, rfl, rfl, rfl, rfl, a, b, rfl, ?_⟩
  simp [St.setCar, h1, h2, hab]

/-- A fatal error cannot be caught: the context ends, whatever handlers there are. -/
theorem C41_fatal (m : M) : raise m .fatal = .fin m.st .fatal false := by
  simp [raise]

/-- Example: `(trap undefined)`. -/
example : ((steps none P0 60 (boot 0 demoTrap)).pairResult = some (.exitError, .notFound)) := by decide +kernel

/-- Example: an error raised two frames above a handler. -/
example : ∃ m', steps none P0 1 (raise ⟨[.k 4, .v .nil, .k 45, .raw 0, .v (.cons 1), .k 0], .nil, .nil, .nil, true, 16, .nil,
    { st0 with cdr := fun i => if i = 1 then .cons 2 else .nil, next := 3 }⟩ .terror) = .next m' ∧ m'.K = [.k 0] ∧ m'.app = true ∧ m'.flags = 0 ∧
    m'.r = .cons 1 ∧ IsList2 m'.st (.cons 1) .exitError .terror :=
  C41_unwind_partial (above := [.k 4, .v .nil]) (a := 1) (b := 2) rfl (by decide) rfl rfl (by decide) rfl (by decide) rfl rfl

/-- Not true of the code: a context made with `spawn-trap` (flag 1) ends with an error although the error is raised inside of a `trap`. -/
theorem C41_spawn_trap_violated : (steps none P0 60 (boot 1 demoTrap)).result = some (.notFound, false) := by decide +kernel

/-- Not true of the code: after a jump out of a `trap` with a continuation, the next error outside of any `trap` (here an unbound variable) is reported as a fatal error. -/
theorem C41_escape_violated : (steps none P0 60 (boot 0 demoEscape)).result = some (.fatal, false) := by decide +kernel

/-- Not true of the code: an error in a malformed `define` inside of a `trap` makes the search for the handler read stack slots that have not been written. -/
theorem C41_define_violated : (steps none P0 60 (boot 0 demoDefine)).isUb = true := by decide +kernel

/-- Not true of the code: the same for a call without arguments of a function that has parameters. -/
theorem C41_arity_violated : (steps none P0 60 (boot 0 demoArity)).isUb = true := by decide +kernel

/-- Not true of the code: an error in an atomic block inside of a `trap` is caught, but the scheduler stays in the atomic mode. -/
theorem C41_atomic_violated : (steps none P0 60 (boot 0 demoAtomic)).pairResult = some (.exitError, .atom 1) ∧
    (steps none P0 60 (boot 0 demoAtomic)).atomicAtEnd = some true := by decide +kernel

/-! ## C42: `match` -/

/-- The machine that has the value `v` of the scrutinee and looks at the cases `.cons a` of a `match` in the environment `env`; `lenv` is the environment left over
by the evaluation of the scrutinee. -/
def matching (K : List W) (env : V) (a : Nat) (v x lenv : V) (fl : Nat) (prog : V) (s : St) : M :=
  ⟨.k 9 :: .v env :: .v (.cons a) :: K, v, x, lenv, true, fl, prog, s⟩

/-- `e` evaluates to `v`: then the machine on `(match e cases ...)` comes to look at the cases, in the environment of the `match`. -/
theorem C42_start_partial {P : Prims} {s s1 : St} {env e v : V} {a c : Nat} (hform : s.isForm e 0x108) (ha : s.gcdr e = some (.cons a)) (hcs : s.cdr a = .cons c)
    (h : Ev P false s none (.exp env (s.car a)) s1 none (.ok v)) (K : List W) (r : V) (fl : Nat) (prog : V) (ht : flagTrap fl = false) (hc : flagConst fl = false) :
    ∃ n x lenv, steps none P n (.next ⟨K, r, e, env, false, fl, prog, s⟩) = .next (matching K env c v x lenv fl prog s1) := by
  obtain ⟨b, rfl, hb⟩ := hform
  obtain ⟨n, x, env', hn⟩ := C39_value_partial h (.k 9 :: .v env :: .v (.cons c) :: K) r fl prog ht hc
  refine ⟨1 + n, x, env', ?_⟩
  rw [steps_add]
  unfold matching
  rw [← hn]
  congr 1
  simp only [steps, step, hb, special, evalSpecial, evalMatch, ha, Bool.false_eq_true, if_false]
  simp [reserve, M.go, hcs]

section
variable {P : Prims} {s s1 : St} {env env1 v p : V} {a : Nat} {ok : Bool}

/-- A case `(p body)` whose pattern matches: the body is evaluated in the environment of the match extended by what the pattern binds, and nothing else. -/
theorem C42_body_partial (hq : EqStable P.eq) (hcl : s.Closed) {body : V} (hp : s.gcar (s.car a) = some p) (h1 : s.gcadr (s.car a) = some body)
    (h2 : (s.gcdr (s.car a)).bind s.gcadr = some .nil) (hpo : s.okv p) (hvo : s.okv v) (heo : s.okv env)
    (hm : s.matchP P.eq (s.next + 1) p v env = some (true, s1, env1)) (K : List W) (x lenv : V) (fl : Nat) (prog : V) :
    (∃ r, steps none P 1 (.next (matching K env a v x lenv fl prog s)) = .next ⟨K, r, body, env1, false, fl, prog, s1⟩) ∧
      (∃ l, Pat s P.eq p v l ∧ EnvIs s1 env env1 l) ∧ s.Ext s1 := by
  obtain ⟨h3, _, _, h4, _⟩ := matchP_spec hq hcl _ s p v env true s1 env1 (St.Ext.refl s) hcl hpo hvo heo hm
  refine ⟨⟨v, ?_⟩, h4 rfl, h3⟩
  simp [steps, matching, step, runCont, contMatch, hp, h1, h2, hm, M.go]

/-- A case `(p guard body)` whose pattern matches and whose guard evaluates to something else than nil: the guard, and then the body, are evaluated in that same environment. -/
theorem C42_guard_partial (hq : EqStable P.eq) (hcl : s.Closed) {guard body g : V} {s2 : St} (hp : s.gcar (s.car a) = some p) (h1 : s.gcadr (s.car a) = some guard)
    (h2 : (s.gcdr (s.car a)).bind s.gcadr = some body) (hb : body ≠ .nil) (hpo : s.okv p) (hvo : s.okv v) (heo : s.okv env)
    (hm : s.matchP P.eq (s.next + 1) p v env = some (true, s1, env1)) (hg : Ev P false s1 none (.exp env1 guard) s2 none (.ok g)) (hgn : g ≠ .nil)
    (K : List W) (x lenv : V) (fl : Nat) (prog : V) (ht : flagTrap fl = false) (hc : flagConst fl = false) :
    (∃ Kg r, steps none P 1 (.next (matching K env a v x lenv fl prog s)) = .next ⟨Kg, r, guard, env1, false, fl, prog, s1⟩) ∧
    (∃ n r, steps none P n (.next (matching K env a v x lenv fl prog s)) = .next ⟨K, r, body, env1, false, fl, prog, s2⟩) ∧
      (∃ l, Pat s P.eq p v l ∧ EnvIs s1 env env1 l) ∧ s.Ext s1 := by
  obtain ⟨h3, _, _, h4, _⟩ := matchP_spec hq hcl _ s p v env true s1 env1 (St.Ext.refl s) hcl hpo hvo heo hm
  have e1 : steps none P 1 (.next (matching K env a v x lenv fl prog s)) =
      .next ⟨.k 24 :: .v v :: .v body :: .v env1 :: .k 9 :: .v lenv :: .v (s1.cdr a) :: K, v, guard, env1, false, fl, prog, s1⟩ := by
    simp [steps, matching, step, runCont, contMatch, hp, h1, h2, hm, hb, reserve, M.go]
  obtain ⟨n, x', env', hn⟩ := C39_value_partial hg (.k 24 :: .v v :: .v body :: .v env1 :: .k 9 :: .v lenv :: .v (s1.cdr a) :: K) v fl prog ht hc
  refine ⟨⟨_, _, e1⟩, ⟨1 + (n + 1), g, ?_⟩, h4 rfl, h3⟩
  rw [steps_add, e1, steps_add, hn]
  simp [steps, step, runCont, contGuard, hgn, M.go]

/-- A case whose pattern does not match: the next case is looked at, in the environment of the match. -/
theorem C42_next_partial (hq : EqStable P.eq) (hcl : s.Closed) {n1 n2 : V} {a' : Nat} (hp : s.gcar (s.car a) = some p) (h1 : s.gcadr (s.car a) = some n1)
    (h2 : (s.gcdr (s.car a)).bind s.gcadr = some n2) (hpo : s.okv p) (hvo : s.okv v) (heo : s.okv env) (ha : a < s.next) (hnext : s.cdr a = .cons a')
    (hm : s.matchP P.eq (s.next + 1) p v env = some (ok, s1, env1)) (hno : ∀ l, ¬ Pat s P.eq p v l) (K : List W) (x lenv : V) (fl : Nat) (prog : V) :
    steps none P 1 (.next (matching K env a v x lenv fl prog s)) = .next (matching K env a' v x lenv fl prog s1) ∧ s.Ext s1 := by
  obtain ⟨h3, _, _, h4, _⟩ := matchP_spec hq hcl _ s p v env ok s1 env1 (St.Ext.refl s) hcl hpo hvo heo hm
  cases ok with
  | true => obtain ⟨l, hl, _⟩ := h4 rfl; exact absurd hl (hno l)
  | false =>
    refine ⟨?_, h3⟩
    have := (h3.2 a ha).2
    simp [steps, matching, step, runCont, contMatch, hp, h1, h2, hm, reserve, M.ret, this, hnext]

end

/-- Not true of the code: when a guard evaluates to nil, the cases after it are evaluated in the environment that the evaluation of the scrutinee left over.
The program is `(let ((x 1)) (match (let ((x 2)) 5) ((? y) nil 0) (_ x)))`; its value is 1, the machine gives 2. -/
theorem C42_failed_guard_violated : HasValue true demoGuard (.atom 1) ∧ (steps none P0 60 (boot 0 demoGuard)).result = some (.atom 2, true) :=
  ⟨hasValue (by decide +kernel), by decide +kernel⟩

/-! ## C62: `loop` -/

/-- Not true of the code: the condition of `loop` is evaluated in the environment that the body left over. The program is
`(let ((y nil) (r 0)) (progn (loop ((x 1)) (if y (progn (setq r x) nil) t) (let ((x 2)) (setq y t))) r))`; its value is 1, the machine gives 2. -/
theorem C62_loop_scope_violated : HasValue true demoLoop (.atom 1) ∧ (steps none P0 60 (boot 0 demoLoop)).result = some (.atom 2, true) :=
  ⟨hasValue (by decide +kernel), by decide +kernel⟩

/-! ## C63: local variables of `progn` -/

/-- Not true of the code: in `(progn (let ((x 1)) (var a x)) a)` the expression `x` is evaluated in the environment of the `progn`, where it is not bound. -/
theorem C63_var_env_violated : (steps none P0 60 (boot 0 demoVar)).result = some (.notFound, false) := by decide +kernel

/-- Not true of the code: `(progn (define f (lambda () (var y 2))) (progn (f) y))` has the value 2: the function makes a local variable of its caller. -/
theorem C63_var_leak_violated : (steps none P0 60 (boot 0 demoLeak)).result = some (.atom 2, true) := by decide +kernel

/-! ## C64: `call-cc` -/

/-- `v` is a continuation that holds the stack `K`, and whether it was captured in an atomic block. -/
def IsCont (s : St) (v : V) (K : List W) (at_ : Bool) : Prop :=
  ∃ a c, v = .cons a ∧ s.car a = .cont ∧ s.cdr a = .arr c ∧ s.konts c = .v (if at_ then .tru else .nil) :: K

/-- `(call-cc f)` evaluates `f` in the current environment and then applies it to a continuation that holds the stack of the `call-cc` expression. -/
theorem C64_capture_partial {P : Prims} {s : St} {env e f : V} (hform : s.isForm e 0x10B) (hf : s.gcadr e = some f) (ha : ∀ a, e = .cons a → a < s.next ∧ s.okv (s.cdr a))
    (K : List W) (r : V) (fl : Nat) (prog : V) :
    ∃ s' a r', steps none P 1 (.next ⟨K, r, e, env, false, fl, prog, s⟩) =
        .next ⟨.k 10 :: .v (.cons a) :: .v env :: K, r', f, env, false, fl, prog, s'⟩ ∧
      IsCont s' (s'.car a) K s.atomic ∧ s'.cdr a = .nil ∧ s.Ext s' := by
  obtain ⟨b, rfl, hb⟩ := hform
  obtain ⟨hbn, hbo⟩ := ha b rfl
  have hne : ∀ i, i < s.next → i ≠ s.next + 1 ∧ i ≠ s.next := by omega
  let s1 : St := { s with konts := fun i => if i = s.nk then .v (if s.atomic then .tru else .nil) :: K else s.konts i, nk := s.nk + 1 }
  refine ⟨((s1.cons .cont (.arr s.nk)).1.cons (.cons s.next) .nil).1, s.next + 1, r, ?_, ?_, ?_, ?_⟩
  · have hg : St.gcadr ((s1.cons .cont (.arr s.nk)).1.cons (.cons s.next) .nil).1 (.cons b) = some f := by
      simp only [St.gcadr, St.cons, s1, (hne b hbn).1, (hne b hbn).2, if_false]
      simp only [St.gcadr] at hf
      cases hd : s.cdr b with
      | cons c =>
        have := hne c (hbo c hd)
        simp only [hd] at hf ⊢
        simpa [this.1, this.2] using hf
      | sym n => cases n <;> simpa [hd] using hf
      | _ => simp [hd] at hf
    simp only [s1, St.cons] at hg
    simp [steps, step, hb, special, evalSpecial, evalCallcc, reserve, M.go, St.cons, hg, s1]
  · exact ⟨s.next, s.nk, by simp [St.cons, s1], by simp [St.cons, s1], by simp [St.cons, s1], by simp [St.cons, s1]⟩
  · simp [St.cons, s1]
  · refine ⟨by simp only [St.cons, s1]; omega, fun i hi => ?_⟩
    simp [St.cons, s1, hne i hi]

/-- The application of a continuation to an expression, in whatever stack: the expression is evaluated with the stack that the continuation holds. Partial: it is evaluated in the
environment left over in the register, and a context with a smaller stack is not covered. -/
theorem C64_resume_partial {P : Prims} {s : St} {aenv f x lenv xr : V} {a : Nat} {K K2 : List W} {at_ : Bool} (hf : IsCont s f K at_) (hd : s.cdr a = .nil) (ha : a < s.next)
    (hx : s.car a = x) (fl : Nat) (prog : V) :
    ∃ r', steps none P 1 (.next ⟨.k 10 :: .v (.cons a) :: .v aenv :: K2, f, xr, lenv, true, fl, prog, s⟩) =
      .next ⟨K, r', x, lenv, false, fl, prog, { s with atomic := at_ }⟩ := by
  obtain ⟨b, c, rfl, h1, h2, h3⟩ := hf
  have hl : s.len (s.next + 1) (.cons a) = some 1 := by
    obtain ⟨n, hn⟩ : ∃ n, s.next = n + 1 := ⟨s.next - 1, by omega⟩
    rw [hn]
    simp [St.len, hd]
  refine ⟨.cons b, ?_⟩
  cases at_ <;> simp [steps, step, runCont, contStart, h1, h2, h3, hl, hx, M.go, St.hd]

/-- Example: `(+ 1 (call-cc (lambda (k) (+ 10 (k 5)))))` is 6. -/
example : (steps none P0 60 (boot 0 demoCont)).result = some (.atom 6, true) := by decide +kernel

/-- Not true of the code: the argument of a continuation is evaluated in the environment left over by the evaluation of the operator.
The program is `(call-cc (lambda (k) (let ((x 1)) ((let ((x 2)) k) x))))`. -/
theorem C64_argument_scope_violated : (steps none P0 60 (boot 0 demoContArg)).result = some (.atom 2, true) := by decide +kernel

end Verif.Eval
