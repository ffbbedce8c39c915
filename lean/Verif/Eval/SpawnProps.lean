import Verif.Eval.Spawn

/-!
# C96: a new process computes the call it was made with

`IsCall`, `Arity`, `Quoted` in `Verif.Eval.Spawn`, the semantics `Ev` in `Verif.Eval.Spec`, `SameResult` in `Verif.Eval.RenProps`.
-/

namespace Verif.Eval

variable {P : Prims}

/-- The context that evaluates the expression `e` in the environment `env`. -/
def evaluates (s : St) (env e : V) : M := ⟨[.k 0], .nil, e, env, false, 0, .nil, s⟩

theorem steps_twin (hP : Blind P) (sz : Option Nat) {ρ : Ren} {m m' : M} (h : RM ρ m m') : ∀ n, ∃ ρ', ROut ρ' (steps sz P n (.next m)) (steps sz P n (.next m')) := by
  intro n
  induction n with
  | zero => exact ⟨ρ, .next h⟩
  | succ n ih =>
    obtain ⟨ρ', ih⟩ := ih
    have e : ∀ x, steps sz P (n + 1) (.next x) = steps sz P 1 (steps sz P n (.next x)) := fun x => steps_succ ..
    rw [e m, e m']
    generalize steps sz P n (.next m) = o at ih
    generalize steps sz P n (.next m') = o' at ih
    cases ih with
    | next hm => obtain ⟨ρ2, _, h2⟩ := ro_step hm hP sz; exact ⟨ρ2, h2⟩
    | fin h1 h2 => exact ⟨ρ', .fin h1 h2⟩
    | out => exact ⟨ρ', .out⟩
    | ub => exact ⟨ρ', .ub⟩

theorem spawn_ends (hP : Blind P) {s s' : St} {env e above : V} {f : Nat} {xs : List V} {r : Res} (hal : Allocated (evaluates s env e)) (hc : IsCall s e f xs) (ha : Arity s f xs.length)
    (h : Ev P false s none (.exp env e) s' none r) :
    (∃ n z0 v s1, (∀ sz : Option Nat, (∀ z, sz = some z → z0 ≤ z) → steps sz P n (.next ((spawn s f xs above 0).2.mach (spawn s f xs above 0).1)) = .fin s1 v r.isOk) ∧
      SameResult s' r.val s1 v) ∧ Allocated ((spawn s f xs above 0).2.mach (spawn s f xs above 0).1) := by
  have hs : Safe s _ := allocated_safe hal
  have ue : InUse (evaluates s env e) e ∨ ∃ n, e = .sym n := Or.inl (.root (by simp [evaluates]))
  obtain ⟨⟨U, b1, b2, b3⟩, b4⟩ := call_inv (above := above) hs ue hc ha h
  have ubody : U (s.hd (s.tl (s.cdr f))) := by
    obtain ⟨c, rfl, hf, _⟩ := hc
    exact b3 _ (hd_safe hs (tl_safe hs (hs.cdr f (by have := hs.car c ue; rwa [hf] at this))))
  generalize hb : spawnBind above xs s (s.hd (s.cdr f)) (s.hd (s.tl (s.tl (s.cdr f)))) = b at b1 b2 b4
  have e1 : (spawn s f xs above 0) = ((b.1.cons (s.hd (s.tl (s.cdr f))) .nil).1, ⟨[.k 0], .nil, s.hd (s.tl (s.cdr f)), b.2, false, 0, .nil⟩) := by
    simp only [spawn, hb]
  rw [e1]
  obtain ⟨n, hn⟩ := ctx_ends b4 .nil
  have hroots : ∀ v, v = V.nil ∨ v = s.hd (s.tl (s.cdr f)) ∨ v = b.2 ∨ v = V.nil ∨ W.v v ∈ [W.k 0] → U v := by
    rintro v (rfl | rfl | rfl | rfl | hv)
    · exact b1.sym _
    · exact ubody
    · exact b2
    · exact b1.sym _
    · simp at hv
  have b5 := b1.cons ubody (b1.sym 0)
  have al : Allocated ⟨[.k 0], .nil, s.hd (s.tl (s.cdr f)), b.2, false, 0, .nil, b.1⟩ :=
    ⟨fun a hx => b1.cell a (safe_inUse (m := ⟨[.k 0], .nil, s.hd (s.tl (s.cdr f)), b.2, false, 0, .nil, b.1⟩) b1 hroots hx),
      fun a hx => b1.stack a (safe_inUse (m := ⟨[.k 0], .nil, s.hd (s.tl (s.cdr f)), b.2, false, 0, .nil, b.1⟩) b1 hroots hx)⟩
  have al2 : Allocated (Ctx.mach ⟨[.k 0], .nil, s.hd (s.tl (s.cdr f)), b.2, false, 0, .nil⟩ (b.1.cons (s.hd (s.tl (s.cdr f))) .nil).1) :=
    ⟨fun a hx => b5.cell a (safe_inUse (U := fun v => U v ∨ v = (b.1.cons (s.hd (s.tl (s.cdr f))) .nil).2) b5 (fun v hv => Or.inl (hroots v hv)) hx), fun a hx => b5.stack a (safe_inUse (U := fun v => U v ∨ v = (b.1.cons (s.hd (s.tl (s.cdr f))) .nil).2) b5 (fun v hv => Or.inl (hroots v hv)) hx)⟩
  refine ⟨?_, al2⟩
  -- the list with the body is garbage
  have hcol : Collected ⟨[.k 0], .nil, s.hd (s.tl (s.cdr f)), b.2, false, 0, .nil, b.1⟩
      (Ctx.mach ⟨[.k 0], .nil, s.hd (s.tl (s.cdr f)), b.2, false, 0, .nil⟩ (b.1.cons (s.hd (s.tl (s.cdr f))) .nil).1) id id := by
    refine ⟨fun _ _ _ _ e => e, fun _ _ _ _ e => e, fun a hx => ?_, fun k hk => ⟨al.2 k hk, (movedK_id _).symm⟩, fun n => (moved_id _).symm, rfl, (movedK_id _).symm, (moved_id _).symm,
      (moved_id _).symm, (moved_id _).symm, (moved_id _).symm, rfl, rfl⟩
    have h1 := al.1 a hx
    have h2 := cons_keeps h1 (s.hd (s.tl (s.cdr f))) .nil
    exact ⟨Nat.lt_succ_of_lt h1, by rw [moved_id]; exact h2.1, by rw [moved_id]; exact h2.2⟩
  obtain ⟨ρ, hρ⟩ := steps_twin hP none ((hcol.rel al).rm (Nat.le_succ _)) n
  rw [hn] at hρ
  obtain ⟨s1, v, h1, h2⟩ := hρ.same
  obtain ⟨z0, hz⟩ := sized_of_none h1
  refine ⟨n, z0, v, s1, fun sz hsz => ?_, h2⟩
  cases sz with
  | none => exact h1
  | some z => exact hz z (hsz z rfl)

theorem SameResult.trans {s1 s2 s3 : St} {v1 v2 v3 : V} (h : SameResult s1 v1 s2 v2) (h' : SameResult s2 v2 s3 v3) : SameResult s1 v1 s3 v3 := by
  obtain ⟨ρ, a1, a2, a3, a4, a5, a6, a7, a8, a9⟩ := h
  obtain ⟨σ, b1, b2, b3, b4, b5, b6, b7, b8, b9⟩ := h'
  refine ⟨ρ.comp σ, ?_, ?_, ?_, ?_, ?_, ?_, fun n => (a7 n).comp (b7 n), a8.trans b8, a9.comp b9⟩
  · rintro a c c' ⟨b, h1, h2⟩ ⟨b', h3, h4⟩
    obtain rfl := a1 _ _ _ h1 h3
    exact b1 _ _ _ h2 h4
  · rintro a a' c ⟨b, h1, h2⟩ ⟨b', h3, h4⟩
    obtain rfl := b2 _ _ _ h2 h4
    exact a2 _ _ _ h1 h3
  · rintro a c c' ⟨b, h1, h2⟩ ⟨b', h3, h4⟩
    obtain rfl := a3 _ _ _ h1 h3
    exact b3 _ _ _ h2 h4
  · rintro a a' c ⟨b, h1, h2⟩ ⟨b', h3, h4⟩
    obtain rfl := b4 _ _ _ h2 h4
    exact a4 _ _ _ h1 h3
  · rintro a c ⟨b, h1, h2⟩
    exact ⟨(a5 _ _ h1).1.comp (b5 _ _ h2).1, (a5 _ _ h1).2.comp (b5 _ _ h2).2⟩
  · rintro a c ⟨b, h1, h2⟩
    exact (a6 _ _ h1).comp (b6 _ _ h2)

theorem spawnBind_atomic (above : V) : ∀ xs s params env, (spawnBind above xs s params env).1.atomic = s.atomic
  | [], s, params, env => by cases params <;> rfl
  | x :: xs, s, params, env => by
    cases params <;> first | rfl | (simp only [spawnBind]; rw [spawnBind_atomic above xs]; rfl)

/-! ## Properties -/

/-- C96: let `f` be a closure with `n` parameters. If the call `(f 'x1 ... 'xn)` has the result `r` (a value or an error) in the semantics, then the process made by `(spawn f x1 ... xn)`, with
a stack that is large enough, ends with the same result, whatever the others do and in whatever order, as long as they do not change what it can use (see C93): at each point of the
execution it has ended with that result, or it is still running, has taken fewer steps than some number, and can go on unless another process is in an atomic block.
Partial: for `Ev P false` (see `C39_value_partial`) and processes without the flag of `spawn-trap`. -/
theorem C96_spawn_is_call_partial (hP : Blind P) {s s' : St} {env e : V} {f : Nat} {xs : List V} {r : Res} (hal : Allocated (evaluates s env e)) (hat : s.atomic = false) (hc : IsCall s e f xs)
    (ha : Arity s f xs.length) (h : Ev P false s none (.exp env e) s' none r) (above : V) :
    ∃ n z0, ∀ (sz : Nat → Option Nat) (i : Nat) (p0 p : Pool) (ls : List (Option Nat)), (∀ z, sz i = some z → z0 ≤ z) → p0.st = (spawn s f xs above 0).1 →
      p0.slot i = .run (spawn s f xs above 0).2 → Runs sz P (Polite i) p0 ls p →
      (∃ s1 v, p.slot i = .ended s1 v r.isOk ∧ SameResult s' r.val s1 v) ∨
      ((∃ c, p.slot i = .run c) ∧ ls.count (some i) < n ∧ ((p.st.atomic = true → p.cur = i) → ∃ p', PStep sz P p (some i) p')) := by
  obtain ⟨⟨n, z0, v, s1, h1, h2⟩, h3⟩ := spawn_ends (above := above) hP hal hc ha h
  refine ⟨n, z0, fun sz i p0 p ls hz hst hsl hr => ?_⟩
  rw [← hst] at h1 h3
  rcases C93_same_result hP hsl h3 (by rw [hst]; exact (spawnBind_atomic above xs s _ _).trans hat) (h1 (sz i) hz) hr with ⟨s2, v2, h4, h5⟩ | h4
  · exact Or.inl ⟨s2, v2, h4, h2.trans h5⟩
  · exact Or.inr h4

/-! ## Examples and violations -/

section
open Sx

/-- `((lambda (x y) (cons x y)) '5 '6)`, with the closure in place of the lambda expression. -/
def demoSpawn : Sx := l [l [s 0x10F, l [v 0, v 1], l [s 0x20011, v 0, v 1], s 0], l [s 0x100, n 5], l [s 0x100, n 6]]
/-- `(lambda (x) x)` -/
def demoId : Sx := l [s 0x10F, l [v 0], v 0, s 0]
/-- `(lambda () (rest-args))` -/
def demoRest : Sx := l [s 0x10F, s 0, l [s 0x30015], s 0]

end

theorem load_globals (x : Sx) : ∀ s : St, (load x s).1.globals = s.globals := by
  induction x with
  | a v => exact fun s => rfl
  | c x y ihx ihy => exact fun s => by simp only [load, St.cons]; rw [ihy, ihx]

/-- Example: the call of a closure with two parameters meets the hypotheses; its value is a pair. -/
example : ∃ s' a, Allocated (evaluates (load demoSpawn st0).1 .nil (load demoSpawn st0).2) ∧ (load demoSpawn st0).1.atomic = false ∧
    IsCall (load demoSpawn st0).1 (load demoSpawn st0).2 8 [.atom 5, .atom 6] ∧ Arity (load demoSpawn st0).1 8 2 ∧
    Ev cellPrims false (load demoSpawn st0).1 none (.exp .nil (load demoSpawn st0).2) s' none (.ok (.cons a)) ∧ s'.car a = .atom 5 ∧ s'.cdr a = .atom 6 := by
  let s1 := (allocBinding (load demoSpawn st0).1 (.sym 262144) (.atom 5) .nil).1
  let s2 := (allocBinding s1 (.sym 262145) (.atom 6) (.cons 17)).1
  have hr : (match run cellPrims false 60 s2 none (.exp (.cons 19) (.cons 4)) with
      | some (s, none, .cons a) => decide (s.car a = .atom 5 ∧ s.cdr a = .atom 6)
      | _ => false) = true := by decide +kernel
  split at hr
  rotate_left
  · cases hr
  rename_i s' a he
  have hr := of_decide_eq_true hr
  refine ⟨s', a, ?_, rfl, ⟨15, rfl, rfl, rfl, 14, 10, 9, rfl, rfl, rfl, rfl, rfl, 13, 12, 11, rfl, rfl, rfl, rfl, rfl, rfl⟩, ⟨[.sym 262144, .sym 262145], ⟨1, rfl, rfl, 0, rfl, rfl, rfl⟩, rfl⟩, ?_, hr.1, hr.2⟩
  · refine allocated_of_check ?_ (by decide +kernel) (fun v hv => by simp [evaluates] at hv) (fun n => ?_)
    · exact (by decide +kernel : ∀ a, a < 16 → ((load demoSpawn st0).1.car a).below 16 = true ∧ ((load demoSpawn st0).1.cdr a).below 16 = true)
    · rw [show (evaluates (load demoSpawn st0).1 .nil (load demoSpawn st0).2).st.globals = (load demoSpawn st0).1.globals from rfl, load_globals]
      rfl
  · exact .app rfl (.sub_ok (.fnval ⟨8, rfl, rfl⟩ (Or.inr (Or.inr rfl))) (.start_clo rfl (by decide +kernel) (by decide +kernel) rfl rfl
      (.sub_ok (.quote ⟨10, rfl, rfl⟩ rfl) (.pars_more (s1 := s1) rfl rfl rfl (by decide +kernel) (by decide +kernel) rfl rfl
        (.sub_ok (.quote ⟨12, rfl, rfl⟩ rfl) (.pars_last (s1 := s2) rfl rfl rfl (run_sound _ _ _ _ _ _ _ _ _ he)))))))

/-- C96, what does not hold: with an argument too few, the process is made, and its parameter has whatever value is in the word above the stack; the call is an error. -/
theorem C96_missing_argument_violated (k : Nat) : ∃ s f, Arity s f 1 ∧
    (∃ n s1, steps none P0 n (.next ((spawn s f [] (.atom k) 0).2.mach (spawn s f [] (.atom k) 0).1)) = .fin s1 (.atom k) true) ∧
    ∃ e n s1, IsCall s e f [] ∧ steps none P0 n (.next (evaluates s .nil e)) = .fin s1 .eerror false :=
  ⟨(load (Sx.l [demoId]) st0).1, 4, ⟨[.sym 262144], ⟨0, rfl, rfl, rfl⟩, rfl⟩, ⟨2, _, rfl⟩, .cons 5, 3, _, ⟨5, rfl, rfl, rfl, rfl⟩, rfl⟩

/-- C96, what does not hold: arguments for which there are no parameters are lost, while a call binds them to `rest-args`. -/
theorem C96_rest_args_violated (k : Nat) : ∃ s f, (∃ n s1, steps none P0 n (.next ((spawn s f [.atom k] .nil 0).2.mach (spawn s f [.atom k] .nil 0).1)) = .fin s1 .nil true) ∧
    ∃ e n s1 a, IsCall s e f [.atom k] ∧ steps none P0 n (.next (evaluates s .nil e)) = .fin s1 (.cons a) true ∧ s1.car a = .atom k :=
  ⟨(load (Sx.l [demoRest, Sx.l [Sx.s 0x100, Sx.n k]]) st0).1, 4, ⟨4, _, rfl⟩, .cons 8, 10, _, 11, ⟨8, rfl, rfl, rfl, 7, 6, 5, rfl, rfl, rfl, rfl, rfl, rfl⟩, rfl, rfl⟩

end Verif.Eval
