import Verif.Eval.Program

/-!
# C97: eval-program evaluates the expressions of a program

`Seq` and `SeqIn` in `Verif.Eval.Program`, the semantics `Ev` in `Verif.Eval.Spec`, `Sound` and `Local` in `Verif.Eval.OwnProps` and `Verif.Eval.Own`.
-/

namespace Verif.Eval

variable {P : Prims}

/-- `(eval-program p)` and `(eval-program env p)`: if the semantics gives the expressions of the program values, one after the other, then the machine comes to the point
where it hands the value of the last one to the stack of the call, and the program that the context was running is what it was. Nothing that these
expressions do can change the program. Partial: the values are those of `Ev P false` (see C39); all but the first expression are evaluated without local variables; errors are not covered (see below). -/
theorem C97_eval_program_partial (hP : Local P) {m : M} (hm : Sound m) (ht : flagTrap m.flags = false) (hc : flagConst m.flags = false) {cenv env p : V} {args : List V} {K : List W}
    (hcall : m.evalProgram? = some (cenv, args, K)) (hargs : (args = [p] ∧ env = cenv) ∨ args = [env, p]) {es : List V} (hes : es ≠ []) (hl : ListOf m.st p es)
    {s' : St} {v : V} (h : Seq P (newProgram m.st es m.program).1 env es s' v) :
    ∃ n x env', stepsP none P n (.next m) = .next ⟨K, v, x, env', true, m.flags, m.program, s'⟩ := by
  have hm' := hm.away
  -- the arguments and the environment are on the stack
  have hK : (∀ x ∈ args, Away m.lost m.st.next x) ∧ Away m.lost m.st.next cenv := by
    unfold M.evalProgram? at hcall
    split at hcall
    case isFalse => cases hcall
    split at hcall
    case h_2 => cases hcall
    rename_i c rest env0 K0 hK0
    split at hcall
    case isTrue => cases hcall
    split at hcall
    case h_2 => cases hcall
    rename_i args0 hpop
    split at hcall
    case isFalse => cases hcall
    simp only [Option.some.injEq, Prod.mk.injEq] at hcall
    obtain ⟨rfl, rfl, rfl⟩ := hcall
    have hKK := hm'.K
    rw [hK0] at hKK
    refine ⟨fun x hx => ?_, hKK _ (by simp)⟩
    have pv : ∀ (L : List W) (vs : List V), popVals L = some vs → ∀ x ∈ vs, .v x ∈ L := by
      intro L
      induction L with
      | nil => intro vs hv x hx; simp [popVals] at hv; subst hv; cases hx
      | cons w L ih =>
        intro vs hv x hx
        cases w with
        | v y =>
          simp only [popVals, Option.map_eq_some_iff] at hv
          obtain ⟨vs', hv, rfl⟩ := hv
          rcases List.mem_cons.1 hx with rfl | hx
          · simp
          · exact List.mem_cons_of_mem _ (ih vs' hv x hx)
        | _ => simp [popVals] at hv
    rw [Option.map_eq_some_iff] at hpop
    obtain ⟨vs, hv, hrev⟩ := hpop
    have hx' : x ∈ vs := by rw [← List.mem_reverse, hrev]; exact List.mem_cons_of_mem _ hx
    have := List.mem_of_mem_take (pv _ _ hv x hx')
    rcases List.mem_cons.1 this with e | e
    · cases e; exact hm'.r
    · exact hKK _ (by simp [e])
  have henv : Away m.lost m.st.next env := by
    rcases hargs with ⟨_, rfl⟩ | rfl
    · exact hK.2
    · exact hK.1 _ (by simp)
  have hp : Away m.lost m.st.next p := by rcases hargs with ⟨rfl, _⟩ | rfl <;> exact hK.1 _ (by simp)
  obtain ⟨hmore, hprog⟩ := newProgram_spec m.st es m.program
  have hN := apart_more hm'.st hmore
  have hw : ∀ {x : V}, Away m.lost m.st.next x → Away (fun a => m.lost a ∨ (m.st.next ≤ a ∧ a < (newProgram m.st es m.program).1.next)) (newProgram m.st es m.program).1.next x :=
    fun hx a e => ⟨by rintro (h1 | ⟨h1, _⟩); exact (hx a e).1 h1; exact absurd (hx a e).2 (by omega), Nat.lt_of_lt_of_le (hx a e).2 hmore.next⟩
  obtain ⟨e0, es', rfl⟩ : ∃ e0 es', es = e0 :: es' := by cases es with | nil => exact absurd rfl hes | cons a l => exact ⟨a, l, rfl⟩
  have hprog' := hprog.mono (N' := fun a => m.lost a ∨ (m.st.next ≤ a ∧ a < (newProgram m.st (e0 :: es') m.program).1.next)) fun _ h => Or.inr h
  obtain ⟨a, hla, hNa, hcar, hrest⟩ := hprog'
  obtain ⟨n, x, env', hn⟩ := seq_runs hP m.flags ht hc K h hN (hw henv) (fun e he => hw (listOf_away hm'.st hp hl e he)) rfl hrest m.r
  refine ⟨1 + n, x, env', ?_⟩
  rw [stepsP_add, ← hn]
  congr 1
  have hel := elems_of_list hm'.st hp hl
  simp only [stepsP, stepP, hcall]
  rcases hargs with ⟨rfl, rfl⟩ | rfl <;> simp only [applyEvalProgram, hel, reserve, Option.all_none, if_true, M.go, hla, St.tl, St.hd, hcar, List.cons_append, List.nil_append]

/-! ## Examples and violations -/

section
open Sx

/-- `(+ 1 (eval-program '((define x 5) (+ x 1))))` -/
def demoProg : Sx := l [s 0x20000, n 1, l [s 0x30009, l [s 0x100, l [l [s 0x101, v 0, n 5], l [s 0x20000, v 0, n 1]]]]]
/-- `(let ((x k)) (eval-program '(x x)))` -/
def demoProgEnv (k : Nat) : Sx := l [s 0x105, l [l [v 0, n k]], l [s 0x30009, l [s 0x100, l [v 0, v 0]]]]
/-- `(trap (eval-program '((exit-error 1) 2)))`; `error` is the name in the model of the operation of `exit-error` -/
def demoProgErr (k : Nat) : Sx := l [s 0x116, l [s 0x30009, l [s 0x100, l [l [s 0x3000C, n k], n 2]]]]
/-- `(call-cc (lambda (j) (progn (define j j) (eval-program '((j 1) 2)))))` -/
def demoProgEsc (k : Nat) : Sx := l [s 0x10B, l [s 0x103, l [v 3], l [s 0x102, l [s 0x101, v 3, v 3], l [s 0x30009, l [s 0x100, l [l [v 3, n k], n 2]]]]]]

end

/-- Is `v` the list of these values? -/
def listOfB (s : St) : V → List V → Bool
  | v, [] => decide (v = .nil)
  | .cons a, x :: l => decide (s.car a = x) && listOfB s (s.cdr a) l
  | _, _ :: _ => false

theorem listOfB_sound {s : St} : ∀ {l : List V} {v : V}, listOfB s v l = true → ListOf s v l
  | [], v, h => by simp only [listOfB, decide_eq_true_eq] at h; exact h
  | x :: l, v, h => by
    cases v with
    | cons a =>
      simp only [listOfB, Bool.and_eq_true] at h
      exact ⟨a, rfl, of_decide_eq_true h.1, listOfB_sound h.2⟩
    | _ => cases h

/-- The check of the examples below: a call of `eval-program` with two expressions; they have values, the second one in the environment `env2` the value `n`. -/
def progCheck (env2 : V → V) (n : Nat) (m : M) : Bool :=
  match m.evalProgram? with
  | some (cenv, [p], _ :: _) =>
    match elems m.st 10 p with
    | some [e1, e2] =>
      match run cellPrims false 60 (newProgram m.st [e1, e2] m.program).1 none (.exp cenv e1) with
      | some (s1, none, _) =>
        match run cellPrims false 60 s1 none (.exp (env2 cenv) e2) with
        | some (_, none, .atom n') => decide (m.flags = 0) && listOfB m.st p [e1, e2] && decide (n = n')
        | _ => false
      | _ => false
    | _ => false
  | _ => false

theorem progCheck_sound {env2 : V → V} {n : Nat} {m : M} (hck : progCheck env2 n m = true) : ∃ cenv p K e1 e2 s1 v1 s', m.flags = 0 ∧ m.evalProgram? = some (cenv, [p], K) ∧ K ≠ [] ∧ ListOf m.st p [e1, e2] ∧
    Ev cellPrims false (newProgram m.st [e1, e2] m.program).1 none (.exp cenv e1) s1 none (.ok v1) ∧ Ev cellPrims false s1 none (.exp (env2 cenv) e2) s' none (.ok (.atom n)) := by
  unfold progCheck at hck
  split at hck
  case h_2 => cases hck
  rename_i cenv p w K hcall
  split at hck
  case h_2 => cases hck
  rename_i e1 e2 hel
  split at hck
  case h_2 => cases hck
  rename_i s1 v1 hr1
  split at hck
  case h_2 => cases hck
  rename_i s' n' hr2
  simp only [Bool.and_eq_true, decide_eq_true_eq] at hck
  obtain ⟨⟨hf, hl⟩, rfl⟩ := hck
  exact ⟨cenv, p, w :: K, e1, e2, s1, v1, s', hf, hcall, by simp, listOfB_sound hl, run_sound _ _ _ _ _ _ _ _ _ hr1, run_sound _ _ _ _ _ _ _ _ _ hr2⟩

/-- Example: the call in the middle of `(+ 1 (eval-program '((define x 5) (+ x 1))))` meets the hypotheses; its value is 6. -/
example : ∃ m cenv p K e1 e2 s', steps none cellPrims 9 (boot 0 demoProg) = .next m ∧ Sound m ∧ flagTrap m.flags = false ∧ flagConst m.flags = false ∧
    m.evalProgram? = some (cenv, [p], K) ∧ K ≠ [] ∧ ListOf m.st p [e1, e2] ∧ Seq cellPrims (newProgram m.st [e1, e2] m.program).1 cenv [e1, e2] s' (.atom 6) := by
  have hck : (match steps none cellPrims 9 (boot 0 demoProg) with
    | .next m => progCheck (fun _ => .nil) 6 m
    | _ => false) = true := by decide +kernel
  have hs := fine_steps (sz := none) cellPrims_local 9 (s0 := (load demoProg st0).1) (o := boot 0 demoProg)
    (by
      obtain ⟨a1, a2, a3⟩ := load_apart demoProg st0 (by decide) st0_apart
      exact ⟨ready_away a1 a2, kept_refl _⟩)
  split at hck
  case h_2 => cases hck
  rename_i m hm
  rw [hm] at hs
  obtain ⟨cenv, p, K, e1, e2, s1, v1, s', hf, h1, h2, h3, h4, h5⟩ := progCheck_sound hck
  exact ⟨m, cenv, p, K, e1, e2, s', hm, hs.1.sound, by rw [hf]; rfl, by rw [hf]; rfl, h1, h2, h3, .more h4 (.one h5)⟩

/-- C97, what does not hold: all expressions of the program are evaluated in the environment of the call. `(let ((x 3)) (eval-program '(x x)))`: the expressions have the value 3 there,
but the context ends with the error that `x` is not bound. -/
theorem C97_environment_violated : ∃ n m cenv p K es s', stepsP none cellPrims n (boot 0 (demoProgEnv 3)) = .next m ∧ m.evalProgram? = some (cenv, [p], K) ∧ ListOf m.st p es ∧
    SeqIn cellPrims cenv (newProgram m.st es m.program).1 es s' (.atom 3) ∧ ∃ n' s1, stepsP none cellPrims n' (.next m) = .fin s1 .notFound false := by
  have hck : (match stepsP none cellPrims 7 (boot 0 (demoProgEnv 3)) with
    | .next m => progCheck id 3 m && (match stepsP none cellPrims 4 (.next m) with
      | .fin _ v ok => decide (v = .notFound) && !ok
      | _ => false)
    | _ => false) = true := by decide +kernel
  split at hck
  case h_2 => cases hck
  rename_i m hm
  rw [Bool.and_eq_true] at hck
  obtain ⟨cenv, p, K, e1, e2, s1, v1, s', hf, h1, h2, h3, h4, h5⟩ := progCheck_sound hck.1
  refine ⟨7, m, cenv, p, K, [e1, e2], s', hm, h1, h3, .more h4 (.one h5), 4, ?_⟩
  have hck := hck.2
  split at hck
  case h_2 => cases hck
  rename_i s2 v ok he
  simp only [Bool.and_eq_true, decide_eq_true_eq, Bool.not_eq_true'] at hck
  obtain ⟨rfl, rfl⟩ := hck
  exact ⟨s2, he⟩

theorem isUb_eq {o : Out} (h : o.isUb = true) : o = .ub := by cases o <;> first | rfl | cases h

/-- C97, what does not hold: after an error in the program, which is handled, the program that the context was running goes on. `(trap (eval-program '((exit-error 3) 2)))`: the rest of
the inner program is evaluated after the outer one; then `(app-cont)` takes the last continuation from the stack, and the next step reads below the start of the stack. -/
theorem C97_error_violated : ∃ n, stepsP none cellPrims n (boot 0 (demoProgErr 3)) = .ub := ⟨17, isUb_eq (by decide +kernel)⟩

/-- C97, what does not hold: the same when the program is left through a continuation that was captured outside of it. -/
theorem C97_escape_violated : ∃ n, stepsP none cellPrims n (boot 0 (demoProgEsc 1)) = .ub := ⟨24, isUb_eq (by decide +kernel)⟩

end Verif.Eval
