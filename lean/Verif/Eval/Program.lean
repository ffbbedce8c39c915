import Verif.Eval.SpawnProps
import Verif.Eval.OwnProps

/-!
# eval-program

`apply_eval_program`, `src/eval_cps.c:2567-2597`, `lbm_list_copy` and `lbm_list_append`, `src/heap.c:1124-1170`, on top of the machine of `Verif.Eval.Model`.

Simplifications: cells are always available; the new cells are taken from the heap in another order than in the code.
-/

namespace Verif.Eval

/-- The elements of the list that is copied, `lbm_list_copy`, `src/heap.c:1124-1148`; `none` if the list is cyclic. What is not a list has no elements. -/
def elems (s : St) : Nat → V → Option (List V)
  | 0, _ => none
  | f + 1, .cons a => (elems s f (s.cdr a)).map (s.car a :: ·)
  | _ + 1, _ => some []

/-- New cells for the values `es`, in front of `t`. -/
def consAll : List V → V → St → St × V
  | [], t, s => (s, t)
  | e :: es, t, s => let (s1, l) := consAll es t s; s1.cons e l

/-- The new program: the expressions `es`, then `(app-cont)`, then what was left of the program of the context. Lines 2581-2588. -/
def newProgram (s : St) (es : List V) (prog : V) : St × V :=
  let (s1, ac) := s.cons (.sym 0x111) .nil
  let (s2, t) := s1.cons ac prog
  consAll es t s2

/-- `apply_eval_program`, `src/eval_cps.c:2567-2597`. `K` is the stack without the arguments. -/
def applyEvalProgram (sz : Option Nat) (m : M) (args : List V) (K : List W) : Out :=
  let run (m : M) (p : V) : Out :=
    match elems m.st (m.st.next + 1) p with
    | none => .ub
    | some es =>
      let (s, l) := newProgram m.st es m.program
      reserve sz { m with st := s, K := K } [.k 0] fun m1 => { m1 with program := s.tl l }.go (s.hd l) m1.env
  match args with
  | [p] => run m p
  | [env, p] => run { m with env := env } p
  | _ => raise m .eerror

/-- Is this the application of `eval-program` (`SYM_EVAL_PROGRAM`, `include/lbm_defines.h`)? The environment of the call, the arguments, and the stack without them.
`cont_application_args` and `application`, `src/eval_cps.c:3192-3216` and 3051-3105. -/
def M.evalProgram? (m : M) : Option (V × List V × List W) :=
  if m.app then
    match m.K with
    | .k 5 :: .v (.u c) :: .v rest :: .v env :: K =>
      if rest.isCons then none
      else
        match (popVals ((.v m.r :: K).take (c + 1))).map List.reverse with
        | some (.sym 0x30009 :: args) => if args.length = c then some (env, args, (.v m.r :: K).drop (c + 1)) else none
        | _ => none
    | _ => none
  else none

/-- A step of the machine with `eval-program`. -/
def stepP (sz : Option Nat) (P : Prims) (m : M) : Out :=
  match m.evalProgram? with
  | some (env, args, K) => applyEvalProgram sz { m with K := .v m.r :: m.K.drop 4, env := env, app := false } args K
  | none => step sz P m

/-- `n` steps. -/
def stepsP (sz : Option Nat) (P : Prims) : Nat → Out → Out
  | 0, o => o
  | n + 1, .next m => stepsP sz P n (stepP sz P m)
  | _ + 1, o => o

/-! ## Specification -/

/-- The expressions are evaluated one after the other, the first in `env`, the others without local variables. The value is that of the last one. -/
inductive Seq (P : Prims) : St → V → List V → St → V → Prop
  | one {s env e s' v} : Ev P false s none (.exp env e) s' none (.ok v) → Seq P s env [e] s' v
  | more {s env e s1 v1 e2 es s' v} : Ev P false s none (.exp env e) s1 none (.ok v1) → Seq P s1 .nil (e2 :: es) s' v → Seq P s env (e :: e2 :: es) s' v

/-- The same with all of the expressions in `env`. -/
inductive SeqIn (P : Prims) (env : V) : St → List V → St → V → Prop
  | one {s e s' v} : Ev P false s none (.exp env e) s' none (.ok v) → SeqIn P env s [e] s' v
  | more {s e s1 v1 e2 es s' v} : Ev P false s none (.exp env e) s1 none (.ok v1) → SeqIn P env s1 (e2 :: es) s' v → SeqIn P env s (e :: e2 :: es) s' v

/-! ## Proofs -/

variable {P : Prims} {sz : Option Nat}

theorem evalProgram_out {m : M} {x : V × List V × List W} (h : m.evalProgram? = some x) : step sz P m = .out := by
  unfold M.evalProgram? at h
  split at h
  case isFalse => cases h
  rename_i ha
  split at h
  case h_2 => cases h
  rename_i c rest env K hK
  split at h
  case isTrue => cases h
  rename_i hr
  split at h
  case h_2 => cases h
  rename_i args hp
  split at h
  case isFalse => cases h
  rename_i hl
  have hr' : ∀ a, rest ≠ .cons a := by rintro a rfl; exact hr rfl
  simp only [step, ha, if_true, hK, runCont, contArgs]
  simp only [application]
  rw [hp]
  simp [hl]

theorem stepP_step {m : M} (h : step sz P m ≠ .out) : stepP sz P m = step sz P m := by
  unfold stepP
  split
  · rename_i e; exact absurd (evalProgram_out e) h
  · rfl

theorem steps_none : ∀ n, steps sz P n .out = .out
  | 0 => rfl
  | _ + 1 => rfl

theorem stepsP_steps : ∀ (n : Nat) {o : Out}, steps sz P n o ≠ .out → stepsP sz P n o = steps sz P n o
  | 0, _, _ => rfl
  | n + 1, .next m, h => by
    simp only [steps] at h
    have h1 : step sz P m ≠ .out := fun e => h (by rw [e, steps_none])
    simp only [stepsP, steps]
    rw [stepP_step h1]
    exact stepsP_steps n h
  | _ + 1, .fin .., _ => rfl
  | _ + 1, .ub, _ => rfl
  | _ + 1, .out, _ => rfl

theorem stepsP_add : ∀ (n k : Nat) (o : Out), stepsP sz P (n + k) o = stepsP sz P k (stepsP sz P n o)
  | 0, k, o => by rw [Nat.zero_add]; rfl
  | n + 1, k, .next x => by
    rw [show n + 1 + k = (n + k) + 1 by omega]
    exact stepsP_add n k _
  | n + 1, 0, .fin .. => rfl
  | n + 1, 0, .ub => rfl
  | n + 1, 0, .out => rfl
  | n + 1, k + 1, .fin .. => rfl
  | n + 1, k + 1, .ub => rfl
  | n + 1, k + 1, .out => rfl

/-! ### The elements of a list -/

theorem listOf_unique {s : St} : ∀ {l l' : List V} {v : V}, ListOf s v l → ListOf s v l' → l = l'
  | [], [], _, _, _ => rfl
  | [], _ :: _, _, h, h' => by obtain ⟨a, e, _⟩ := h'; rw [show _ = V.nil from h] at e; cases e
  | _ :: _, [], _, h, h' => by obtain ⟨a, e, _⟩ := h; rw [show _ = V.nil from h'] at e; cases e
  | x :: l, y :: l', _, h, h' => by
    obtain ⟨a, rfl, h1, h2⟩ := h
    obtain ⟨b, e, h3, h4⟩ := h'
    cases e
    rw [← h1, ← h3, listOf_unique h2 h4]

theorem listOf_elems {s : St} : ∀ {l : List V} {v : V} {f : Nat}, ListOf s v l → l.length < f → elems s f v = some l
  | [], _, f + 1, h, _ => by rw [show _ = V.nil from h]; rfl
  | x :: l, _, f + 1, h, hf => by
    obtain ⟨a, rfl, h1, h2⟩ := h
    simp only [List.length_cons] at hf
    simp only [elems, listOf_elems h2 (show l.length < f by omega), Option.map_some, h1]

/-- The cells of a list. -/
theorem listOf_cells {s : St} {S : Nat → Prop} (hS : ∀ a b, S a → s.cdr a = .cons b → S b) : ∀ {l : List V} {v : V}, ListOf s v l → (∀ a, v = .cons a → S a) →
    ∃ cs : List Nat, cs.length = l.length ∧ cs.Nodup ∧ (∀ c ∈ cs, S c) ∧ ∀ c ∈ cs, ∃ l', ListOf s (.cons c) l' ∧ l'.length ≤ l.length
  | [], _, _, _ => ⟨[], rfl, List.nodup_nil, by simp, by simp⟩
  | x :: l, _, h, hv => by
    have h0 := h
    obtain ⟨a, rfl, h1, h2⟩ := h
    have ha := hv a rfl
    obtain ⟨cs, c1, c2, c3, c4⟩ := listOf_cells hS h2 (fun b e => hS a b ha e)
    refine ⟨a :: cs, by simp [c1], List.nodup_cons.2 ⟨fun hm => ?_, c2⟩, by simp [ha]; exact c3, ?_⟩
    · obtain ⟨l', d1, d2⟩ := c4 a hm
      have := listOf_unique h0 d1
      rw [← this] at d2
      simp only [List.length_cons] at d2
      omega
    · intro c hc
      rcases List.mem_cons.1 hc with rfl | hc
      · exact ⟨_, h0, Nat.le_refl _⟩
      · obtain ⟨l', d1, d2⟩ := c4 c hc
        exact ⟨l', d1, by simp only [List.length_cons]; omega⟩

theorem elems_of_list {N : Nat → Prop} {s : St} (hs : Apart N s) {p : V} (hp : Away N s.next p) {es : List V} (h : ListOf s p es) :
    elems s (s.next + 1) p = some es := by
  obtain ⟨cs, c1, c2, c3, _⟩ := listOf_cells (S := fun a => ¬ N a ∧ a < s.next) (fun a b ha e => (hs.cells a ha.2 ha.1).2 b e) h hp
  have := List.Nodup.length_le_of_subset c2 (l₂ := List.range s.next) (fun i hi => List.mem_range.2 (c3 i hi).2)
  simp only [List.length_range] at this
  exact listOf_elems h (by omega)

theorem listOf_away {N : Nat → Prop} {s : St} (hs : Apart N s) : ∀ {es : List V} {p : V}, Away N s.next p → ListOf s p es → ∀ e ∈ es, Away N s.next e
  | [], _, _, _, e, he => by cases he
  | x :: l, _, hp, h, e, he => by
    obtain ⟨a, rfl, h1, h2⟩ := h
    obtain ⟨hn, hk⟩ := hp a rfl
    have hc := hs.cells a hk hn
    rcases List.mem_cons.1 he with rfl | he
    · rw [← h1]; exact hc.1
    · exact listOf_away hs hc.2 h2 e he

/-! ### The new cells -/

/-- `s'` is `s` with more cells. -/
structure More (s s' : St) : Prop where
  next : s.next ≤ s'.next
  car : ∀ a, a < s.next → s'.car a = s.car a
  cdr : ∀ a, a < s.next → s'.cdr a = s.cdr a
  globals : s'.globals = s.globals
  konts : s'.konts = s.konts

theorem more_cons (s : St) (x y : V) : More s (s.cons x y).1 :=
  ⟨Nat.le_succ _, fun _ h => (cons_keeps h x y).1, fun _ h => (cons_keeps h x y).2, rfl, rfl⟩

theorem More.trans {s s1 s2 : St} (h : More s s1) (h' : More s1 s2) : More s s2 :=
  ⟨Nat.le_trans h.next h'.next, fun a ha => (h'.car a (Nat.lt_of_lt_of_le ha h.next)).trans (h.car a ha), fun a ha => (h'.cdr a (Nat.lt_of_lt_of_le ha h.next)).trans (h.cdr a ha),
    h'.globals.trans h.globals, h'.konts.trans h.konts⟩

theorem apart_more {N : Nat → Prop} {s s' : St} (h : Apart N s) (hm : More s s') : Apart (fun a => N a ∨ (s.next ≤ a ∧ a < s'.next)) s' := by
  have hv : ∀ {v : V}, Away N s.next v → Away (fun a => N a ∨ (s.next ≤ a ∧ a < s'.next)) s'.next v := fun hv a e =>
    ⟨by rintro (h1 | ⟨h1, _⟩); exact (hv a e).1 h1; exact absurd (hv a e).2 (by omega), Nat.lt_of_lt_of_le (hv a e).2 hm.next⟩
  refine ⟨fun a ha hn => ?_, fun n => ?_, fun k v hk => ?_, fun a ha => ?_⟩
  · have : a < s.next := Nat.lt_of_not_le fun h' => hn (Or.inr ⟨h', ha⟩)
    have := h.cells a this fun h' => hn (Or.inl h')
    rw [hm.car a (by assumption), hm.cdr a (by assumption)]
    exact ⟨hv this.1, hv this.2⟩
  · rw [hm.globals]; exact hv (h.globals n)
  · rw [hm.konts] at hk; exact hv (h.konts k v hk)
  · rcases ha with ha | ha
    · exact Nat.lt_of_lt_of_le (h.old a ha) hm.next
    · exact ha.2

/-- The program in the store `s`: the expressions, in cells of `N`, then `(app-cont)`, then `prog`. -/
def ProgramIn (N : Nat → Prop) (s : St) (prog : V) : V → List V → Prop
  | v, [] => ∃ a b, v = .cons a ∧ N a ∧ N b ∧ s.car a = .cons b ∧ s.car b = .sym 0x111 ∧ s.cdr a = prog
  | v, e :: es => ∃ a, v = .cons a ∧ N a ∧ s.car a = e ∧ ProgramIn N s prog (s.cdr a) es

theorem ProgramIn.kept {N : Nat → Prop} {s s' : St} {prog : V} (hk : ∀ a, N a → s'.car a = s.car a ∧ s'.cdr a = s.cdr a) :
    ∀ {es : List V} {v : V}, ProgramIn N s prog v es → ProgramIn N s' prog v es
  | [], _, h => by
    obtain ⟨a, b, rfl, h1, h2, h3, h4, h5⟩ := h
    exact ⟨a, b, rfl, h1, h2, by rw [(hk a h1).1, h3], by rw [(hk b h2).1, h4], by rw [(hk a h1).2, h5]⟩
  | e :: es, _, h => by
    obtain ⟨a, rfl, h1, h2, h3⟩ := h
    exact ⟨a, rfl, h1, by rw [(hk a h1).1, h2], by rw [(hk a h1).2]; exact h3.kept hk⟩

theorem ProgramIn.mono {N N' : Nat → Prop} {s : St} {prog : V} (hk : ∀ a, N a → N' a) : ∀ {es : List V} {v : V}, ProgramIn N s prog v es → ProgramIn N' s prog v es
  | [], _, h => by
    obtain ⟨a, b, rfl, h1, h2, h3⟩ := h
    exact ⟨a, b, rfl, hk _ h1, hk _ h2, h3⟩
  | e :: es, _, h => by
    obtain ⟨a, rfl, h1, h2, h3⟩ := h
    exact ⟨a, rfl, hk _ h1, h2, h3.mono hk⟩

theorem consAll_spec {s0 : St} {prog t : V} : ∀ (es : List V) (s : St), s0.next ≤ s.next → ProgramIn (fun a => s0.next ≤ a ∧ a < s.next) s prog t [] →
    More s (consAll es t s).1 ∧ ProgramIn (fun a => s0.next ≤ a ∧ a < (consAll es t s).1.next) (consAll es t s).1 prog (consAll es t s).2 es
  | [], s, _, h => ⟨⟨Nat.le_refl _, fun _ _ => rfl, fun _ _ => rfl, rfl, rfl⟩, h⟩
  | e :: es, s, hs, h => by
    obtain ⟨h1, h2⟩ := consAll_spec es s hs h
    have hm := more_cons (consAll es t s).1 e (consAll es t s).2
    have hle := Nat.le_trans hs h1.next
    refine ⟨h1.trans hm, (consAll es t s).1.next, rfl, ⟨hle, Nat.lt_succ_self _⟩, by simp [consAll, St.cons], ?_⟩
    have e2 : (consAll (e :: es) t s).1.cdr (consAll es t s).1.next = (consAll es t s).2 := by simp [consAll, St.cons]
    rw [e2]
    refine (h2.kept (s' := (consAll (e :: es) t s).1) fun a ha => ⟨hm.car a ha.2, hm.cdr a ha.2⟩).mono fun a ha => ⟨ha.1, Nat.lt_of_lt_of_le ha.2 hm.next⟩

theorem newProgram_spec (s : St) (es : List V) (prog : V) :
    More s (newProgram s es prog).1 ∧ ProgramIn (fun a => s.next ≤ a ∧ a < (newProgram s es prog).1.next) (newProgram s es prog).1 prog (newProgram s es prog).2 es := by
  have m1 := more_cons s (.sym 0x111) .nil
  have m2 := more_cons (s.cons (.sym 0x111) .nil).1 (s.cons (.sym 0x111) .nil).2 prog
  have := consAll_spec (s0 := s) (prog := prog) (t := ((s.cons (.sym 0x111) .nil).1.cons (s.cons (.sym 0x111) .nil).2 prog).2) es
    ((s.cons (.sym 0x111) .nil).1.cons (s.cons (.sym 0x111) .nil).2 prog).1 (m1.trans m2).next
    ⟨s.next + 1, s.next, rfl, by simp [St.cons], by simp only [St.cons]; omega, by simp [St.cons], by simp [St.cons], by simp [St.cons]⟩
  exact ⟨(m1.trans m2).trans this.1, this.2⟩

/-! ### The expressions one after the other -/

theorem seq_runs (hP : Local P) {N : Nat → Prop} {prog : V} (fl : Nat) (ht : flagTrap fl = false) (hc : flagConst fl = false) (K : List W) :
    ∀ {es : List V} {s s' : St} {env v : V}, Seq P s env es s' v → Apart N s → Away N s.next env → (∀ e ∈ es, Away N s.next e) → ∀ {e0 : V} {es' : List V} {l : V}, es = e0 :: es' →
      ProgramIn N s prog l es' → ∀ r,
      ∃ n x env', stepsP none P n (.next ⟨.k 0 :: K, r, e0, env, false, fl, l, s⟩) = .next ⟨K, v, x, env', true, fl, prog, s'⟩ := by
  -- one expression: the cells of the program are kept
  have one : ∀ {s s' : St} {env e v : V}, Ev P false s none (.exp env e) s' none (.ok v) → Apart N s → Away N s.next env → Away N s.next e →
      Apart N s' ∧ Kept N s s' := by
    intro s s' env e v h ha henv he
    obtain ⟨n, x, env', hn⟩ := C39_value_partial h [] .nil 0 .nil rfl rfl
    have := fine_steps (N := N) (sz := none) hP n (s0 := s) (o := .next ⟨[], .nil, e, env, false, 0, .nil, s⟩)
      ⟨⟨ha, awayK_nil, away_sym _, he, henv, away_sym _⟩, kept_refl _⟩
    rw [hn] at this
    exact ⟨this.1.st, this.2⟩
  intro es s s' env v h
  induction h with
  | @one s env e s' v h =>
    intro ha henv hes e0 es' l he hl r
    cases he
    obtain ⟨n, x, env', hn⟩ := C39_value_partial h (.k 0 :: K) r fl l ht hc
    obtain ⟨ha', hk⟩ := one h ha henv (hes _ (by simp))
    obtain ⟨a, b, rfl, h1, h2, h3, h4, h5⟩ := hl.kept hk.1
    refine ⟨n + 2, .cons b, .nil, ?_⟩
    rw [stepsP_add, stepsP_steps n (by rw [hn]; simp), hn]
    have e2 : steps none P 2 (.next ⟨.k 0 :: K, v, x, env', true, fl, .cons a, s'⟩) = .next ⟨K, v, .cons b, .nil, true, fl, prog, s'⟩ := by
      simp [steps, step, runCont, contDone, reserve, M.go, h3, h4, h5, special, evalSpecial, evalAppCont]
    rw [stepsP_steps 2 (by rw [e2]; simp), e2]
  | @more s env e s1 v1 e2 es s' v h h' ih =>
    intro ha henv hes e0 es' l he hl r
    cases he
    obtain ⟨n, x, env', hn⟩ := C39_value_partial h (.k 0 :: K) r fl l ht hc
    obtain ⟨ha', hk⟩ := one h ha henv (hes _ (by simp))
    obtain ⟨a, rfl, h1, h2, h3⟩ := hl.kept hk.1
    obtain ⟨n2, x2, env2, hn2⟩ := ih ha' (away_sym _) (fun y hy => (hes y (List.mem_cons_of_mem _ hy)).le hk.2) rfl h3 v1
    refine ⟨n + (1 + n2), x2, env2, ?_⟩
    rw [stepsP_add, stepsP_steps n (by rw [hn]; simp), hn, stepsP_add]
    have e1 : steps none P 1 (.next ⟨.k 0 :: K, v1, x, env', true, fl, .cons a, s1⟩) = .next ⟨.k 0 :: K, v1, e2, .nil, false, fl, s1.cdr a, s1⟩ := by
      simp [steps, step, runCont, contDone, reserve, M.go, h2]
    rw [stepsP_steps 1 (by rw [e1]; simp), e1, hn2]

end Verif.Eval
