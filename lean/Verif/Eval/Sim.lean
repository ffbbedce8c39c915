import Verif.Eval.Spec

/-!
# The evaluator follows the semantics: proof
-/

namespace Verif.Eval

/-- The continuation code of a frame. -/
def Frame.code : Frame → Nat
  | .define _ => 1
  | .bind .. => 2
  | .ite .. => 3
  | .more .. => 4
  | .args .. => 5
  | .and .. => 6
  | .or .. => 7
  | .cases .. => 9
  | .start .. => 10
  | .evalR _ => 11
  | .pars .. => 13
  | .rest .. => 42
  | .var .. => 26
  | .setq .. => 27
  | .map .. => 23

/-- The words of a frame below its code. -/
def Frame.words : Frame → List W
  | .define n => [.v (.sym n)]
  | .bind body rs env key => [.v key, .v env, .v rs, .v body]
  | .ite env br => [.v env, .v br]
  | .more env c rs => [.v rs, .v (.u c), .v env]
  | .args env vals rs => .v (.u vals.length) :: .v rs :: .v env :: vals.map .v
  | .and env rs => [.v rs, .v env]
  | .or env rs => [.v rs, .v env]
  | .cases env pats => [.v env, .v pats]
  | .start env as => [.v as, .v env]
  | .evalR env => [.v env]
  | .pars aenv body cenv params as => [.v as, .v params, .v cenv, .v body, .v aenv]
  | .rest aenv body cenv last as => [.v last, .v as, .v cenv, .v body, .v aenv]
  | .var env key => [.v key, .v env]
  | .setq env key => [.v key, .v env]
  | .map env arg call last res ls => [.v arg, .v call, .v last, .v res, .v env, .v ls]

/-- The stack of an item of a `progn` whose other items are `rest`. -/
def frame : Scope → W → List W → List W
  | none, _, K => K
  | some (penv, c), rest, K => .k 4 :: rest :: .v (.u c) :: .v penv :: K

/-- No exception handler, no slot that was not written. -/
def clean (ws : List W) : Prop := ∀ w ∈ ws, w ≠ .k 45 ∧ w ≠ .junk

theorem clean_nil : clean [] := by intro w hw; cases hw

theorem clean_cons {w : W} {ws : List W} : clean (w :: ws) ↔ (w ≠ .k 45 ∧ w ≠ .junk) ∧ clean ws := by
  simp [clean]

theorem clean_append {a b : List W} : clean (a ++ b) ↔ clean a ∧ clean b := by
  simp only [clean, List.mem_append]
  constructor
  · intro h; exact ⟨fun w hw => h w (.inl hw), fun w hw => h w (.inr hw)⟩
  · rintro ⟨h1, h2⟩ w (hw | hw)
    · exact h1 w hw
    · exact h2 w hw

theorem clean_vals (l : List V) : clean (l.map .v) := by
  intro w hw
  obtain ⟨x, _, rfl⟩ := List.mem_map.1 hw
  exact ⟨by simp, by simp⟩

theorem clean_words (f : Frame) : clean (.k f.code :: f.words) := by
  cases f <;> simp [Frame.code, Frame.words, clean_cons, clean_nil, clean_vals]

section
variable (P : Prims)

/-- The evaluator starts with a task on the stack `K`. -/
def Starts (K : List W) (s : St) (fl : Nat) (prog : V) (o : Out) : Task → Prop
  | .exp env e => ∃ r, o = .next ⟨K, r, e, env, false, fl, prog, s⟩
  | .body env exps => ∃ r x, s.gcdr x = some exps ∧ o = evalProgn none ⟨K, r, x, env, false, fl, prog, s⟩
  | .letb env binds body => ∃ r x, o = letBind none ⟨K, r, x, env, false, fl, prog, s⟩ binds body
  | .sub f env e => ∃ r, o = .next ⟨.k f.code :: (f.words ++ K), r, e, env, false, fl, prog, s⟩
  | .k f v => ∃ x env, o = runCont none P f.code ⟨f.words ++ K, v, x, env, false, fl, prog, s⟩
  | .loop .. => False

/-- The evaluator reaches the stack `K` with a value, or raises an error above `K`. -/
def Ends (K : List W) (s : St) (fl : Nat) (prog : V) (o : Out) : Res → Prop
  | .ok v => ∃ n x env, steps none P n o = .next ⟨K, v, x, env, true, fl, prog, s⟩
  | .err e => ∃ n K' r x env app, steps none P n o = raise ⟨K' ++ K, r, x, env, app, fl, prog, s⟩ e ∧ clean K'

end

theorem steps_add (sz : Option Nat) (P : Prims) : ∀ (n m : Nat) (o : Out), steps sz P (n + m) o = steps sz P m (steps sz P n o)
  | 0, m, o => by rw [Nat.zero_add]; rfl
  | n + 1, m, .next x => by
    rw [show n + 1 + m = (n + m) + 1 by omega]
    exact steps_add sz P n m (step sz P x)
  | n + 1, m, .fin .. => by rw [show n + 1 + m = (n + m) + 1 by omega]; cases m <;> rfl
  | n + 1, m, .ub => by rw [show n + 1 + m = (n + m) + 1 by omega]; cases m <;> rfl
  | n + 1, m, .out => by rw [show n + 1 + m = (n + m) + 1 by omega]; cases m <;> rfl

section
variable {P : Prims} {K : List W} {s : St} {fl : Nat} {prog : V} {res : Res}

theorem Ends.of_steps {o o' : Out} (n : Nat) (h : steps none P n o = o') (e : Ends P K s fl prog o' res) : Ends P K s fl prog o res := by
  subst h
  cases res with
  | ok v =>
    obtain ⟨m, x, env, h⟩ := e
    exact ⟨n + m, x, env, by rw [steps_add]; exact h⟩
  | err v =>
    obtain ⟨m, K', r, x, env, app, h, hc⟩ := e
    exact ⟨n + m, K', r, x, env, app, by rw [steps_add]; exact h, hc⟩

theorem Ends.step {m : M} (e : Ends P K s fl prog (step none P m) res) : Ends P K s fl prog (.next m) res :=
  e.of_steps 1 rfl

theorem Ends.ret {v x env : V} : Ends P K s fl prog (.next ⟨K, v, x, env, true, fl, prog, s⟩) (.ok v) := ⟨0, x, env, rfl⟩

theorem Ends.raise (K' : List W) {r x env e : V} {app : Bool} (hc : clean K') :
    Ends P K s fl prog (raise ⟨K' ++ K, r, x, env, app, fl, prog, s⟩ e) (.err e) := ⟨0, K', r, x, env, app, rfl, hc⟩

/-- A value is passed to the frame below it. -/
theorem Ends.then_ {o : Out} {f : Frame} {K1 : List W} {s1 : St} {v : V} (e : Ends P (.k f.code :: (f.words ++ K1)) s1 fl prog o (.ok v))
    (h : ∀ x env, Ends P K s fl prog (runCont none P f.code ⟨f.words ++ K1, v, x, env, false, fl, prog, s1⟩) res) : Ends P K s fl prog o res := by
  obtain ⟨n, x, env, hn⟩ := e
  refine Ends.of_steps n hn (Ends.step ?_)
  exact h x env

/-- An error passes a frame. -/
theorem Ends.below {o : Out} {ws : List W} {e : V} (hw : clean ws) (h : Ends P (ws ++ K) s fl prog o (.err e)) : Ends P K s fl prog o (.err e) := by
  obtain ⟨n, K', r, x, env, app, hn, hc⟩ := h
  refine ⟨n, K' ++ ws, r, x, env, app, ?_, clean_append.2 ⟨hc, hw⟩⟩
  rw [hn, List.append_assoc]

end

theorem reserve_none (m : M) (ws : List W) (c : M → Out) : reserve none m ws c = c { m with K := ws ++ m.K } := by
  simp [reserve]

theorem step_form {P : Prims} {K r a env fl prog s n} (i : Nat) (h : St.isForm s a n) (hn : n = 256 + i) (hi : i < 256) :
    step none P ⟨K, r, a, env, false, fl, prog, s⟩ = evalSpecial none i ⟨K, r, a, env, false, fl, prog, s⟩ := by
  obtain ⟨a, rfl, ha⟩ := h
  have : special (s.car a) = some i := by
    rw [ha]
    simp only [special, hn]
    rw [if_pos (by omega)]
    congr 1
    omega
  simp [step, this]

theorem popVals_map (l : List V) : popVals (l.map .v) = some l := by
  induction l with
  | nil => rfl
  | cons x l ih => simp [popVals, ih]

/-- The function and the arguments are taken off the stack. -/
theorem application_eq {P : Prims} {m : M} {vals : List V} {v : V} {K : List W} {n : Nat} {args : List V} (hK : m.K = .v v :: (vals.map .v ++ K))
    (h : (v :: vals).reverse = .sym n :: args) :
    application none P m vals.length =
      if n / 0x10000 = 1 ∨ n / 0x10000 = 2 then
        match P.run n args m.env m.st with
        | .ok s v => { m with st := s, K := K }.ret v
        | .err s e => raise { m with st := s } e
      else if n = 0x30000 then applySetvar m args K
      else if n = 0x30008 then applyEval m args K
      else if n = 0x3000C then applyError m args
      else if n = 0x3000D then applyMap none m args K
      else if n = 0x30015 then applyRestArgs m args K
      else if n / 0x10000 = 3 then .out
      else raise m .eerror := by
  have e1 : m.K.take (vals.length + 1) = (v :: vals).map .v := by
    rw [hK]; simp
  have e2 : m.K.drop (vals.length + 1) = K := by
    rw [hK]; simp
  have e3 : args.length = vals.length := by
    have := congrArg List.length h
    simp at this
    omega
  rw [application.eq_def]
  simp only [e1, e2, popVals_map, Option.map_some, h, e3, ne_eq, not_true_eq_false, if_false]
  rfl

/-- When all arguments are evaluated the function is applied. -/
theorem contArgs_done {P : Prims} {env rest v x env' prog : V} {vals : List V} {K : List W} {fl : Nat} {s : St} (h : rest.isCons = false) :
    runCont none P (Frame.args env vals rest).code ⟨(Frame.args env vals rest).words ++ K, v, x, env', false, fl, prog, s⟩ =
      application none P ⟨.v v :: (vals.map .v ++ K), v, x, env, false, fl, prog, s⟩ vals.length := by
  cases rest <;> first | (simp [V.isCons] at h; done) | rfl

end Verif.Eval
