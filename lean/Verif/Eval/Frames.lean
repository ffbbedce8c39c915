import Verif.Eval.Program

/-!
# Frames

C107: every continuation finds on the stack what was pushed for it.
-/

namespace Verif.Eval

/-! ## Specification -/

/-- A stack made of whole frames: a continuation code and, below it, the words which that continuation takes from the stack. `DONE` is at the bottom. -/
inductive Framed : List W → Prop
  | done : Framed [.k 0]
  /-- the end of a program given to `eval-program` -/
  | ended {K} : Framed K → Framed (.k 0 :: K)
  /-- `define`: the name -/
  | define {n K} : Framed K → Framed (.k 1 :: .v (.sym n) :: K)
  /-- `let`: the name, the environment, the other bindings and the body -/
  | bind {key env rest body K} : Framed K → Framed (.k 2 :: .v key :: .v env :: .v rest :: .v body :: K)
  /-- `if`: the environment and the branches -/
  | ite {env br K} : Framed K → Framed (.k 3 :: .v env :: .v br :: K)
  /-- `progn`: the other expressions, at least one; whether the environment was copied; the environment -/
  | progn {a c env K} : Framed K → Framed (.k 4 :: .v (.cons a) :: .v (.u c) :: .v env :: K)
  /-- a call of a function given by a symbol: the number of words so far, the other arguments, the environment, and below them the values of the arguments so far (the last one
  first) and the function -/
  | args {rest env n K} {vs : List V} : Framed K → Framed (.k 5 :: .v (.u (vs.length + 1)) :: .v rest :: .v env :: (vs.map W.v ++ .v (.sym n) :: K))
  /-- `and`, `or`: the other expressions and the environment -/
  | conj {rest env K} : Framed K → Framed (.k 6 :: .v rest :: .v env :: K)
  | disj {rest env K} : Framed K → Framed (.k 7 :: .v rest :: .v env :: K)
  /-- `match`: the environment and the cases -/
  | matching {env pats K} : Framed K → Framed (.k 9 :: .v env :: .v pats :: K)
  /-- the guard of a case: the value, the body and its environment; the frame of `match` for the next cases is below -/
  | guard {e body env o pats K} : Framed K → Framed (.k 24 :: .v e :: .v body :: .v env :: .k 9 :: .v o :: .v pats :: K)
  /-- a call: the arguments and the environment -/
  | start {as env K} : Framed K → Framed (.k 10 :: .v as :: .v env :: K)
  /-- the result of a macro: the environment -/
  | expansion {env K} : Framed K → Framed (.k 11 :: .v env :: K)
  /-- a call of a closure: the other arguments and parameters, the environment so far, the body, the environment of the call -/
  | closure {as ps cenv body env K} : Framed K → Framed (.k 13 :: .v as :: .v ps :: .v cenv :: .v body :: .v env :: K)
  /-- more arguments than parameters -/
  | rest {last as cenv body env K} : Framed K → Framed (.k 42 :: .v last :: .v as :: .v cenv :: .v body :: .v env :: K)
  /-- the end of an atomic block -/
  | atomic {K} : Framed K → Framed (.k 14 :: K)
  /-- `map`: six words -/
  | map {arg appli t res env ls K} : Framed K → Framed (.k 23 :: .v arg :: .v appli :: .v t :: .v res :: .v env :: .v ls :: K)
  /-- `var`, `setq`: the name and the environment -/
  | var {key env K} : Framed K → Framed (.k 26 :: .v key :: .v env :: K)
  | setq {key env K} : Framed K → Framed (.k 27 :: .v key :: .v env :: K)
  /-- `loop`: the condition and the body -/
  | loop {cond body K} : Framed K → Framed (.k 38 :: .v cond :: .v body :: K)
  | loopCond {cond body K} : Framed K → Framed (.k 39 :: .v cond :: .v body :: K)
  /-- `trap`: the flags and the result -/
  | handler {f rv K} : Framed K → Framed (.k 45 :: .raw f :: .v rv :: K)

/-- The stack does not reach its end. -/
def Roomy (sz : Option Nat) (K : List W) : Prop := ∀ n, sz = some n → K.length < n

/-- All captured stacks are made of whole frames and fit. -/
def KontsOk (sz : Option Nat) (s : St) : Prop := ∀ i a K, s.konts i = a :: K → Framed K ∧ Roomy sz (a :: K)

/-- The stack of a context and all captured stacks are made of whole frames, and fit. -/
structure Inv (sz : Option Nat) (m : M) : Prop where
  framed : Framed m.K
  fits : Roomy sz m.K
  konts : KontsOk sz m.st

/-- The expression that is evaluated is a use of the internal form `[appcont]`, with which `eval-program` ends a program, at another place than the end of such a program. -/
def Stray (m : M) : Prop := m.app = false ∧ (∃ a, m.exp = .cons a ∧ special (m.st.car a) = some 17) ∧ ¬∃ K, m.K = .k 0 :: K ∧ K ≠ []

/-- Fundamental operations and extensions do not change captured stacks. -/
def KeepsKonts (P : Prims) : Prop := ∀ n args env s, match P.run n args env s with
  | .ok s' _ => s'.konts = s.konts
  | .err s' _ => s'.konts = s.konts

/-- What else can go wrong in a step. -/
inductive Fault (sz : Option Nat) (P : Prims) (m : M) : Prop
  /-- An environment is not a list of pairs that ends. -/
  | lookup {key env} : (env = m.env ∨ .v env ∈ m.K) → m.st.lookup key (m.st.next + 1) env = none → Fault sz P m
  | glookup {n} : m.exp = .sym n → m.st.glookup n = none → Fault sz P m
  | setvar {n v env} : (env = m.env ∨ .v env ∈ m.K) → m.st.setvar n v env = none → Fault sz P m
  | define {n} : m.st.define n m.r = none → Fault sz P m
  | copy {env} : .v env ∈ m.K → m.st.copySpine (m.st.next + 1) env = none → Fault sz P m
  | fill {key env} : .v key ∈ m.K → .v env ∈ m.K → m.st.fillLoc (m.st.next + 1) key m.r env = none → Fault sz P m
  /-- A list in the program or a pattern has no end. -/
  | len {l} : (l = m.st.hd (m.st.tl m.exp) ∨ .v l ∈ m.K) → m.st.len (m.st.next + 1) l = none → Fault sz P m
  | letLocs : letLocs m.st (m.st.next + 1) (m.st.hd (m.st.tl m.exp)) m.env = none → Fault sz P m
  | createLoc {s env} : (s = m.st ∨ ∃ e, .v e ∈ m.K ∧ m.st.copySpine (m.st.next + 1) e = some (s, env)) →
      St.createLoc (s.next + 1) s (s.hd (s.tl m.exp)) env = none → Fault sz P m
  | matchP {a env} : .v (.cons a) ∈ m.K → .v env ∈ m.K → m.st.matchP P.eq (m.st.next + 1) (m.st.hd (m.st.car a)) m.r env = none → Fault sz P m
  | macroEnv {as env} : .v as ∈ m.K → .v env ∈ m.K → m.st.macroEnv (m.st.next + 1) (m.st.hd (m.st.tl m.r)) as env = none → Fault sz P m
  /-- The program register is not a list. -/
  | program : m.program ≠ .nil → m.program.isCons = false → Fault sz P m
  /-- The argument of `eval-program` is a list without an end. -/
  | elems {p} : (p = m.r ∨ .v p ∈ m.K) → elems m.st (m.st.next + 1) p = none → Fault sz P m
  /-- A continuation that `call-cc` did not make. -/
  | cont {fa c} : m.r = .cons fa → m.st.cdr fa = .arr c → m.st.konts c = [] → Fault sz P m
  /-- An error is raised while words are reserved and not yet written. -/
  | stale {m1 e} : stepP sz P m = raise m1 e → .junk ∈ m1.K → Fault sz P m

/-! ## Proofs -/

/-- A stack with some words on top that are no continuation codes. -/
def Loose (K : List W) : Prop := ∃ ws K0, K = ws ++ K0 ∧ (∀ w ∈ ws, ∀ c, w ≠ .k c) ∧ Framed K0

theorem Framed.loose {K : List W} (h : Framed K) : Loose K := ⟨[], K, rfl, by simp, h⟩

theorem Loose.v {K : List W} (h : Loose K) (x : V) : Loose (.v x :: K) := by
  obtain ⟨ws, K0, rfl, h1, h2⟩ := h
  exact ⟨.v x :: ws, K0, rfl, by simpa using h1, h2⟩

theorem Loose.junk {K : List W} (h : Loose K) : Loose (.junk :: K) := by
  obtain ⟨ws, K0, rfl, h1, h2⟩ := h
  exact ⟨.junk :: ws, K0, rfl, by simpa using h1, h2⟩

theorem Loose.raw {K : List W} (h : Loose K) (f : Nat) : Loose (.raw f :: K) := by
  obtain ⟨ws, K0, rfl, h1, h2⟩ := h
  exact ⟨.raw f :: ws, K0, rfl, by simpa using h1, h2⟩

theorem Loose.vs {K : List W} (h : Loose K) (vs : List V) : Loose (vs.map W.v ++ K) := by
  induction vs with
  | nil => exact h
  | cons x vs ih => exact ih.v x

theorem Roomy.sub {sz : Option Nat} {K K' : List W} (h : Roomy sz K) (hl : K'.length ≤ K.length) : Roomy sz K' := fun n e => Nat.lt_of_le_of_lt hl (h n e)

/-- What a step from a good state may give: the fault `F` describes undefined behaviour. -/
def Whole (F : Prop) (sz : Option Nat) (o : Out) : Prop :=
  (∃ m', o = .next m' ∧ Inv sz m') ∨ (∃ s v b, o = .fin s v b) ∨ o = .out ∨ (o = .ub ∧ F) ∨
    ∃ m1 e, o = raise m1 e ∧ .junk ∈ m1.K ∧ Loose m1.K ∧ Roomy sz m1.K ∧ KontsOk sz m1.st

variable {F : Prop} {sz : Option Nat} {P : Prims}

theorem Whole.ub (h : F) : Whole F sz .ub := .inr (.inr (.inr (.inl ⟨rfl, h⟩)))
theorem Whole.out : Whole F sz .out := .inr (.inr (.inl rfl))
theorem Whole.fin (s : St) (v : V) (b : Bool) : Whole F sz (.fin s v b) := .inr (.inl ⟨_, _, _, rfl⟩)
theorem Whole.next {m : M} (h1 : Framed m.K) (h2 : Roomy sz m.K) (h3 : KontsOk sz m.st) : Whole F sz (.next m) := .inl ⟨m, rfl, h1, h2, h3⟩
theorem Whole.ret {m : M} {v : V} (h1 : Framed m.K) (h2 : Roomy sz m.K) (h3 : KontsOk sz m.st) : Whole F sz (m.ret v) := .next h1 h2 h3
theorem Whole.go {m : M} {e env : V} (h1 : Framed m.K) (h2 : Roomy sz m.K) (h3 : KontsOk sz m.st) : Whole F sz (m.go e env) := .next h1 h2 h3

theorem konts_setCar {s : St} {v x : V} : (s.setCar v x).konts = s.konts := by cases v <;> rfl
theorem konts_setCdr {s : St} {v x : V} : (s.setCdr v x).konts = s.konts := by cases v <;> rfl

/-- What `unwind` gives for a stack of frames. -/
def Unwound (m : M) (e : V) (K : List W) : Prop :=
  (∃ s v b, unwind m e K = .fin s v b) ∨
    ∃ K' f rv, unwind m e K = .next { m with K := K', app := true, r := e, st := m.st.setCar rv .exitError } ∧ Framed K' ∧ K'.length ≤ K.length ∧ f = rv

theorem unwind_v {m : M} {e : V} (ws : List W) (h : ∀ w ∈ ws, (∀ c, w ≠ .k c) ∧ w ≠ .junk) (K : List W) : unwind m e (ws ++ K) = unwind m e K := by
  induction ws with
  | nil => rfl
  | cons w ws ih =>
    have hw := h w (by simp)
    have := ih fun w' hw' => h w' (by simp [hw'])
    cases w with
    | k c => exact absurd rfl (hw.1 c)
    | junk => exact absurd rfl hw.2
    | v x => rw [List.cons_append]; exact this
    | raw f => rw [List.cons_append]; exact this

theorem Unwound.skip {m : M} {e : V} {K K' : List W} (h : Unwound m e K) (he : unwind m e K' = unwind m e K) (hl : K.length ≤ K'.length) : Unwound m e K' := by
  rcases h with ⟨s, v, b, h⟩ | ⟨K1, f, rv, h, h1, h2, h3⟩
  · exact .inl ⟨s, v, b, he.trans h⟩
  · exact .inr ⟨K1, f, rv, he.trans h, h1, Nat.le_trans h2 hl, h3⟩

theorem Framed.unwound {m : M} {e : V} {K : List W} (h : Framed K) : Unwound m e K := by
  induction h with
  | done => exact .inl ⟨_, _, _, rfl⟩
  | @args rest env n K vs h ih =>
    refine ih.skip ?_ (by simp; omega)
    show unwind m e (vs.map W.v ++ .v (.sym n) :: K) = _
    rw [unwind_v _ (by simp)]
    rfl
  | @handler f rv K h ih => exact .inr ⟨_, rv, rv, rfl, h.handler, Nat.le_refl _, rfl⟩
  | _ => rename_i h ih; exact ih.skip rfl (by simp only [List.length_cons]; omega)

theorem unwind_loose {m : M} {e : V} {ws K : List W} (h : ∀ w ∈ ws, ∀ c, w ≠ .k c) (hK : Framed K) : (.junk ∈ ws ∧ unwind m e (ws ++ K) = .ub) ∨ Unwound m e (ws ++ K) := by
  by_cases hj : .junk ∈ ws
  · left
    refine ⟨hj, ?_⟩
    clear hK
    induction ws with
    | nil => cases hj
    | cons w ws ih =>
      cases w with
      | k c => exact absurd rfl (h _ (by simp) c)
      | junk => rfl
      | v x => exact ih (fun w' hw' => h w' (by simp [hw'])) (by simpa using hj)
      | raw f => exact ih (fun w' hw' => h w' (by simp [hw'])) (by simpa using hj)
  · right
    exact (hK.unwound).skip (unwind_v ws (fun w hw => ⟨h w hw, fun e => hj (e ▸ hw)⟩) K) (by simp)

theorem Unwound.whole {m : M} {e : V} (hl : Unwound m e m.K) (hf : Roomy sz m.K) (hk : KontsOk sz m.st) : Whole F sz (unwind m e m.K) := by
  rcases hl with ⟨s, v, b, h⟩ | ⟨K1, f, rv, h, h1, h2, _⟩
  · rw [h]; exact .fin ..
  · rw [h]
    refine .next h1 (hf.sub h2) ?_
    show KontsOk sz (m.st.setCar rv .exitError)
    unfold KontsOk
    rw [konts_setCar]
    exact hk

theorem Whole.raise {m : M} {e : V} (hl : Loose m.K) (hf : Roomy sz m.K) (hk : KontsOk sz m.st) : Whole F sz (Verif.Eval.raise m e) := by
  by_cases hj : .junk ∈ m.K
  · exact .inr (.inr (.inr (.inr ⟨m, e, rfl, hj, hl, hf, hk⟩)))
  · unfold Verif.Eval.raise
    split
    · exact .fin ..
    split
    · obtain ⟨ws, K0, e1, h1, h2⟩ := hl
      rcases unwind_loose (m := m) (e := e) h1 h2 with h | h
      · exact absurd h.1 (fun hc => hj (by rw [e1]; simp [hc]))
      · rw [← e1] at h
        exact h.whole hf hk
    · exact .fin ..

theorem Whole.reserve {m : M} {ws : List W} {c : M → Out} (hl : Loose m.K) (hf : Roomy sz m.K) (hk : KontsOk sz m.st)
    (hc : Roomy sz (ws ++ m.K) → Whole F sz (c { m with K := ws ++ m.K })) : Whole F sz (Verif.Eval.reserve sz m ws c) := by
  unfold Verif.Eval.reserve
  split
  · rename_i h
    apply hc
    intro n e
    rw [e] at h
    simp only [Option.all_some, decide_eq_true_eq] at h
    simp only [List.length_append]; omega
  · exact .raise hl hf hk

end Verif.Eval
