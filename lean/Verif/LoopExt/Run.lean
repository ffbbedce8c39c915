import Verif.LoopExt.Expand
import Verif.Eval.Props

/-!
# The machine on the code of the loops
-/

namespace Verif.LoopExt

open Verif.Eval

/-- The value `x` is the list of the values `vs`; its cells are in `D`. -/
def Ls (D : Nat → Prop) (s : St) : V → List V → Prop
  | x, [] => x = .nil
  | x, v :: vs => ∃ a, x = .cons a ∧ D a ∧ s.car a = v ∧ Ls D s (s.cdr a) vs

theorem Ls.mono {D D' : Nat → Prop} {s s' : St} (hs : ∀ a, D a → D' a ∧ s'.car a = s.car a ∧ s'.cdr a = s.cdr a) : ∀ (vs : List V) (x : V), Ls D s x vs → Ls D' s' x vs
  | [], _, h => h
  | _ :: vs, _, ⟨a, h1, h2, h3, h4⟩ => by
    obtain ⟨d, e1, e2⟩ := hs a h2
    exact ⟨a, h1, d, e1.trans h3, e2 ▸ Ls.mono hs vs _ h4⟩

theorem Same.ls {D : Nat → Prop} {s s' : St} {x : V} {vs : List V} (h : Same D s s') (hl : Ls D s x vs) : Ls D s' x vs :=
  Ls.mono (fun a ha => ⟨ha, h.2 a ha⟩) _ _ hl

theorem alloc_same {D : Nat → Prop} {s s' : St} {p v cenv env : V} (hD : ∀ a, D a → a < s.next) (h : allocBinding s p v cenv = (s', env)) :
    env = .cons (s.next + 1) ∧ s'.next = s.next + 2 ∧ Same D s s' ∧ s'.car (s.next + 1) = .cons s.next ∧ s'.cdr (s.next + 1) = cenv ∧
      s'.car s.next = p ∧ s'.cdr s.next = v := by
  simp only [allocBinding, St.cons, Prod.mk.injEq] at h
  obtain ⟨rfl, rfl⟩ := h
  refine ⟨rfl, rfl, ⟨by simp only; omega, fun a ha => ?_⟩, ?_⟩
  · have := hD a ha
    simp [Nat.ne_of_lt this, show a ≠ s.next + 1 by omega]
  · simp

/-- The arguments of a call are evaluated in turn in the environment `aenv`, each is bound in front of `cenv`. -/
inductive Binds (P : Prims) (aenv : V) : (Nat → Prop) → St → V → List (V × V) → St → V → Prop
  | nil {D s cenv} : Binds P aenv D s cenv [] s cenv
  | cons {D s s1 s2 s' cenv env2 env' p e v l} : Ev P false s none (.exp aenv e) s1 none (.ok v) → Same D s s1 → allocBinding s1 p v cenv = (s2, env2) →
      Binds P aenv (With D s1) s2 env2 l s' env' → Binds P aenv D s cenv ((p, e) :: l) s' env'

section
variable {P : Prims} (K : List W) (body aenv : V) (fl : Nat) (prog : V) (ht : flagTrap fl = false) (hc : flagConst fl = false)
include ht hc

theorem pars_steps : ∀ (l : List (V × V)) (D : Nat → Prop) (s s' : St) (cenv env' p e params args : V), (∀ a, D a → a < s.next) →
    Binds P aenv D s cenv ((p, e) :: l) s' env' → Ls D s params (p :: l.map Prod.fst) → Ls D s args (l.map Prod.snd) → ∀ r,
    ∃ n r', steps none P n (.next ⟨.k 13 :: .v args :: .v params :: .v cenv :: .v body :: .v aenv :: K, r, e, aenv, false, fl, prog, s⟩) =
      .next ⟨K, r', body, env', false, fl, prog, s'⟩
  | l, D, s, s', cenv, env', p, e, params, args, hD, hb, hp, ha, r => by
    cases hb with
    | @cons _ _ s1 s2 _ _ env2 _ _ _ v _ h1 h2 h3 h4 =>
    obtain ⟨n, x, en, hn⟩ := C39_value_partial h1 (.k 13 :: .v args :: .v params :: .v cenv :: .v body :: .v aenv :: K) r fl prog ht hc
    have hD1 : ∀ a, D a → a < s1.next := fun a h => Nat.lt_of_lt_of_le (hD a h) h2.1
    obtain ⟨he, hn2, hs2, _⟩ := alloc_same hD1 h3
    obtain ⟨b, rfl, db, hb1, hb2⟩ := h2.ls hp
    have ha1 := h2.ls ha
    match l with
    | [] =>
      cases h4
      simp only [List.map_nil, Ls] at hb2 ha1
      subst ha1
      refine ⟨n + 1, v, ?_⟩
      rw [steps_add, hn]
      simp [steps, step, runCont, contCloArgs, St.gcar, St.gcdr, hb1, hb2, h3, M.go]
    | (p2, e2) :: l2 =>
      have hs2' : ∀ a, D a → With D s1 a ∧ s2.car a = s1.car a ∧ s2.cdr a = s1.cdr a := fun a h => ⟨.inl h, hs2.2 a h⟩
      have hb3 := Ls.mono hs2' _ _ hb2
      have ha2 := Ls.mono hs2' _ _ ha1
      obtain ⟨c, hc1, dc, hc2, hc3⟩ := hb3
      obtain ⟨d, rfl, dd, hd2, hd3⟩ := ha2
      obtain ⟨n2, r', hn3⟩ := pars_steps l2 (With D s1) s2 s' env2 env' p2 e2 (s1.cdr b) (s2.cdr d)
        (fun a h => by rcases h with h | h | h; · have := hD1 a h; omega
                       · omega
                       · omega) h4 ⟨c, hc1, dc, hc2, hc3⟩ hd3 v
      refine ⟨n + (1 + n2), r', ?_⟩
      rw [steps_add, hn, steps_add, ← hn3]
      congr 1
      simp only [List.map_cons] at hd2
      simp [steps, step, runCont, contCloArgs, St.gcar, St.gcdr, hb1, hc1, h3, M.go, reserve, hd2]

/-- A call of a closure. -/
theorem call_steps {c : Nat} {D : Nat → Prop} {s s' : St} {cenv env' params args p e x en : V} {l : List (V × V)} (hD : ∀ a, D a → a < s.next)
    (h0 : s.car c = .closure) (h1 : s.hd (s.cdr c) = params) (h2 : s.hd (s.tl (s.cdr c)) = body) (h3 : s.hd (s.tl (s.tl (s.cdr c))) = cenv)
    (hp : Ls D s params (p :: l.map Prod.fst)) (ha : Ls D s args (e :: l.map Prod.snd)) (hb : Binds P aenv D s cenv ((p, e) :: l) s' env') :
    ∃ n r', steps none P n (.next ⟨.k 10 :: .v args :: .v aenv :: K, .cons c, x, en, true, fl, prog, s⟩) = .next ⟨K, r', body, env', false, fl, prog, s'⟩ := by
  obtain ⟨d, rfl, dd, hd2, hd3⟩ := ha
  obtain ⟨n, r', hn⟩ := pars_steps K body aenv fl prog ht hc l D s s' cenv env' p e params (s.cdr d) hD hb hp hd3 (.cons c)
  refine ⟨1 + n, r', ?_⟩
  rw [steps_add, ← hn]
  congr 1
  obtain ⟨b, rfl, _⟩ := hp
  simp [steps, step, runCont, contStart, h0, h1, h2, h3, St.gcar, St.gcdr, reserve, M.go, hd2]
end

theorem Same.tm {D : Nat → Prop} {s s' : St} {x : V} {t : Tm} (h : Same D s s') (hl : IsTm D s x t) : IsTm D s' x t :=
  IsTm.mono (fun a ha => ⟨ha, h.2 a ha⟩) _ _ hl

theorem Same.tms {D : Nat → Prop} {s s' : St} {x : V} {t : List Tm} (h : Same D s s') (hl : IsTms D s x t) : IsTms D s' x t :=
  IsTms.mono (fun a ha => ⟨ha, h.2 a ha⟩) _ _ hl

theorem Same.trans {D : Nat → Prop} {s s1 s2 : St} (h : Same D s s1) (h' : Same D s1 s2) : Same D s s2 :=
  ⟨Nat.le_trans h.1 h'.1, fun a ha => ⟨(h'.2 a ha).1.trans (h.2 a ha).1, (h'.2 a ha).2.trans (h.2 a ha).2⟩⟩

theorem Same.weak {D D' : Nat → Prop} {s s' : St} (hd : ∀ a, D' a → D a) (h : Same D s s') : Same D' s s' := ⟨h.1, fun a ha => h.2 a (hd a ha)⟩

theorem tms_ls {D : Nat → Prop} {s : St} : ∀ (ts : List Tm) (x : V), IsTms D s x ts → ∃ vs, Ls D s x vs ∧ AllTm D s vs ts
  | [], _, h => ⟨[], by simpa [IsTms, Ls] using h, trivial⟩
  | t :: ts, x, h => by
    simp only [IsTms] at h
    obtain ⟨a, h1, h2, h3, h4⟩ := h
    obtain ⟨vs, h5, h6⟩ := tms_ls ts _ h4
    exact ⟨s.car a :: vs, ⟨a, h1, h2, rfl, h5⟩, h3, h6⟩

section
variable {P : Prims} {D : Nat → Prop} (K : List W) (fl : Nat) (prog : V)

/-- A call of a function that is a local variable: the closure is found. -/
theorem head_steps {s : St} {x env : V} {f c : Nat} {args : List Tm} (hf : runtimeStart ≤ f) (hx : IsTm D s x (.l (sy f :: args)))
    (hl : s.lookup (.sym f) (s.next + 1) env = some (some (.cons c))) (r : V) :
    ∃ y x' en, steps none P 2 (.next ⟨K, r, x, env, false, fl, prog, s⟩) = .next ⟨.k 10 :: .v y :: .v env :: K, .cons c, x', en, true, fl, prog, s⟩ ∧ IsTms D s y args := by
  simp only [IsTm, IsTms] at hx
  obtain ⟨a, rfl, _, h2, h3⟩ := hx
  have hs : special (.sym f) = none := by
    simp only [special]
    rw [if_neg]
    have : runtimeStart = 0x40000 := rfl
    omega
  refine ⟨s.cdr a, .sym f, env, ?_, h3⟩
  simp [steps, step, h2, hs, reserve, M.go, evalSymbol, hf, hl, M.ret]

variable (ht : flagTrap fl = false) (hc : flagConst fl = false)
include ht hc

/-- `(if c x y)`: the condition is evaluated, then the branch. -/
theorem if_steps {s s1 : St} {e env cond c : V} {A B : Tm} (he : IsTm D s e (.l [sy 0x104, .v cond, A, B])) (hv : Ev P false s none (.exp env cond) s1 none (.ok c))
    (hs : Same D s s1) (r : V) :
    ∃ n r' y, steps none P n (.next ⟨K, r, e, env, false, fl, prog, s⟩) = .next ⟨K, r', y, env, false, fl, prog, s1⟩ ∧ IsTm D s1 y (if c = .nil then B else A) := by
  have he1 := hs.tm he
  simp only [IsTm, IsTms] at he he1
  obtain ⟨a, rfl, da, h1, b, hb, db, h2, d, hd, dd, h3, f, hf, df, h4, h5⟩ := he
  obtain ⟨a', ha', _, k1, b', hb', _, k2, d', hd', _, k3, f', hf', _, k4, k5⟩ := he1
  cases ha'
  obtain ⟨n, x, en, hn⟩ := C39_value_partial hv (.k 3 :: .v env :: .v (.cons d) :: K) r fl prog ht hc
  have e2 : s1.cdr b = .cons d := by rw [(hs.2 b db).2, hd]
  have : b' = b := by
    have := (hs.2 a da).2
    rw [hb, hb'] at this
    exact V.cons.inj this
  subst this
  have : d' = d := by
    rw [e2] at hd'
    exact (V.cons.inj hd').symm
  subst this
  by_cases h0 : c = .nil
  · refine ⟨1 + (n + 1), c, s1.car f', ?_, by rw [if_pos h0]; exact k4⟩
    rw [steps_add, show steps none P 1 (.next ⟨K, r, .cons a, env, false, fl, prog, s⟩) =
      .next ⟨.k 3 :: .v env :: .v (.cons d') :: K, r, cond, env, false, fl, prog, s⟩ by
        simp [steps, step, h1, special, evalSpecial, evalIf, St.gcdr, St.gcar, hb, hd, h2, reserve, M.go], steps_add, hn]
    simp [steps, step, runCont, contIf, h0, St.gcadr, hf', M.go]
  · refine ⟨1 + (n + 1), c, s1.car d', ?_, by rw [if_neg h0]; exact k3⟩
    rw [steps_add, show steps none P 1 (.next ⟨K, r, .cons a, env, false, fl, prog, s⟩) =
      .next ⟨.k 3 :: .v env :: .v (.cons d') :: K, r, cond, env, false, fl, prog, s⟩ by
        simp [steps, step, h1, special, evalSpecial, evalIf, St.gcdr, St.gcar, hb, hd, h2, reserve, M.go], steps_add, hn]
    simp [steps, step, runCont, contIf, h0, St.gcar, M.go]

end

/-- The loop function: the closure `clo` with the parameters `ps`, the code `test` and the environment `base`. -/
def LoopAt (D : Nat → Prop) (s : St) (clo : V) (ps : List V) (test base : V) (t : Tm) : Prop :=
  ∃ params, Ls D s clo [.closure, params, test, base] ∧ Ls D s params ps ∧ IsTm D s test t

theorem Same.loopAt {D : Nat → Prop} {s s' : St} {clo test base : V} {ps : List V} {t : Tm} (h : Same D s s') (hl : LoopAt D s clo ps test base t) :
    LoopAt D s' clo ps test base t := by
  obtain ⟨params, h1, h2, h3⟩ := hl
  exact ⟨params, h.ls h1, h.ls h2, h.tm h3⟩

/-- A call `(loop e1 ... en)` of the loop function. -/
theorem loop_call {P : Prims} {D : Nat → Prop} {s s' : St} {x clo env test base env' p e : V} {f : Nat} {t : Tm} {args : List Tm} {l : List (V × V)}
    (K : List W) (fl : Nat) (prog : V) (ht : flagTrap fl = false) (hc : flagConst fl = false)
    (hD : ∀ a, D a → a < s.next) (hf : runtimeStart ≤ f) (hx : IsTm D s x (.l (sy f :: args))) (hlk : s.lookup (.sym f) (s.next + 1) env = some (some clo))
    (hL : LoopAt D s clo (p :: l.map Prod.fst) test base t) (hargs : ∀ vs, AllTm D s vs args → vs = e :: l.map Prod.snd)
    (hb : Binds P env D s base ((p, e) :: l) s' env') (r : V) :
    ∃ n r', steps none P n (.next ⟨K, r, x, env, false, fl, prog, s⟩) = .next ⟨K, r', test, env', false, fl, prog, s'⟩ := by
  obtain ⟨params, ⟨c, rfl, dc, h1, d, hd, dd, h2, g, hg, dg, h3, k, hk, dk, h4, h5⟩, h6, h7⟩ := hL
  obtain ⟨y, x', en, hn, hy⟩ := head_steps K fl prog hf hx hlk r
  obtain ⟨vs, hv1, hv2⟩ := tms_ls _ _ hy
  obtain rfl := hargs vs hv2
  obtain ⟨n2, r', hn2⟩ := call_steps (params := params) (args := y) (x := x') (en := en) K test env fl prog ht hc hD h1 (by simp [St.hd, hd, h2]) (by simp [St.hd, St.tl, hd, hg, h3])
    (by simp [St.hd, St.tl, hd, hg, hk, h4]) h6 hv1 hb
  exact ⟨2 + n2, r', by rw [steps_add, hn, hn2]⟩

end Verif.LoopExt
