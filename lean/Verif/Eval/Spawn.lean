import Verif.Eval.PoolProps
import Verif.Eval.Props

/-!
# New processes

`spawn` (`apply_spawn_base`, `src/eval_cps.c:2445-2505`) and the registers of a new context (`lbm_create_ctx_parent`, 1288-1310).

Simplifications: the optional name and stack size are not modelled, nor the allocation of the context (see `Verif.Proc`); cells are always available. The word above the
stack, which the code reads when arguments are missing, is a parameter.
-/

namespace Verif.Eval

/-- The loop in lines 2479-2489. `i <= nargs` admits one more argument than there are: the word `above` the top of the stack. -/
def spawnBind (above : V) : List V → St → V → V → St × V
  | [], s, params, env =>
    match params with
    | .cons c => allocBinding s (s.car c) above env
    | _ => (s, env)
  | x :: xs, s, params, env =>
    match params with
    | .cons c =>
      let (s1, env1) := allocBinding s (s.car c) x env
      spawnBind above xs s1 (s1.cdr c) env1
    | _ => (s, env)

/-- `(spawn f x1 ... xn)`: the store and the context of the new process. `f` is the cell of a closure. Lines 2475-2502 and 1288-1310. -/
def spawn (s : St) (f : Nat) (xs : List V) (above : V) (flags : Nat) : St × Ctx :=
  let cl := s.cdr f
  let body := s.hd (s.tl cl)
  let (s1, env) := spawnBind above xs s (s.hd cl) (s.hd (s.tl (s.tl cl)))
  let (s2, _) := s1.cons body .nil
  (s2, ⟨[.k 0], .nil, body, env, false, flags, .nil⟩)

/-! ## Specification -/

/-- `l` is the list `((quote x1) ... (quote xn))`. -/
def Quoted (s : St) : V → List V → Prop
  | l, [] => l = .nil
  | l, x :: xs => ∃ c q d, l = .cons c ∧ s.car c = .cons q ∧ s.car q = .quote ∧ s.cdr q = .cons d ∧ s.car d = x ∧ Quoted s (s.cdr c) xs

/-- `e` is the expression `(f (quote x1) ... (quote xn))`, for a closure `f`. -/
def IsCall (s : St) (e : V) (f : Nat) (xs : List V) : Prop :=
  ∃ c, e = .cons c ∧ s.car c = .cons f ∧ s.car f = .closure ∧ Quoted s (s.cdr c) xs

/-- `f` is a closure with `n` parameters. -/
def Arity (s : St) (f n : Nat) : Prop := ∃ ps, ListOf s (s.hd (s.cdr f)) ps ∧ ps.length = n

/-- The value or the error, and whether it is a value. -/
def Res.val : Res → V
  | .ok v => v
  | .err e => e
def Res.isOk : Res → Bool
  | .ok _ => true
  | .err _ => false

/-! ## Proofs -/

/-- A set of values that are in use, all allocated. -/
structure Safe (s : St) (U : V → Prop) : Prop where
  globals : ∀ n, U (s.globals n)
  car : ∀ a, U (.cons a) → U (s.car a)
  cdr : ∀ a, U (.cons a) → U (s.cdr a)
  kont : ∀ i v, U (.arr i) → .v v ∈ s.konts i → U v
  cell : ∀ a, U (.cons a) → a < s.next
  stack : ∀ i, U (.arr i) → i < s.nk
  sym : ∀ n, U (.sym n)

theorem safe_inUse {m : M} {U : V → Prop} (h : Safe m.st U) (hr : ∀ v, v = m.r ∨ v = m.exp ∨ v = m.env ∨ v = m.program ∨ .v v ∈ m.K → U v) {v : V} (hv : InUse m v) : U v := by
  induction hv with
  | @root v hv =>
    rcases hv with hv | hv | hv | hv | hv | ⟨n, rfl⟩
    · exact hr v (Or.inl hv)
    · exact hr v (Or.inr (Or.inl hv))
    · exact hr v (Or.inr (Or.inr (Or.inl hv)))
    · exact hr v (Or.inr (Or.inr (Or.inr (Or.inl hv))))
    · exact hr v (Or.inr (Or.inr (Or.inr (Or.inr hv))))
    · exact h.globals n
  | car _ ih => exact h.car _ ih
  | cdr _ ih => exact h.cdr _ ih
  | kont _ hk ih => exact h.kont _ _ ih hk

theorem allocated_safe {m : M} (h : Allocated m) : Safe m.st (fun v => InUse m v ∨ ∃ n, v = .sym n) where
  globals n := Or.inl (.root (by simp))
  car a ha := by
    rcases ha with ha | ⟨n, hn⟩
    · exact Or.inl (.car ha)
    · cases hn
  cdr a ha := by
    rcases ha with ha | ⟨n, hn⟩
    · exact Or.inl (.cdr ha)
    · cases hn
  kont i v hi hv := by
    rcases hi with hi | ⟨n, hn⟩
    · exact Or.inl (.kont hi hv)
    · cases hn
  cell a ha := by
    rcases ha with ha | ⟨n, hn⟩
    · exact h.1 a ha
    · cases hn
  stack i hi := by
    rcases hi with hi | ⟨n, hn⟩
    · exact h.2 i hi
    · cases hn
  sym n := Or.inr ⟨n, rfl⟩

theorem Safe.cons {s : St} {U : V → Prop} (h : Safe s U) {x y : V} (hx : U x) (hy : U y) : Safe (s.cons x y).1 (fun v => U v ∨ v = (s.cons x y).2) where
  globals n := Or.inl (h.globals n)
  car a ha := by
    simp only [St.cons]
    rcases ha with ha | ha
    · have := h.cell a ha
      rw [if_neg (by omega)]
      exact Or.inl (h.car a ha)
    · cases ha
      rw [if_pos rfl]
      exact Or.inl hx
  cdr a ha := by
    simp only [St.cons]
    rcases ha with ha | ha
    · have := h.cell a ha
      rw [if_neg (by omega)]
      exact Or.inl (h.cdr a ha)
    · cases ha
      rw [if_pos rfl]
      exact Or.inl hy
  kont i v hi hv := by
    rcases hi with hi | hi
    · exact Or.inl (h.kont i v hi hv)
    · cases hi
  cell a ha := by
    simp only [St.cons]
    rcases ha with ha | ha
    · have := h.cell a ha; omega
    · cases ha; omega
  stack i hi := by
    rcases hi with hi | hi
    · exact h.stack i hi
    · cases hi
  sym n := Or.inl (h.sym n)

/-- Allocation does not change lists. -/
theorem quoted_ext {s s' : St} {U : V → Prop} (h : Safe s U) (hc : ∀ a, U (.cons a) → s'.car a = s.car a ∧ s'.cdr a = s.cdr a) :
    ∀ xs l, U l → Quoted s l xs → Quoted s' l xs
  | [], _, _, hq => hq
  | x :: xs, _, hu, ⟨c, q, d, e, h1, h2, h3, h4, h5⟩ => by
    subst e
    have uq : U (.cons q) := h1 ▸ h.car c hu
    have ud : U (.cons d) := h3 ▸ h.cdr q uq
    refine ⟨c, q, d, rfl, by rw [(hc c hu).1, h1], by rw [(hc q uq).1, h2], by rw [(hc q uq).2, h3], by rw [(hc d ud).1, h4], ?_⟩
    rw [(hc c hu).2]
    exact quoted_ext h hc xs _ (h.cdr c hu) h5

theorem listOf_ext {s s' : St} {U : V → Prop} (h : Safe s U) (hc : ∀ a, U (.cons a) → s'.car a = s.car a ∧ s'.cdr a = s.cdr a) :
    ∀ xs l, U l → ListOf s l xs → ListOf s' l xs
  | [], _, _, hq => hq
  | x :: xs, _, hu, ⟨c, e, h1, h2⟩ => by
    subst e
    refine ⟨c, rfl, by rw [(hc c hu).1, h1], ?_⟩
    rw [(hc c hu).2]
    exact listOf_ext h hc xs _ (h.cdr c hu) h2

theorem cons_keeps {s : St} {a : Nat} (h : a < s.next) (x y : V) : (s.cons x y).1.car a = s.car a ∧ (s.cons x y).1.cdr a = s.cdr a := by
  simp only [St.cons]
  exact ⟨by rw [if_neg (by omega)], by rw [if_neg (by omega)]⟩

theorem alloc_keeps {s : St} {U : V → Prop} (h : Safe s U) (k x env : V) (a : Nat) (ha : U (.cons a)) :
    (allocBinding s k x env).1.car a = s.car a ∧ (allocBinding s k x env).1.cdr a = s.cdr a := by
  have h1 := h.cell a ha
  have h2 := cons_keeps h1 k x
  have h3 := cons_keeps (s := (s.cons k x).1) (a := a) (by simp only [St.cons]; omega) (s.cons k x).2 env
  exact ⟨h3.1.trans h2.1, h3.2.trans h2.2⟩

theorem Safe.alloc {s : St} {U : V → Prop} (h : Safe s U) {k x env : V} (hk : U k) (hx : U x) (he : U env) :
    ∃ U', Safe (allocBinding s k x env).1 U' ∧ U' (allocBinding s k x env).2 ∧ ∀ v, U v → U' v :=
  ⟨_, (h.cons hk hx).cons (Or.inr rfl) (Or.inl he), Or.inr rfl, fun _ hv => Or.inl (Or.inl hv)⟩

/-- The value of `(quote x)`. -/
theorem quote_inv {P : Prims} {s s' : St} {sc sc' : Scope} {env : V} {q d : Nat} {x : V} {r : Res} (h1 : s.car q = .quote) (h2 : s.cdr q = .cons d) (h3 : s.car d = x)
    (h : Ev P false s sc (.exp env (.cons q)) s' sc' r) : s' = s ∧ r = .ok x := by
  cases h
  case quote hf hv =>
    simp only [St.gcadr, h2, Option.some.injEq] at hv
    exact ⟨rfl, by rw [← hv, h3]⟩
  case fnval =>
    simp_all [St.isForm]
    omega
  all_goals simp_all [St.isForm, special, V.isCons]

/-- The value of a closure. -/
theorem closure_inv {P : Prims} {s s' : St} {sc sc' : Scope} {env : V} {f : Nat} {r : Res} (h1 : s.car f = .closure) (h : Ev P false s sc (.exp env (.cons f)) s' sc' r) :
    s' = s ∧ r = .ok (.cons f) := by
  cases h
  case fnval => exact ⟨rfl, rfl⟩
  all_goals simp_all [St.isForm, special, V.isCons]

theorem sub_quote_inv {P : Prims} {s s' : St} {sc sc' : Scope} {env : V} {q d : Nat} {x : V} {r : Res} {fr : Frame} (h1 : s.car q = .quote) (h2 : s.cdr q = .cons d)
    (h3 : s.car d = x) (h : Ev P false s sc (.sub fr env (.cons q)) s' sc' r) : Ev P false s sc (.k fr x) s' sc' r := by
  cases h with
  | sub_ok ha hb =>
    obtain ⟨rfl, e⟩ := quote_inv h1 h2 h3 ha
    cases e
    exact hb
  | sub_err ha => exact absurd (quote_inv h1 h2 h3 ha).2 (by simp)

/-- What is left of a call once an argument is known: the others are bound, and the body is evaluated. -/
theorem pars_inv {P : Prims} {aenv body above : V} : ∀ (xs : List V) {s s' : St} {U : V → Prop} {cenv params rest v : V} {p : V} {ps : List V} {r : Res}, Safe s U → U params → U rest → U cenv → U v →
    (∀ x ∈ xs, U x) → ListOf s params (p :: ps) → ps.length = xs.length → Quoted s rest xs → Ev P false s none (.k (.pars aenv body cenv params rest) v) s' none r →
    (∃ U', Safe (spawnBind above (v :: xs) s params cenv).1 U' ∧ U' (spawnBind above (v :: xs) s params cenv).2 ∧ ∀ v, U v → U' v) ∧
    Ev P false (spawnBind above (v :: xs) s params cenv).1 none (.exp (spawnBind above (v :: xs) s params cenv).2 body) s' none r := by
  intro xs
  induction xs with
  | nil =>
    intro s s' U cenv params rest v p ps r hs up ur uc uv _ ⟨c, e, ec, hl⟩ hlen hq h
    subst e
    obtain rfl : ps = [] := by simpa using hlen
    have hl : s.cdr c = .nil := hl
    have hq : rest = .nil := hq
    subst hq
    obtain ⟨U', a1, a2, a3⟩ := hs.alloc (k := s.car c) (x := v) (env := cenv) (hs.car c up) uv uc
    have e1 : spawnBind above [v] s (.cons c) cenv = allocBinding s (s.car c) v cenv := by
      simp only [spawnBind, (alloc_keeps hs (s.car c) v cenv c up).2, hl]
    rw [e1]
    refine ⟨⟨U', a1, a2, a3⟩, ?_⟩
    cases h with
    | pars_last hp hps ha hb => 
      simp only [St.gcar, Option.some.injEq] at hp
      subst hp
      rw [ha]
      exact hb
    | pars_more _ _ _ hn => exact absurd rfl hn
    | pars_rest _ _ _ hn => exact absurd rfl hn
    | pars_few _ h2 h3 => simp only [St.gcdr, hl, Option.some.injEq] at h2; exact absurd h2.symm h3
  | cons x xs ih =>
    intro s s' U cenv params rest v p ps r hs up ur uc uv ux ⟨c, e, ec, hl⟩ hlen hq h
    subst e
    obtain ⟨c1, q, d, rfl, q1, q2, q3, q4, q5⟩ := hq
    obtain ⟨p1, ps, rfl⟩ : ∃ p1 ps', ps = p1 :: ps' := by cases ps with
      | nil => simp at hlen
      | cons a b => exact ⟨a, b, rfl⟩
    obtain ⟨c2, hl1, hl2, hl3⟩ := hl
    obtain ⟨U', a1, a2, a3⟩ := hs.alloc (k := s.car c) (x := v) (env := cenv) (hs.car c up) uv uc
    have keep := alloc_keeps hs (s.car c) v cenv
    have uq : U (.cons q) := q1 ▸ hs.car c1 ur
    have ud : U (.cons d) := q3 ▸ hs.cdr q uq
    have e1 : spawnBind above (v :: x :: xs) s (.cons c) cenv =
        spawnBind above (x :: xs) (allocBinding s (s.car c) v cenv).1 (s.cdr c) (allocBinding s (s.car c) v cenv).2 := by
      rw [spawnBind]
      simp only [(keep c up).2]
    rw [e1]
    have l2 : ListOf (allocBinding s (s.car c) v cenv).1 (s.cdr c) (p1 :: ps) := listOf_ext hs keep _ _ (hs.cdr c up) ⟨c2, hl1, hl2, hl3⟩
    have l3 : Quoted (allocBinding s (s.car c) v cenv).1 (s.cdr c1) xs := quoted_ext hs keep _ _ (hs.cdr c1 ur) q5
    cases h with
    | pars_more hp hps ha hn hps' hg1 hg2 hb =>
      simp only [St.gcar, St.gcdr, Option.some.injEq] at hp hps hg1 hg2
      subst hp hps
      obtain ⟨ha1, ha2⟩ := Prod.mk.inj (show ((allocBinding s (s.car c) v cenv).1, (allocBinding s (s.car c) v cenv).2) = _ from ha)
      subst ha1 ha2
      rw [(keep c1 ur).1, q1] at hg1
      rw [(keep c1 ur).2] at hg2
      subst hg1 hg2
      have hb := sub_quote_inv (x := x) (by rw [(keep q uq).1, q2]) (by rw [(keep q uq).2, q3]) (by rw [(keep d ud).1, q4]) hb
      obtain ⟨⟨U2, b1, b2, b3⟩, b4⟩ := ih a1 (a3 _ (hs.cdr c up)) (a3 _ (hs.cdr c1 ur)) a2 (a3 _ (ux x (by simp))) (fun y hy => a3 _ (ux y (by simp [hy]))) l2 (by simpa using hlen) l3 hb
      exact ⟨⟨U2, b1, b2, fun v hv => b3 v (a3 v hv)⟩, b4⟩
    | pars_rest _ h2 => simp only [St.gcdr, hl1, Option.some.injEq] at h2; cases h2

/-- The values in a quoted list are in use. -/
theorem quoted_safe {s : St} {U : V → Prop} (h : Safe s U) : ∀ xs l, U l → Quoted s l xs → ∀ x ∈ xs, U x
  | [], _, _, _ => by simp
  | x :: xs, _, hu, ⟨c, q, d, e, h1, h2, h3, h4, h5⟩ => by
    subst e
    intro y hy
    rcases List.mem_cons.1 hy with rfl | hy
    · exact h4 ▸ h.car d (h3 ▸ h.cdr q (h1 ▸ h.car c hu))
    · exact quoted_safe h xs _ (h.cdr c hu) h5 y hy

theorem hd_safe {s : St} {U : V → Prop} (h : Safe s U) {v : V} (hv : U v) : U (s.hd v) := by
  cases v <;> simp only [St.hd] <;> first | exact h.car _ hv | exact h.sym _

theorem tl_safe {s : St} {U : V → Prop} (h : Safe s U) {v : V} (hv : U v) : U (s.tl v) := by
  cases v <;> simp only [St.tl] <;> first | exact h.cdr _ hv | exact hv

/-- A call binds the parameters and evaluates the body. -/
theorem call_inv {P : Prims} {s s' : St} {U : V → Prop} {env e above : V} {f : Nat} {xs : List V} {r : Res} (hs : Safe s U) (ue : U e) (hc : IsCall s e f xs) (ha : Arity s f xs.length)
    (h : Ev P false s none (.exp env e) s' none r) :
    let b := spawnBind above xs s (s.hd (s.cdr f)) (s.hd (s.tl (s.tl (s.cdr f))))
    (∃ U', Safe b.1 U' ∧ U' b.2 ∧ ∀ v, U v → U' v) ∧ Ev P false b.1 none (.exp b.2 (s.hd (s.tl (s.cdr f)))) s' none r := by
  obtain ⟨c, rfl, hf, hcl, hq⟩ := hc
  obtain ⟨ps, hps, hlen⟩ := ha
  have uf : U (.cons f) := hf ▸ hs.car c ue
  have ucl := hs.cdr f uf
  have upar := hd_safe hs ucl
  have uenv := hd_safe hs (tl_safe hs (tl_safe hs ucl))
  have hk : Ev P false s none (.k (.start env (s.cdr c)) (.cons f)) s' none r := by
    cases h
    case app h1 h2 =>
      rw [hf] at h2
      cases h2 with
      | sub_ok h3 h4 => obtain ⟨rfl, e⟩ := closure_inv hcl h3; cases e; exact h4
      | sub_err h3 => exact absurd (closure_inv hcl h3).2 (by simp)
    all_goals simp_all [St.isForm, V.isCons]
  cases xs with
  | nil =>
    obtain rfl : ps = [] := by simpa using hlen
    have hps : s.hd (s.cdr f) = .nil := hps
    have hq : s.cdr c = .nil := hq
    rw [hq] at hk
    simp only [hps, spawnBind]
    refine ⟨⟨U, hs, uenv, fun _ h => h⟩, ?_⟩
    cases hk with
    | start_thunk _ _ hb => exact hb
    | start_bad _ h2 => exact absurd hcl (h2 f rfl).1
    | start_clo _ h2 => exact absurd rfl h2
    | start_rest _ h2 => exact absurd rfl h2
    | start_few h2 => cases h2
    | start_macro h2 => rw [hcl] at h2; cases h2
  | cons x xs =>
    obtain ⟨c1, q, d, e1, q1, q2, q3, q4, q5⟩ := hq
    have u1 : U (.cons c1) := e1 ▸ hs.cdr c ue
    obtain ⟨p, ps, rfl⟩ : ∃ p1 ps', ps = p1 :: ps' := by cases ps with
      | nil => simp at hlen
      | cons a b => exact ⟨a, b, rfl⟩
    have hne : s.hd (s.cdr f) ≠ .nil := by obtain ⟨a, ha, _⟩ := hps; rw [ha]; simp
    rw [e1] at hk
    have uall : ∀ y ∈ x :: xs, U y := quoted_safe hs (x :: xs) _ u1 ⟨c1, q, d, rfl, q1, q2, q3, q4, q5⟩
    cases hk with
    | start_clo _ _ _ h4 h5 hb =>
      simp only [St.gcar, St.gcdr, Option.some.injEq] at h4 h5
      subst h5
      rw [q1] at h4
      subst h4
      exact pars_inv xs hs upar (hs.cdr c1 u1) uenv (uall x (by simp)) (fun y hy => uall y (by simp [hy])) hps (by simpa using hlen) q5 (sub_quote_inv q2 q3 q4 hb)
    | start_bad _ h2 => exact absurd hcl (h2 f rfl).1
    | start_rest _ _ h3 => exact absurd h3 hne
    | start_macro h2 => rw [hcl] at h2; cases h2

/-- A machine that ends, ends the same with any stack that is large enough. -/
theorem sized_of_none {P : Prims} {n : Nat} {m : M} {o : Out} (h : steps none P n (.next m) = o) : ∃ z0, ∀ z, z0 ≤ z → steps (some z) P n (.next m) = o := by
  have hz : ∀ n, ∃ z0, ∀ z, z0 ≤ z → Fits P z n (.next m) := by
    intro n
    induction n with
    | zero =>
      refine ⟨m.K.length + 16, fun z hz i hi m' hm => ?_⟩
      obtain rfl : i = 0 := by omega
      cases hm
      exact hz
    | succ n ih =>
      obtain ⟨z0, h0⟩ := ih
      cases hs : steps none P (n + 1) (.next m) with
      | next m' =>
        refine ⟨max z0 (m'.K.length + 16), fun z hz i hi m1 hm => ?_⟩
        by_cases hin : i = n + 1
        · subst hin
          rw [hs] at hm
          cases hm
          omega
        · exact h0 z (by omega) i (by omega) m1 hm
      | _ =>
        refine ⟨z0, fun z hz i hi m1 hm => ?_⟩
        by_cases hin : i = n + 1
        · subst hin
          rw [hs] at hm
          cases hm
        · exact h0 z hz i (by omega) m1 hm
  obtain ⟨z0, h0⟩ := hz n
  exact ⟨z0, fun z hz => (steps_sized n _ (h0 z hz)).trans h⟩

/-- A context with one expression, in any environment. -/
theorem ctx_ends {P : Prims} {s s' : St} {env e : V} {res : Res} (h : Ev P false s none (.exp env e) s' none res) (r : V) :
    ∃ n, steps none P n (.next ⟨[.k 0], r, e, env, false, 0, .nil, s⟩) = .fin s' res.val res.isOk := by
  cases res with
  | ok v =>
    obtain ⟨n, x, env', hn⟩ := C39_value_partial h [.k 0] r 0 .nil rfl rfl
    refine ⟨n + 1, ?_⟩
    rw [steps_add, hn]
    rfl
  | err x =>
    obtain ⟨n, K', r', x, env, app, hn, _⟩ := sim h 0 .nil rfl rfl .junk [.k 0] _ ⟨r, rfl⟩
    exact ⟨n, hn.trans (by simp [raise, flagTrap, flagUnroll, Res.val, Res.isOk])⟩

end Verif.Eval
