import Verif.Gc.Alloc

/-!
# The functions that allocate keep the relation
-/

namespace Verif.Gc

open Verif.Eval

/-- Fundamental operations that cannot tell related stores apart, whose own allocations are under the protection of the roots of the caller. -/
structure PSim (P : Prims) (PG : PrimsG) : Prop where
  run : ∀ (g : Gc), Sound g → ∀ (ρ κ : Nat → Nat → Prop) (s s' : St), Agree ρ κ s s' → ∀ (R : List V), Rooted ρ κ R →
    ∀ (n : Nat) (args args' : List V) (env env' : V), All2 (VR ρ κ) args args' → (∀ v ∈ args', Live s' R v) → VR ρ κ env env' → Live s' R env' →
    ∃ (ρ1 κ1 : Nat → Nat → Prop), (∀ v v', VR ρ κ v v' → Live s' R v' → VR ρ1 κ1 v v') ∧
      match P.run n args env s, PG.run g R n args' env' s' with
      | .ok s1 v, .ok s1' v' => Agree ρ1 κ1 s1 s1' ∧ VR ρ1 κ1 v v'
      | .err s1 v, .err s1' v' => Agree ρ1 κ1 s1 s1' ∧ VR ρ1 κ1 v v'
      | _, _ => False
  eq : ∀ (ρ κ : Nat → Nat → Prop) (s s' : St), Agree ρ κ s s' → ∀ v v' w w', VR ρ κ v v' → VR ρ κ w w' → P.eq s v w = PG.eq s' v' w'

section
variable {g : Gc} (hg : Sound g) {ρ κ : Nat → Nat → Prop} {s s' : St} {R : List V}
include hg

theorem createLoc_rel (h : Agree ρ κ s s') (hr : Rooted ρ κ R) {f f' : Nat} (hf : f ≤ f') {key key' env env' : V} (hk : VR ρ κ key key')
    (lk : Live s' R key') (he : VR ρ κ env env') {s1 : St} {env1 : V} (e : s.createLoc f key env = some (s1, env1)) :
    ∃ s1' env1', createLoc g R f' s' key' env' = some (s1', env1') ∧ ∃ ρ1 κ1, Agree ρ1 κ1 s1 s1' ∧ VR ρ1 κ1 env1 env1' ∧ Ext R ρ κ s' ρ1 κ1 s1' := by
  induction f generalizing f' ρ κ s s' key key' env env' s1 env1 with
  | zero => simp [St.createLoc] at e
  | succ f ih =>
    obtain ⟨f', rfl⟩ : ∃ k, f' = k + 1 := ⟨f' - 1, by omega⟩
    cases hk with
    | sym n =>
      simp only [St.createLoc, createLoc] at e ⊢
      by_cases hn : n = 0 ∨ n = 9
      · rw [if_pos hn] at e
        rw [if_pos hn]
        simp only [Option.some.injEq, Prod.mk.injEq] at e
        obtain ⟨rfl, rfl⟩ := e
        exact ⟨_, _, rfl, ρ, κ, h, he, .refl _ _ _ _⟩
      · rw [if_neg hn] at e
        rw [if_neg hn]
        obtain ⟨ρ1, κ1, h1, hb, x1⟩ := cons_rel hg h (hr.cons he) (VR.sym (ρ := ρ) (κ := κ) n) (VR.sym 0x2A) trivial trivial
        obtain ⟨ρ2, κ2, h2, hb2, x2⟩ := cons_rel hg h1 ((Rooted.ext (hr.cons he) x1).cons hb) hb (x1.vr _ _ he (.root (by simp))) (.root (by simp)) (.root (by simp))
        simp only [Option.some.injEq] at e
        have ea := congrArg Prod.fst e
        have eb := congrArg Prod.snd e
        simp only at ea eb
        subst ea eb
        exact ⟨_, _, rfl, ρ2, κ2, h2, hb2, (x1.trans x2 (by simp +contextual)).mono (by simp +contextual)⟩
    | @cons a b hab =>
      simp only [St.createLoc, createLoc] at e ⊢
      cases hm : s.createLoc f (s.car a) env with
      | none => simp [hm] at e
      | some r =>
        obtain ⟨s2, env2⟩ := r
        obtain ⟨s2', env2', e2, ρ2, κ2, h2, he2, x2⟩ := ih h hr (f' := f') (by omega) (h.cars _ _ hab) lk.car he hm
        rw [hm] at e
        rw [e2]
        have hab2 : ρ2 a b := by
          cases x2.vr _ _ (.cons hab) lk with
          | cons h => exact h
        obtain ⟨s3', env3', e3, ρ3, κ3, h3, he3, x3⟩ := ih h2 (hr.ext x2) (f' := f') (by omega) (h2.cdrs _ _ hab2) (x2.live lk).cdr he2 e
        exact ⟨s3', env3', e3, ρ3, κ3, h3, he3, x2.trans x3 (fun _ h => h)⟩
    | _ =>
      simp only [St.createLoc, createLoc, Option.some.injEq, Prod.mk.injEq] at e ⊢
      obtain ⟨rfl, rfl⟩ := e
      exact ⟨_, _, ⟨rfl, rfl⟩, ρ, κ, h, he, .refl _ _ _ _⟩

theorem copySpine_rel (h : Agree ρ κ s s') (hr : Rooted ρ κ R) {f f' : Nat} (hf : f ≤ f') {env env' : V} (he : VR ρ κ env env') (le : Live s' R env')
    {s1 : St} {env1 : V} (e : s.copySpine f env = some (s1, env1)) :
    ∃ s1' env1', copySpine g R s' f' env' = some (s1', env1') ∧ ∃ ρ1 κ1, Agree ρ1 κ1 s1 s1' ∧ VR ρ1 κ1 env1 env1' ∧ Ext R ρ κ s' ρ1 κ1 s1' := by
  induction f generalizing f' env env' s1 env1 with
  | zero => simp [St.copySpine] at e
  | succ f ih =>
    obtain ⟨f', rfl⟩ : ∃ k, f' = k + 1 := ⟨f' - 1, by omega⟩
    cases he with
    | @cons a b hab =>
      simp only [St.copySpine, copySpine] at e ⊢
      cases hm : s.copySpine f (s.cdr a) with
      | none => simp [hm] at e
      | some r =>
        obtain ⟨s2, t⟩ := r
        obtain ⟨s2', t', e2, ρ2, κ2, h2, ht, x2⟩ := ih (f' := f') (by omega) (h.cdrs _ _ hab) le.cdr hm
        rw [hm] at e
        rw [e2]
        have hc : VR ρ2 κ2 (s.car a) (s2'.car b) := by
          rw [x2.keep.car _ le]
          exact x2.vr _ _ (h.cars _ _ hab) le.car
        obtain ⟨ρ3, κ3, h3, hb, x3⟩ := cons_rel hg h2 ((hr.ext x2).cons ht) hc ht (x2.live le).car.cons (.root (by simp))
        simp only [Option.some.injEq] at e
        have ea := congrArg Prod.fst e
        have eb := congrArg Prod.snd e
        simp only at ea eb
        subst ea eb
        exact ⟨_, _, rfl, ρ3, κ3, h3, hb, x2.trans x3 (by simp +contextual)⟩
    | _ =>
      simp only [St.copySpine, copySpine, Option.some.injEq, Prod.mk.injEq] at e ⊢
      obtain ⟨rfl, rfl⟩ := e
      exact ⟨_, _, ⟨rfl, rfl⟩, ρ, κ, h, .sym _, .refl _ _ _ _⟩

theorem matchP_rel {P : Prims} {PG : PrimsG} (hP : PSim P PG) (h : Agree ρ κ s s') (hr : Rooted ρ κ R) {f f' : Nat} (hf : f ≤ f') {p p' x x' env env' : V}
    (hp : VR ρ κ p p') (lp : Live s' R p') (hx : VR ρ κ x x') (lx : Live s' R x') (he : VR ρ κ env env') {s1 : St} {env1 : V} {b : Bool}
    (e : s.matchP P.eq f p x env = some (b, s1, env1)) :
    ∃ s1' env1', matchP g PG R f' s' p' x' env' = some (b, s1', env1') ∧ ∃ ρ1 κ1, Agree ρ1 κ1 s1 s1' ∧ VR ρ1 κ1 env1 env1' ∧ Ext R ρ κ s' ρ1 κ1 s1' := by
  induction f generalizing f' ρ κ s s' p p' x x' env env' s1 env1 b with
  | zero => simp [St.matchP] at e
  | succ f ih =>
    obtain ⟨f', rfl⟩ : ∃ k, f' = k + 1 := ⟨f' - 1, by omega⟩
    simp only [St.matchP, matchP] at e ⊢
    have hbv := binderVar_rel h hp
    by_cases hn : s.binderVar p = .nil
    · rw [if_neg (by simpa using hn)] at e
      rw [if_neg (by simpa using (hbv.eqSym 0).1 hn)]
      cases hp with
      | sym n =>
        simp only [Option.some.injEq, Prod.mk.injEq] at e ⊢
        obtain ⟨rfl, rfl, rfl⟩ := e
        refine ⟨_, _, ⟨?_, rfl, rfl⟩, ρ, κ, h, he, .refl _ _ _ _⟩
        have := hx.eqSym n
        simp only [eq_comm (a := V.sym n)]
        simp only [this]
      | @cons a b1 hab =>
        cases hx with
        | @cons c d hcd =>
          simp only at e ⊢
          cases hm : s.matchP P.eq f (s.car a) (s.car c) env with
          | none => simp [hm] at e
          | some r =>
            obtain ⟨b2, s2, env2⟩ := r
            obtain ⟨s2', env2', e2, ρ2, κ2, h2, he2, x2⟩ := ih h hr (f' := f') (by omega) (h.cars _ _ hab) lp.car (h.cars _ _ hcd) lx.car he hm
            rw [hm] at e
            rw [e2]
            cases b2 with
            | false =>
              simp only [Option.some.injEq, Prod.mk.injEq] at e ⊢
              obtain ⟨rfl, rfl, rfl⟩ := e
              exact ⟨_, _, ⟨rfl, rfl, rfl⟩, ρ2, κ2, h2, he2, x2⟩
            | true =>
              simp only at e ⊢
              have hc1 : VR ρ2 κ2 (s.cdr a) (s2'.cdr b1) := by
                rw [x2.keep.cdr _ lp]
                exact x2.vr _ _ (h.cdrs _ _ hab) lp.cdr
              have hc2 : VR ρ2 κ2 (s.cdr c) (s2'.cdr d) := by
                rw [x2.keep.cdr _ lx]
                exact x2.vr _ _ (h.cdrs _ _ hcd) lx.cdr
              obtain ⟨s3', env3', e3, ρ3, κ3, h3, he3, x3⟩ := ih h2 (hr.ext x2) (f' := f') (by omega) hc1 (x2.live lp).cdr hc2 (x2.live lx).cdr he2 e
              exact ⟨s3', env3', e3, ρ3, κ3, h3, he3, x2.trans x3 (fun _ h => h)⟩
        | sym n =>
          have := hP.eq _ _ _ _ h _ _ _ _ (.cons hab) (.sym n)
          simp only [Option.some.injEq, Prod.mk.injEq] at e ⊢
          obtain ⟨rfl, rfl, rfl⟩ := e
          exact ⟨_, _, ⟨this.symm, rfl, rfl⟩, ρ, κ, h, he, .refl _ _ _ _⟩
        | u n =>
          have := hP.eq _ _ _ _ h _ _ _ _ (.cons hab) (.u n)
          simp only [Option.some.injEq, Prod.mk.injEq] at e ⊢
          obtain ⟨rfl, rfl, rfl⟩ := e
          exact ⟨_, _, ⟨this.symm, rfl, rfl⟩, ρ, κ, h, he, .refl _ _ _ _⟩
        | atom n =>
          have := hP.eq _ _ _ _ h _ _ _ _ (.cons hab) (.atom n)
          simp only [Option.some.injEq, Prod.mk.injEq] at e ⊢
          obtain ⟨rfl, rfl, rfl⟩ := e
          exact ⟨_, _, ⟨this.symm, rfl, rfl⟩, ρ, κ, h, he, .refl _ _ _ _⟩
        | arr n =>
          have := hP.eq _ _ _ _ h _ _ _ _ (.cons hab) (.arr n)
          simp only [Option.some.injEq, Prod.mk.injEq] at e ⊢
          obtain ⟨rfl, rfl, rfl⟩ := e
          exact ⟨_, _, ⟨this.symm, rfl, rfl⟩, ρ, κ, h, he, .refl _ _ _ _⟩
      | u n =>
        have := hP.eq _ _ _ _ h _ _ _ _ (.u n) hx
        simp only [Option.some.injEq, Prod.mk.injEq] at e ⊢
        obtain ⟨rfl, rfl, rfl⟩ := e
        exact ⟨_, _, ⟨this.symm, rfl, rfl⟩, ρ, κ, h, he, .refl _ _ _ _⟩
      | atom n =>
        have := hP.eq _ _ _ _ h _ _ _ _ (.atom n) hx
        simp only [Option.some.injEq, Prod.mk.injEq] at e ⊢
        obtain ⟨rfl, rfl, rfl⟩ := e
        exact ⟨_, _, ⟨this.symm, rfl, rfl⟩, ρ, κ, h, he, .refl _ _ _ _⟩
      | arr n =>
        have := hP.eq _ _ _ _ h _ _ _ _ (.arr n) hx
        simp only [Option.some.injEq, Prod.mk.injEq] at e ⊢
        obtain ⟨rfl, rfl, rfl⟩ := e
        exact ⟨_, _, ⟨this.symm, rfl, rfl⟩, ρ, κ, h, he, .refl _ _ _ _⟩
    · rw [if_pos (by simpa using hn)] at e
      rw [if_pos (by simpa using fun hh => hn ((hbv.eqSym 0).2 hh))]
      obtain ⟨ρ1, κ1, h1, hb, x1⟩ := cons_rel hg h (hr.cons he) hbv hx lp.binderVar.cons lx.cons
      obtain ⟨ρ2, κ2, h2, hb2, x2⟩ := cons_rel hg h1 ((Rooted.ext (hr.cons he) x1).cons hb) hb (x1.vr _ _ he (.root (by simp))) (.root (by simp)) (.root (by simp))
      simp only [Option.some.injEq, Prod.mk.injEq] at e
      obtain ⟨rfl, rfl, rfl⟩ := e
      exact ⟨_, _, rfl, ρ2, κ2, h2, hb2, (x1.trans x2 (by simp +contextual)).mono (by simp +contextual)⟩

theorem macroEnv_rel (h : Agree ρ κ s s') (hr : Rooted ρ κ R) {f f' : Nat} (hf : f ≤ f') {p p' x x' env env' : V}
    (hp : VR ρ κ p p') (lp : Live s' R p') (hx : VR ρ κ x x') (lx : Live s' R x') (he : VR ρ κ env env') {s1 : St} {env1 : V}
    (e : s.macroEnv f p x env = some (s1, env1)) :
    ∃ s1' env1', macroEnv g R f' s' p' x' env' = some (s1', env1') ∧ ∃ ρ1 κ1, Agree ρ1 κ1 s1 s1' ∧ VR ρ1 κ1 env1 env1' ∧ Ext R ρ κ s' ρ1 κ1 s1' := by
  induction f generalizing f' ρ κ s s' p p' x x' env env' s1 env1 with
  | zero => simp [St.macroEnv] at e
  | succ f ih =>
    obtain ⟨f', rfl⟩ : ∃ k, f' = k + 1 := ⟨f' - 1, by omega⟩
    have other : (∀ a b, p = .cons a → x = .cons b → False) →
        ∃ s1' env1', macroEnv g R (f' + 1) s' p' x' env' = some (s1', env1') ∧ ∃ ρ1 κ1, Agree ρ1 κ1 s1 s1' ∧ VR ρ1 κ1 env1 env1' ∧ Ext R ρ κ s' ρ1 κ1 s1' := by
      intro hne
      have e1 : s.macroEnv (f + 1) p x env = some (s, env) := by
        cases p <;> cases x <;> first | rfl | exact (hne _ _ rfl rfl).elim
      have e2 : macroEnv g R (f' + 1) s' p' x' env' = some (s', env') := by
        cases hp <;> cases hx <;> first | rfl | exact (hne _ _ rfl rfl).elim
      rw [e1] at e
      simp only [Option.some.injEq, Prod.mk.injEq] at e
      obtain ⟨rfl, rfl⟩ := e
      exact ⟨_, _, e2, ρ, κ, h, he, .refl _ _ _ _⟩
    cases hp with
    | @cons a b hab =>
      cases hx with
      | @cons c d hcd =>
        simp only [St.macroEnv, macroEnv] at e ⊢
        have hr1 : Rooted ρ κ ([s'.car b, s'.car d, env'] ++ R) := ((hr.cons he).cons (h.cars _ _ hcd)).cons (h.cars _ _ hab)
        obtain ⟨ρ1, κ1, h1, hb, x1⟩ := cons_rel hg h hr1 (h.cars _ _ hab) (h.cars _ _ hcd) (.root (by simp)) (.root (by simp))
        have he1 := x1.vr _ _ he (.root (by simp))
        have x1' := x1.mono (R := R) (by simp +contextual)
        obtain ⟨ρ2, κ2, h2, hb2, x2⟩ := cons_rel hg h1 (R := [(g.cons ([s'.car b, s'.car d, env'] ++ R) s' (s'.car b) (s'.car d)).2, env', .nil] ++ R)
          ((((hr.ext x1').cons (VR.sym 0)).cons he1).cons hb) hb he1 (.root (by simp)) (.root (by simp))
        have x2' := x1'.trans x2 (by simp +contextual)
        obtain ⟨s3', env3', e3, ρ3, κ3, h3, he3, x3⟩ := ih h2 (hr.ext x2') (f' := f') (by omega) (x2'.vr _ _ (h.cdrs _ _ hab) lp.cdr) (x2'.live lp.cdr)
          (x2'.vr _ _ (h.cdrs _ _ hcd) lx.cdr) (x2'.live lx.cdr) hb2 e
        exact ⟨s3', env3', e3, ρ3, κ3, h3, he3, x2'.trans x3 (fun _ h => h)⟩
      | _ => exact other (by simp)
    | _ => exact other (by simp)

theorem envSet_rel (h : Agree ρ κ s s') (hr : Rooted ρ κ R) (n : Nat) {env env' x x' : V} (he : VR ρ κ env env') (le : Live s' R env') (hx : VR ρ κ x x') (lx : Live s' R x')
    {s1 : St} {env1 : V} (e : s.envSet env (.sym n) x = some (s1, env1)) :
    ∃ s1' env1', envSet g R s' env' (.sym n) x' = some (s1', env1') ∧ ∃ ρ1 κ1, Agree ρ1 κ1 s1 s1' ∧ VR ρ1 κ1 env1 env1' ∧
      (∀ v v', VR ρ κ v v' → Live s' R v' → VR ρ1 κ1 v v') := by
  unfold St.envSet at e
  unfold envSet
  cases hm : s.findPair (.sym n) (s.next + 1) env with
  | none => simp [hm] at e
  | some r =>
    obtain ⟨r', e1, hrr⟩ := findPair_rel h n (f' := s'.next + 1) (by have := h.nle; omega) he hm
    rw [hm] at e
    rw [e1]
    cases hrr with
    | some hp =>
      simp only [Option.some.injEq, Prod.mk.injEq] at e
      obtain ⟨rfl, rfl⟩ := e
      exact ⟨_, _, rfl, ρ, κ, setCdr_rel h hp hx, he, fun _ _ h _ => h⟩
    | none =>
      obtain ⟨ρ1, κ1, h1, hb, x1⟩ := cons_rel hg h hr (VR.sym n) hx trivial lx
      obtain ⟨ρ2, κ2, h2, hb2, x2⟩ := cons_rel hg h1 ((hr.ext x1).cons hb) hb (x1.vr _ _ he le) (.root (by simp)) (x1.live le).cons
      simp only [Option.some.injEq] at e
      have ea := congrArg Prod.fst e
      have eb := congrArg Prod.snd e
      simp only at ea eb
      subst ea eb
      exact ⟨_, _, rfl, ρ2, κ2, h2, hb2, (x1.trans x2 (by simp +contextual)).vr⟩

theorem define_rel (h : Agree ρ κ s s') (hr : Rooted ρ κ R) (n : Nat) {x x' : V} (hx : VR ρ κ x x') (lx : Live s' R x')
    {s1 : St} (e : s.define n x = some s1) :
    ∃ s1', define g R s' n x' = some s1' ∧ ∃ ρ1 κ1, Agree ρ1 κ1 s1 s1' ∧ (∀ v v', VR ρ κ v v' → Live s' R v' → VR ρ1 κ1 v v') := by
  unfold St.define at e
  unfold define
  cases hm : s.envSet (s.globals (n % 32)) (.sym n) x with
  | none => simp [hm] at e
  | some r =>
    obtain ⟨s2, env2⟩ := r
    obtain ⟨s2', env2', e2, ρ2, κ2, h2, he2, hv⟩ := envSet_rel hg h hr n (h.glob _) (Reach.glob _).live hx lx hm
    rw [hm] at e
    rw [e2]
    simp only [Option.some.injEq] at e ⊢
    subst e
    exact ⟨_, rfl, ρ2, κ2, setGlob_rel h2 _ he2, hv⟩

theorem letLocs_rel (h : Agree ρ κ s s') (hr : Rooted ρ κ R) {f f' : Nat} (hf : f ≤ f') {bs bs' env env' : V} (hb : VR ρ κ bs bs')
    (lb : Live s' R bs') (he : VR ρ κ env env') {r : Option (St × V)} (e : Eval.letLocs s f bs env = some r) :
    ∃ r', letLocs g R s' f' bs' env' = some r' ∧
      (r = none → r' = none) ∧
      (∀ s1 env1, r = some (s1, env1) → ∃ s1' env1', r' = some (s1', env1') ∧ ∃ ρ1 κ1, Agree ρ1 κ1 s1 s1' ∧ VR ρ1 κ1 env1 env1' ∧ Ext R ρ κ s' ρ1 κ1 s1') := by
  induction f generalizing f' ρ κ s s' bs bs' env env' r with
  | zero => simp [Eval.letLocs] at e
  | succ f ih =>
    obtain ⟨f', rfl⟩ : ∃ k, f' = k + 1 := ⟨f' - 1, by omega⟩
    cases hb with
    | @cons a b hab =>
      simp only [Eval.letLocs, letLocs] at e ⊢
      have hc := gcar_rel h (h.cars _ _ hab)
      have lc : ∀ x, s'.gcar (s'.car b) = some x → Live s' R x := fun x hx => lb.car.gcar hx
      generalize s.gcar (s.car a) = y, s'.gcar (s'.car b) = z at hc e lc ⊢
      cases hc with
      | none =>
        simp only [Option.some.injEq] at e
        subst e
        exact ⟨_, rfl, fun _ => rfl, by simp⟩
      | @some key key' hk =>
        simp only at e ⊢
        cases hm : s.createLoc (s.next + 1) key env with
        | none => simp [hm] at e
        | some q =>
          obtain ⟨s2, env2⟩ := q
          obtain ⟨s2', env2', e2, ρ2, κ2, h2, he2, x2⟩ := createLoc_rel hg h (hr.cons he) (f' := s'.next + 1) (by have := h.nle; omega) hk (lc _ rfl).cons he hm
          have x2 := x2.mono (R := R) (by simp +contextual)
          rw [hm] at e
          rw [e2]
          obtain ⟨r', e3, hn, hs⟩ := ih h2 (hr.ext x2) (f' := f') (by omega) (x2.vr _ _ (h.cdrs _ _ hab) lb.cdr) (x2.live lb.cdr) he2 e
          refine ⟨r', e3, hn, fun s1 env1 hh => ?_⟩
          obtain ⟨s1', env1', hh', ρ3, κ3, h3, he3, x3⟩ := hs s1 env1 hh
          exact ⟨s1', env1', hh', ρ3, κ3, h3, he3, x2.trans x3 (fun _ h => h)⟩
    | _ =>
      simp only [Eval.letLocs, letLocs, Option.some.injEq] at e ⊢
      subst e
      exact ⟨_, rfl, by simp, fun s1 env1 hh => by
        simp only [Option.some.injEq, Prod.mk.injEq] at hh
        obtain ⟨rfl, rfl⟩ := hh
        exact ⟨_, _, rfl, ρ, κ, h, he, .refl _ _ _ _⟩⟩

theorem allocClosure_rel (h : Agree ρ κ s s') (hr : Rooted ρ κ R) {p p' b b' env env' : V} (hp : VR ρ κ p p') (hb : VR ρ κ b b') (he : VR ρ κ env env')
    (lp : Live s' R p') (lb : Live s' R b') (le : Live s' R env') :
    ∃ ρ1 κ1, Agree ρ1 κ1 (Eval.allocClosure s p b env).1 (allocClosure g R s' p' b' env').1 ∧
      VR ρ1 κ1 (Eval.allocClosure s p b env).2 (allocClosure g R s' p' b' env').2 ∧ Ext R ρ κ s' ρ1 κ1 (allocClosure g R s' p' b' env').1 := by
  obtain ⟨ρ1, κ1, h1, c1, x1⟩ := cons_rel hg h hr he (VR.sym 0) le trivial
  obtain ⟨ρ2, κ2, h2, c2, x2⟩ := cons_rel hg h1 ((hr.ext x1).cons c1) (x1.vr _ _ hb lb) c1 (x1.live lb).cons (.root (by simp))
  have x2 := x1.trans x2 (by simp +contextual)
  obtain ⟨ρ3, κ3, h3, c3, x3⟩ := cons_rel hg h2 ((hr.ext x2).cons c2) (x2.vr _ _ hp lp) c2 (x2.live lp).cons (.root (by simp))
  have x3 := x2.trans x3 (by simp +contextual)
  obtain ⟨ρ4, κ4, h4, c4, x4⟩ := cons_rel hg h3 ((hr.ext x3).cons c3) (VR.sym 0x10F) c3 trivial (.root (by simp))
  exact ⟨ρ4, κ4, h4, c4, x3.trans x4 (by simp +contextual)⟩

theorem allocBinding_rel (h : Agree ρ κ s s') (hr : Rooted ρ κ R) {k k' x x' env env' : V} (hk : VR ρ κ k k') (hx : VR ρ κ x x') (he : VR ρ κ env env') :
    ∃ ρ1 κ1, Agree ρ1 κ1 (Eval.allocBinding s k x env).1 (allocBinding g R s' k' x' env').1 ∧
      VR ρ1 κ1 (Eval.allocBinding s k x env).2 (allocBinding g R s' k' x' env').2 ∧ Ext R ρ κ s' ρ1 κ1 (allocBinding g R s' k' x' env').1 := by
  have hr1 : Rooted ρ κ ([k', x', env'] ++ R) := ((hr.cons he).cons hx).cons hk
  obtain ⟨ρ1, κ1, h1, c1, x1⟩ := cons_rel hg h hr1 hk hx (.root (by simp)) (.root (by simp))
  obtain ⟨ρ2, κ2, h2, c2, x2⟩ := cons_rel hg h1 ((hr1.ext x1).cons c1) c1 (x1.vr _ _ he (.root (by simp))) (.root (by simp)) (.root (by simp))
  exact ⟨ρ2, κ2, h2, c2, (x1.trans x2 (by simp +contextual)).mono (by simp +contextual)⟩

end

end Verif.Gc
