import Verif.Eval.Demo

/-!
# Pattern matching

What `match` binds, stated without the algorithm.
-/

namespace Verif.Eval

/-- The value is not a cell that has not been allocated. -/
def St.okv (s : St) (v : V) : Prop := ∀ a, v = .cons a → a < s.next

/-- No cell points outside of the allocated cells. -/
def St.Closed (s : St) : Prop := ∀ i, i < s.next → s.okv (s.car i) ∧ s.okv (s.cdr i)

/-- `s'` has the cells of `s` and maybe more. -/
def St.Ext (s s' : St) : Prop := s.next ≤ s'.next ∧ ∀ i, i < s.next → s'.car i = s.car i ∧ s'.cdr i = s.cdr i

/-- `(? x)` -/
def St.IsBinder (s : St) (p x : V) : Prop :=
  ∃ a b, p = .cons a ∧ s.car a = .matchAny ∧ s.cdr a = .cons b ∧ s.car b = x ∧ x ≠ .nil

/-- The value `v` matches the pattern `p` and binds the names in the list, the last one first. -/
inductive Pat (s : St) (eq : St → V → V → Bool) : V → V → List (V × V) → Prop
  /-- `(? x)` matches everything and binds `x` -/
  | bind {p x v} : s.IsBinder p x → Pat s eq p v [(x, v)]
  /-- `_` matches everything -/
  | any {v} : Pat s eq .dontcare v []
  /-- a symbol matches itself -/
  | sym {n} : Pat s eq (.sym n) (.sym n) []
  /-- a pair matches a pair if the parts do -/
  | cons {a b l1 l2} : (∀ x, ¬ s.IsBinder (.cons a) x) → Pat s eq (s.car a) (s.car b) l1 → Pat s eq (s.cdr a) (s.cdr b) l2 →
      Pat s eq (.cons a) (.cons b) (l2 ++ l1)
  /-- other things match what is equal to them -/
  | same {p v} : (∀ x, ¬ s.IsBinder p x) → p.isSym = false → (p.isCons && v.isCons) = false → eq s p v = true → Pat s eq p v []

/-- `env1` is `env` with the bindings `l` in front. -/
inductive EnvIs (s : St) (env : V) : V → List (V × V) → Prop
  | nil : EnvIs s env env []
  | cons {c b l} : s.car c = .cons b → EnvIs s env (s.cdr c) l → EnvIs s env (.cons c) ((s.car b, s.cdr b) :: l)

theorem St.Ext.refl (s : St) : s.Ext s := ⟨by omega, fun _ _ => ⟨rfl, rfl⟩⟩

theorem St.Ext.trans {a b c : St} (h1 : a.Ext b) (h2 : b.Ext c) : a.Ext c :=
  ⟨by have := h1.1; have := h2.1; omega, fun i hi => by
    have e1 := h1.2 i hi
    have e2 := h2.2 i (by have := h1.1; omega)
    exact ⟨e2.1.trans e1.1, e2.2.trans e1.2⟩⟩

theorem St.cons_ext (s : St) (a d : V) : s.Ext (s.cons a d).1 := by
  refine ⟨by simp [St.cons], fun i hi => ?_⟩
  have : ¬ i = s.next := by omega
  simp [St.cons, this]

theorem EnvIs.ext {s s' : St} {env env1 : V} {l : List (V × V)} (h : EnvIs s env env1 l) (he : s.Ext s') (hc : s.Closed) (ho : s.okv env1) :
    EnvIs s' env env1 l := by
  induction h with
  | nil => exact .nil
  | @cons c b l hb _ ih =>
    have hcn : c < s.next := ho c rfl
    have e1 := he.2 c hcn
    have hbn : b < s.next := (hc c hcn).1 b hb
    have e2 := he.2 b hbn
    have ih := ih (hc c hcn).2
    rw [← e1.2] at ih
    have := EnvIs.cons (e1.1.trans hb) ih
    rwa [e2.1, e2.2] at this

theorem EnvIs.append {s : St} {env env1 env2 : V} {l1 l2 : List (V × V)} (h2 : EnvIs s env1 env2 l2) (h1 : EnvIs s env env1 l1) :
    EnvIs s env env2 (l2 ++ l1) := by
  induction h2 with
  | nil => exact h1
  | cons hb _ ih => exact .cons hb ih

theorem St.cons_closed {s : St} (hc : s.Closed) {a d : V} (ha : s.okv a) (hd : s.okv d) : (s.cons a d).1.Closed := by
  intro i hi
  have hi' : i < s.next + 1 := hi
  by_cases h : i = s.next
  · subst h
    simp only [St.cons, if_true, St.okv]
    exact ⟨fun x hx => by have := ha x hx; omega, fun x hx => by have := hd x hx; omega⟩
  · have := hc i (by omega)
    simp only [St.cons, h, if_false, St.okv]
    exact ⟨fun x hx => by have := this.1 x hx; omega, fun x hx => by have := this.2 x hx; omega⟩

theorem St.okv.ext {s s' : St} {v : V} (h : s.okv v) (he : s.Ext s') : s'.okv v := fun a ha => by
  have := h a ha; have := he.1; omega

theorem binderVar_spec {s0 s : St} (he : s0.Ext s) (hc : s0.Closed) {p : V} (hp : s0.okv p) :
    (s.binderVar p ≠ .nil → s0.IsBinder p (s.binderVar p)) ∧ (s.binderVar p = .nil → ∀ x, ¬ s0.IsBinder p x) := by
  cases p with
  | cons a =>
    have han : a < s0.next := hp a rfl
    have e1 := he.2 a han
    simp only [St.binderVar, e1.1, e1.2]
    by_cases hm : s0.car a = .matchAny
    · rw [if_pos hm]
      cases hd : s0.cdr a with
      | cons b =>
        have e2 := he.2 b ((hc a han).2 b hd)
        refine ⟨fun h => ⟨a, b, rfl, hm, hd, e2.1.symm, h⟩, fun h x hx => ?_⟩
        obtain ⟨a', b', h1, h2, h3, h4, h5⟩ := hx
        cases h1
        rw [hd] at h3
        cases h3
        exact h5 (h4 ▸ e2.1 ▸ h)
      | _ =>
        refine ⟨fun h => absurd rfl h, fun _ x hx => ?_⟩
        obtain ⟨a', b', h1, h2, h3, h4, h5⟩ := hx
        cases h1
        rw [hd] at h3
        cases h3
    · rw [if_neg hm]
      refine ⟨fun h => absurd rfl h, fun _ x hx => ?_⟩
      obtain ⟨a', b', h1, h2, h3, h4, h5⟩ := hx
      cases h1
      exact hm h2
  | _ =>
    refine ⟨fun h => absurd rfl h, fun _ x hx => ?_⟩
    obtain ⟨a', b', h1, _⟩ := hx
    cases h1

/-- `struct_eq` only looks at cells that can be reached from its arguments. -/
def EqStable (eq : St → V → V → Bool) : Prop :=
  ∀ s s' p v, s.Closed → s.okv p → s.okv v → s.Ext s' → eq s' p v = eq s p v

theorem matchP_spec {eq : St → V → V → Bool} (hq : EqStable eq) {s0 : St} (hc0 : s0.Closed) :
    ∀ (f : Nat) (s : St) (p v env : V) (b : Bool) (s1 : St) (env1 : V), s0.Ext s → s.Closed → s0.okv p → s0.okv v → s.okv env →
      St.matchP eq f s p v env = some (b, s1, env1) →
      s.Ext s1 ∧ s1.Closed ∧ s1.okv env1 ∧
        (b = true → ∃ l, Pat s0 eq p v l ∧ EnvIs s1 env env1 l) ∧ (b = false → ∀ l, ¬ Pat s0 eq p v l)
  | 0, _, _, _, _, _, _, _, _, _, _, _, _, h => by cases h
  | f + 1, s, p, v, env, b, s1, env1, he, hc, hp, hv, hn, h => by
    obtain ⟨hb1, hb2⟩ := binderVar_spec he hc0 hp
    rw [St.matchP.eq_def] at h
    dsimp only at h
    by_cases hb : s.binderVar p ≠ .nil
    · rw [if_pos hb] at h
      cases h
      have hbd := hb1 hb
      have hx : s.okv (s.binderVar p) := by
        obtain ⟨a, c, h1, h2, h3, h4, h5⟩ := hbd
        intro y hy
        have ha := hp a h1
        have hcn := (hc0 a ha).2 c h3
        have := (hc0 c hcn).1 y (h4.trans hy)
        have := he.1
        omega
      have c1 := St.cons_closed hc hx (hv.ext he)
      have o1 : (s.cons (s.binderVar p) v).1.okv (.cons s.next) := fun a ha => by cases ha; simp [St.cons]
      have c2 := St.cons_closed c1 o1 (hn.ext (s.cons_ext _ _))
      refine ⟨(s.cons_ext _ _).trans (St.cons_ext _ _ _), c2, fun a ha => by cases ha; simp [St.cons], fun _ => ⟨_, .bind hbd, ?_⟩, fun h => by cases h⟩
      have : EnvIs ((s.cons (s.binderVar p) v).1.cons (.cons s.next) env).1 env (.cons (s.next + 1))
          [(((s.cons (s.binderVar p) v).1.cons (.cons s.next) env).1.car s.next, ((s.cons (s.binderVar p) v).1.cons (.cons s.next) env).1.cdr s.next)] := by
        refine .cons (b := s.next) (by simp [St.cons]) ?_
        have : ((s.cons (s.binderVar p) v).1.cons (.cons s.next) env).1.cdr (s.next + 1) = env := by simp [St.cons]
        rw [this]
        exact .nil
      simpa [St.cons] using this
    · have hb0 : s.binderVar p = .nil := Decidable.not_not.1 hb
      have hnb := hb2 hb0
      rw [if_neg hb] at h
      have base : ∀ (b' : Bool), (some (b', s, env) : Option (Bool × St × V)) = some (b, s1, env1) →
          (b' = true → Pat s0 eq p v []) → (b' = false → ∀ l, ¬ Pat s0 eq p v l) →
          s.Ext s1 ∧ s1.Closed ∧ s1.okv env1 ∧
            (b = true → ∃ l, Pat s0 eq p v l ∧ EnvIs s1 env env1 l) ∧ (b = false → ∀ l, ¬ Pat s0 eq p v l) := by
        intro b' hb' ht hf
        cases hb'
        exact ⟨St.Ext.refl _, hc, hn, fun hb => ⟨[], ht hb, .nil⟩, hf⟩
      have heq : eq s p v = eq s0 p v := hq s0 s p v hc0 hp hv he
      have eqCase : p.isSym = false → (p.isCons && v.isCons) = false →
          (some (eq s p v, s, env) : Option (Bool × St × V)) = some (b, s1, env1) →
          s.Ext s1 ∧ s1.Closed ∧ s1.okv env1 ∧
            (b = true → ∃ l, Pat s0 eq p v l ∧ EnvIs s1 env env1 l) ∧ (b = false → ∀ l, ¬ Pat s0 eq p v l) := by
        intro hs hcc h
        refine base _ h (fun hb => .same hnb hs hcc (heq ▸ hb)) (fun hb l hl => ?_)
        cases hl with
        | bind hx => exact hnb _ hx
        | any => cases hs
        | sym => cases hs
        | cons _ _ _ => cases hcc
        | same _ _ _ h' => rw [← heq, hb] at h'; cases h'
      split at h
      · rename_i n
        refine base _ h (fun hb => ?_) (fun hb l hl => ?_)
        · rcases of_decide_eq_true hb with rfl | rfl
          · exact .any
          · exact .sym
        · have hb := of_decide_eq_false hb
          cases hl with
          | bind hx => exact hnb _ hx
          | any => exact hb (.inl rfl)
          | sym => exact hb (.inr rfl)
          | same _ h' _ _ => cases h'
      · rename_i a
        split at h
        · rename_i c
          have ha := hp a rfl
          have hcn := hv c rfl
          have ea := he.2 a ha
          have ec := he.2 c hcn
          rw [ea.1, ec.1, ea.2, ec.2] at h
          split at h
          · cases h
          · rename_i s2 env2 h1
            cases h
            obtain ⟨x1, x2, x3, x4, x5⟩ := matchP_spec hq hc0 f s _ _ _ _ _ _ he hc (hc0 a ha).1 (hc0 c hcn).1 hn h1
            refine ⟨x1, x2, x3, (fun h => by cases h), fun _ l hl => ?_⟩
            cases hl with
            | bind hx => exact hnb _ hx
            | cons _ p1 _ => exact x5 rfl _ p1
            | same _ _ h' _ => cases h'
          · rename_i s2 env2 h1
            obtain ⟨x1, x2, x3, x4, x5⟩ := matchP_spec hq hc0 f s _ _ _ _ _ _ he hc (hc0 a ha).1 (hc0 c hcn).1 hn h1
            obtain ⟨y1, y2, y3, y4, y5⟩ := matchP_spec hq hc0 f s2 _ _ _ _ _ _ (he.trans x1) x2 (hc0 a ha).2 (hc0 c hcn).2 x3 h
            obtain ⟨l1, p1, e1⟩ := x4 rfl
            refine ⟨x1.trans y1, y2, y3, fun hb => ?_, fun hb l hl => ?_⟩
            · obtain ⟨l2, p2, e2⟩ := y4 hb
              refine ⟨l2 ++ l1, .cons hnb p1 p2, ?_⟩
              exact e2.append (e1.ext y1 x2 x3)
            · cases hl with
              | bind hx => exact hnb _ hx
              | cons _ _ p2 => exact y5 hb _ p2
              | same _ _ h' _ => cases h'
        · rename_i hv'
          exact eqCase rfl (by cases v <;> first | rfl | exact absurd rfl (hv' _)) h
      · rename_i h1 h2
        refine eqCase ?_ ?_ h
        · cases p <;> first | rfl | exact absurd rfl (h1 _)
        · cases p <;> first | rfl | exact absurd rfl (h2 _)

end Verif.Eval
