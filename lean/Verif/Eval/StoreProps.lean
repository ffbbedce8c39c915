import Verif.Eval.Match

/-!
# What the store operations of the evaluator do

The semantics in `Verif.Eval.Spec` looks up, binds and assigns variables with the operations of `Verif.Eval.Store`. The theorems here say what these operations do
without reference to their definitions.
-/

namespace Verif.Eval

/-- The environment `env` is a list of the pairs in the cells `ps`. -/
inductive EnvCells (s : St) : V → List Nat → Prop
  | nil {e : V} : (∀ a, e ≠ .cons a) → EnvCells s e []
  | cons {c p ps} : s.car c = .cons p → EnvCells s (s.cdr c) ps → EnvCells s (.cons c) (p :: ps)

/-- `p` is the first of the cells `ps` with the property `q`. -/
def IsFirst (q : Nat → Prop) (ps : List Nat) (p : Nat) : Prop := ∃ l r, ps = l ++ p :: r ∧ q p ∧ ∀ x, x ∈ l → ¬ q x

theorem IsFirst.head {q : Nat → Prop} {p : Nat} {ps : List Nat} (h : q p) : IsFirst q (p :: ps) p := ⟨[], ps, rfl, h, fun _ h => by cases h⟩

theorem IsFirst.tail {q : Nat → Prop} {p x : Nat} {ps : List Nat} (hx : ¬ q x) (h : IsFirst q ps p) : IsFirst q (x :: ps) p := by
  obtain ⟨l, r, h1, h2, h3⟩ := h
  exact ⟨x :: l, r, by rw [h1]; rfl, h2, fun y hy => by
    rcases List.mem_cons.1 hy with rfl | hy
    · exact hx
    · exact h3 y hy⟩

/-- Looking up a variable in a local environment: the value of the first pair with that key which is not the placeholder of a variable that has no value yet. -/
theorem lookup_spec {s : St} {key : V} {env : V} {ps : List Nat} (h : EnvCells s env ps) {f : Nat} (hf : ps.length < f) :
    (∃ p, s.lookup key f env = some (some (s.cdr p)) ∧ IsFirst (fun p => s.car p = key ∧ s.cdr p ≠ .placeholder) ps p) ∨
      (s.lookup key f env = some none ∧ ∀ p, p ∈ ps → s.car p = key → s.cdr p = .placeholder) := by
  induction h generalizing f with
  | @nil e he =>
    right
    refine ⟨?_, fun _ h => by cases h⟩
    cases f with
    | zero => simp at hf
    | succ f => cases e <;> first | rfl | exact absurd rfl (he _)
  | @cons c p ps hc _ ih =>
    cases f with
    | zero => simp at hf
    | succ f =>
      simp only [St.lookup, hc]
      split
      · rename_i hk
        exact .inl ⟨p, rfl, .head hk⟩
      · rename_i hk
        rcases ih (f := f) (by simp at hf; omega) with ⟨q, h1, h2⟩ | ⟨h1, h2⟩
        · exact .inl ⟨q, h1, h2.tail hk⟩
        · refine .inr ⟨h1, fun q hq hqk => ?_⟩
          rcases List.mem_cons.1 hq with rfl | hq
          · exact Classical.byContradiction fun h => hk ⟨hqk, h⟩
          · exact h2 q hq hqk

/-- Looking up a variable in a bucket of the global environment: the value of the first pair with that key. -/
theorem glookupLoop_spec {s : St} {key : V} {env : V} {ps : List Nat} (h : EnvCells s env ps) {f : Nat} (hf : ps.length < f) :
    (∃ p, s.glookupLoop key f env = some (some (s.cdr p)) ∧ IsFirst (fun p => s.car p = key) ps p) ∨
      (s.glookupLoop key f env = some none ∧ ∀ p, p ∈ ps → s.car p ≠ key) := by
  induction h generalizing f with
  | @nil e he =>
    right
    refine ⟨?_, fun _ h => by cases h⟩
    cases f with
    | zero => simp at hf
    | succ f => cases e <;> first | rfl | exact absurd rfl (he _)
  | @cons c p ps hc _ ih =>
    cases f with
    | zero => simp at hf
    | succ f =>
      simp only [St.glookupLoop, hc]
      split
      · rename_i hk
        exact .inl ⟨p, rfl, .head hk⟩
      · rename_i hk
        rcases ih (f := f) (by simp at hf; omega) with ⟨q, h1, h2⟩ | ⟨h1, h2⟩
        · exact .inl ⟨q, h1, h2.tail hk⟩
        · refine .inr ⟨h1, fun q hq => ?_⟩
          rcases List.mem_cons.1 hq with rfl | hq
          · exact hk
          · exact h2 q hq

theorem findPair_spec {s : St} {key : V} {env : V} {ps : List Nat} (h : EnvCells s env ps) {f : Nat} (hf : ps.length < f) :
    (∃ p, s.findPair key f env = some (some (.cons p)) ∧ IsFirst (fun p => s.car p = key) ps p) ∨
      (s.findPair key f env = some none ∧ ∀ p, p ∈ ps → s.car p ≠ key) := by
  induction h generalizing f with
  | @nil e he =>
    right
    refine ⟨?_, fun _ h => by cases h⟩
    cases f with
    | zero => simp at hf
    | succ f => cases e <;> first | rfl | exact absurd rfl (he _)
  | @cons c p ps hc _ ih =>
    cases f with
    | zero => simp at hf
    | succ f =>
      simp only [St.findPair, hc, St.lcar]
      split
      · rename_i hk
        exact .inl ⟨p, rfl, .head hk⟩
      · rename_i hk
        rcases ih (f := f) (by simp at hf; omega) with ⟨q, h1, h2⟩ | ⟨h1, h2⟩
        · exact .inl ⟨q, h1, h2.tail hk⟩
        · refine .inr ⟨h1, fun q hq => ?_⟩
          rcases List.mem_cons.1 hq with rfl | hq
          · exact hk
          · exact h2 q hq

/-- `s'` is `s` except that the value in the pair `p` is `val`. -/
structure Assigned (s s' : St) (p : Nat) (val : V) : Prop where
  car : s'.car = s.car
  cdr : ∀ i, s'.cdr i = if i = p then val else s.cdr i
  next : s'.next = s.next
  globals : s'.globals = s.globals
  atomic : s'.atomic = s.atomic
  konts : s'.konts = s.konts
  nk : s'.nk = s.nk

/-- Assigning in an environment changes the value in the first pair with that key, and nothing else. -/
theorem modify_spec {s : St} {key env val : V} {ps : List Nat} (h : EnvCells s env ps) (hf : ps.length ≤ s.next) :
    (∃ p s', s.modify env key val = some (some s') ∧ IsFirst (fun p => s.car p = key) ps p ∧ Assigned s s' p val) ∨
      (s.modify env key val = some none ∧ ∀ p, p ∈ ps → s.car p ≠ key) := by
  rcases findPair_spec (key := key) h (f := s.next + 1) (by omega) with ⟨p, h1, h2⟩ | ⟨h1, h2⟩
  · refine .inl ⟨p, _, by simp only [St.modify, h1]; rfl, h2, ?_⟩
    constructor <;> intros <;> rfl
  · exact .inr ⟨by simp only [St.modify, h1], h2⟩

/-- `s'` is `s` with a new pair of `key` and `val` in the cell `p` and a new cell `p + 1` that puts it in front of `env`; `globals` may be different. -/
structure Pushed (s s' : St) (key val env : V) : Prop where
  pair : s'.car s.next = key ∧ s'.cdr s.next = val
  spine : s'.car (s.next + 1) = .cons s.next ∧ s'.cdr (s.next + 1) = env
  car : ∀ i, i < s.next → s'.car i = s.car i
  cdr : ∀ i, i < s.next → s'.cdr i = s.cdr i
  next : s'.next = s.next + 2
  atomic : s'.atomic = s.atomic
  konts : s'.konts = s.konts
  nk : s'.nk = s.nk

/-- `define`: either the value in the first pair with that key in the bucket changes, or there is none and a new pair is put in front of the bucket. Nothing else changes. -/
theorem define_spec {s : St} {n : Nat} {val : V} {ps : List Nat} (h : EnvCells s (s.globals (n % 32)) ps) (hf : ps.length ≤ s.next) :
    ∃ s', s.define n val = some s' ∧
      ((∃ p, IsFirst (fun p => s.car p = .sym n) ps p ∧ Assigned s s' p val) ∨
        ((∀ p, p ∈ ps → s.car p ≠ .sym n) ∧ Pushed s s' (.sym n) val (s.globals (n % 32)) ∧
          ∀ i, s'.globals i = if i = n % 32 then .cons (s.next + 1) else s.globals i)) := by
  rcases findPair_spec (key := .sym n) h (f := s.next + 1) (by omega) with ⟨p, h1, h2⟩ | ⟨h1, h2⟩
  · refine ⟨_, by simp only [St.define, St.envSet, h1]; rfl, .inl ⟨p, h2, ?_⟩⟩
    constructor
    case globals =>
      funext i
      show (if i = n % 32 then s.globals (n % 32) else s.globals i) = s.globals i
      split
      · rename_i h; rw [h]
      · rfl
    all_goals (intros; rfl)
  · refine ⟨_, by simp only [St.define, St.envSet, h1]; rfl, .inr ⟨h2, ?_, fun _ => rfl⟩⟩
    constructor
    case next => rfl
    case atomic => rfl
    case konts => rfl
    case nk => rfl
    all_goals simp [St.cons]
    all_goals (intro i hi; simp [Nat.ne_of_lt hi, show i ≠ s.next + 1 by omega])

/-- `setq`: the first pair with that key in the local environment, or else in the global one, gets the value. Partial: one of them has it. (If none has it, the code raises an error, but also
replaces the bucket of the global environment, see C21.) -/
theorem setvar_spec_partial {s : St} {n : Nat} {val env : V} {ps gs : List Nat} (h : EnvCells s env ps) (hf : ps.length ≤ s.next)
    (hg : EnvCells s (s.globals (n % 32)) gs) (hfg : gs.length ≤ s.next) (hb : ∃ p, p ∈ ps ++ gs ∧ s.car p = .sym n) :
    ∃ s' p, s.setvar n val env = some (s', true) ∧ IsFirst (fun p => s.car p = .sym n) (ps ++ gs) p ∧ Assigned s s' p val := by
  rcases modify_spec (key := .sym n) (val := val) h hf with ⟨p, s', h1, h2, h3⟩ | ⟨h1, h2⟩
  · obtain ⟨l, r, h4, h5, h6⟩ := h2
    exact ⟨s', p, by simp only [St.setvar, h1], ⟨l, r ++ gs, by rw [h4, List.append_assoc]; rfl, h5, h6⟩, h3⟩
  · rcases modify_spec (key := .sym n) (val := val) hg hfg with ⟨p, s', h1', h2', h3'⟩ | ⟨h1', h2'⟩
    · obtain ⟨l, r, h4, h5, h6⟩ := h2'
      refine ⟨s', p, by simp only [St.setvar, h1, h1'], ⟨ps ++ l, r, by rw [h4, List.append_assoc], h5, fun x hx => ?_⟩, h3'⟩
      rcases List.mem_append.1 hx with hx | hx
      · exact h2 x hx
      · exact h6 x hx
    · obtain ⟨p, hp, hk⟩ := hb
      rcases List.mem_append.1 hp with hp | hp
      · exact absurd hk (h2 p hp)
      · exact absurd hk (h2' p hp)

theorem copySpine_ext {s : St} {env : V} {ps : List Nat} (h : EnvCells s env ps) {f : Nat} (hf : ps.length < f) :
    ∃ s' env', s.copySpine f env = some (s', env') ∧ s.Ext s' ∧ (∀ a, env' = .cons a → s.next ≤ a) ∧ s'.globals = s.globals ∧ ∀ s'', s'.Ext s'' → EnvCells s'' env' ps := by
  induction h generalizing f with
  | @nil e he =>
    cases f with
    | zero => simp at hf
    | succ f =>
      refine ⟨s, .nil, ?_, .refl s, (fun a ha => by cases ha), rfl, fun _ _ => .nil (fun a ha => by cases ha)⟩
      cases e <;> first | rfl | exact absurd rfl (he _)
  | @cons c p ps hc _ ih =>
    cases f with
    | zero => simp at hf
    | succ f =>
      obtain ⟨s1, t, h1, h2, _, h4, h5⟩ := ih (f := f) (by simp at hf; omega)
      refine ⟨(s1.cons (s.car c) t).1, .cons s1.next, ?_, h2.trans (St.cons_ext ..), ?_, h4, ?_⟩
      · simp only [St.copySpine, h1]; rfl
      · intro a ha; cases ha; exact h2.1
      · intro s'' he
        have h6 := he.2 s1.next (by simp [St.cons])
        simp only [St.cons, if_true] at h6
        refine .cons (h6.1.trans hc) ?_
        rw [h6.2]
        exact h5 s'' ((St.cons_ext ..).trans he)

/-- Copying the spine of an environment (done when the environment of a `progn` is about to be extended): a list of new cells with the same pairs; the old cells and the global environment are unchanged. -/
theorem copySpine_spec {s : St} {env : V} {ps : List Nat} (h : EnvCells s env ps) {f : Nat} (hf : ps.length < f) :
    ∃ s' env', s.copySpine f env = some (s', env') ∧ EnvCells s' env' ps ∧ s.Ext s' ∧ (∀ a, env' = .cons a → s.next ≤ a) ∧ s'.globals = s.globals := by
  obtain ⟨s', e, h1, h2, h3, h4, h5⟩ := copySpine_ext h hf
  exact ⟨s', e, h1, h5 s' (.refl s'), h2, h3, h4⟩

/-- The variables in the target of a `let` or `var` binding, a symbol or a tree of symbols, from left to right. -/
inductive Targets (s : St) : V → List V → Prop
  | skip {n} : n = 0 ∨ n = 9 → Targets s (.sym n) []
  | sym {n} : ¬ (n = 0 ∨ n = 9) → Targets s (.sym n) [.sym n]
  | cons {a l r} : Targets s (s.car a) l → Targets s (s.cdr a) r → Targets s (.cons a) (l ++ r)
  | other {v} : (∀ n, v ≠ .sym n) → (∀ a, v ≠ .cons a) → Targets s v []

/-- Before the value of a binding is evaluated, the environment gets a pair with a placeholder for each variable of the target. -/
theorem createLoc_spec {s0 : St} (hc0 : s0.Closed) : ∀ (f : Nat) (s : St) (key env : V) (s1 : St) (env1 : V), s0.Ext s → s.okv env → s0.okv key →
    St.createLoc f s key env = some (s1, env1) →
    s.Ext s1 ∧ s1.okv env1 ∧ s1.globals = s.globals ∧ ∃ l, Targets s0 key l ∧ ∀ s'', s1.Ext s'' → EnvIs s'' env env1 ((l.map fun k => (k, V.placeholder)).reverse)
  | 0, _, _, _, _, _, _, _, _, h => by cases h
  | f + 1, s, key, env, s1, env1, he, ho, hk, h => by
    cases key with
    | sym n =>
      simp only [St.createLoc] at h
      split at h
      · rename_i hn
        cases h
        exact ⟨.refl _, ho, rfl, [], .skip hn, fun _ _ => .nil⟩
      · rename_i hn
        cases h
        refine ⟨(St.cons_ext ..).trans (St.cons_ext ..), (fun a ha => by cases ha; simp [St.cons]), rfl, [.sym n], .sym hn, ?_⟩
        intro s'' hs
        have h1 := hs.2 s.next (by simp [St.cons]; omega)
        have h2 := hs.2 (s.next + 1) (by simp [St.cons])
        simp [St.cons] at h1 h2
        have := EnvIs.cons (s := s'') (env := env) (c := s.next + 1) (b := s.next) (l := []) h2.1 (by rw [h2.2]; exact .nil)
        rw [h1.1, h1.2] at this
        exact this
    | cons a =>
      simp only [St.createLoc] at h
      have han : a < s0.next := hk a rfl
      cases h1 : St.createLoc f s (s.car a) env with
      | none => rw [h1] at h; cases h
      | some x =>
        obtain ⟨s2, env2⟩ := x
        rw [h1] at h
        simp only at h
        have hcl := hc0 a han
        have e1 := he.2 a han
        obtain ⟨a1, a2, a3, l, a4, a5⟩ := createLoc_spec hc0 f s _ env s2 env2 he ho (by rw [e1.1]; exact hcl.1) h1
        have e2 := (he.trans a1).2 a han
        obtain ⟨b1, b2, b3, r, b4, b5⟩ := createLoc_spec hc0 f s2 _ env2 s1 env1 (he.trans a1) a2 (by rw [e2.2]; exact hcl.2) h
        refine ⟨a1.trans b1, b2, b3.trans a3, l ++ r, .cons (by rwa [e1.1] at a4) (by rwa [e2.2] at b4), ?_⟩
        intro s'' hs
        rw [List.map_append, List.reverse_append]
        exact (b5 s'' hs).append (a5 s'' (b1.trans hs))
    | _ =>
      simp only [St.createLoc] at h
      cases h
      exact ⟨.refl _, ho, rfl, [], .other (fun _ h => by cases h) (fun _ h => by cases h), fun _ _ => .nil⟩

/-- The environment `env` is a list of the pairs in the cells `ps`; the cells of the list are not in `P`. -/
inductive EnvSep (s : St) (P : List Nat) : V → List Nat → Prop
  | nil {e : V} : (∀ a, e ≠ .cons a) → EnvSep s P e []
  | cons {c p ps} : s.car c = .cons p → c ∉ P → EnvSep s P (s.cdr c) ps → EnvSep s P (.cons c) (p :: ps)

/-- The assignments that bind the variables of a target to the parts of a value, from left to right. The cells of the target and the value are not in `P`. -/
inductive Parts (s : St) (P : List Nat) : V → V → List (V × V) → Prop
  | skip {v} : Parts s P (.sym 9) v []
  | sym {n v} : n ≠ 9 → Parts s P (.sym n) v [(.sym n, v)]
  | cons {a b l r} : a ∉ P → b ∉ P → Parts s P (s.car a) (s.car b) l → Parts s P (s.cdr a) (s.cdr b) r → Parts s P (.cons a) (.cons b) (l ++ r)

/-- The value does not have the shape of the target. -/
inductive Mismatch (s : St) (P : List Nat) : V → V → Prop
  | target {k v} : (∀ n, k ≠ .sym n) → (∀ a, k ≠ .cons a) → Mismatch s P k v
  | value {a v} : (∀ b, v ≠ .cons b) → Mismatch s P (.cons a) v
  | left {a b} : Mismatch s P (s.car a) (s.car b) → Mismatch s P (.cons a) (.cons b)
  | right {a b l} : a ∉ P → b ∉ P → Parts s P (s.car a) (s.car b) l → Mismatch s P (s.cdr a) (s.cdr b) → Mismatch s P (.cons a) (.cons b)

/-- `s'` is the result of making the assignments one after the other; a variable without a pair is skipped. -/
inductive AssignAll (ps : List Nat) : St → List (V × V) → St → Prop
  | nil {s} : AssignAll ps s [] s
  | one {s s1 s' k v l p} : IsFirst (fun p => s.car p = k) ps p → Assigned s s1 p v → AssignAll ps s1 l s' → AssignAll ps s ((k, v) :: l) s'
  | skip {s s' k v l} : (∀ p, p ∈ ps → s.car p ≠ k) → AssignAll ps s l s' → AssignAll ps s ((k, v) :: l) s'

theorem EnvSep.cells {s : St} {P : List Nat} {env : V} {ps : List Nat} (h : EnvSep s P env ps) : EnvCells s env ps := by
  induction h with
  | nil h => exact .nil h
  | cons h _ _ ih => exact .cons h ih

theorem IsFirst.mem {q : Nat → Prop} {ps : List Nat} {p : Nat} (h : IsFirst q ps p) : p ∈ ps := by
  obtain ⟨l, r, h, _⟩ := h
  rw [h]; simp

/-- Cells outside of `P` have not changed. -/
def Keeps (P : List Nat) (s s' : St) : Prop := s'.car = s.car ∧ s'.next = s.next ∧ ∀ i, i ∉ P → s'.cdr i = s.cdr i

theorem Keeps.refl (P : List Nat) (s : St) : Keeps P s s := ⟨rfl, rfl, fun _ _ => rfl⟩
theorem Keeps.trans {P : List Nat} {a b c : St} (h1 : Keeps P a b) (h2 : Keeps P b c) : Keeps P a c :=
  ⟨h2.1.trans h1.1, h2.2.1.trans h1.2.1, fun i hi => (h2.2.2 i hi).trans (h1.2.2 i hi)⟩

theorem Assigned.keeps {P : List Nat} {s s' : St} {p : Nat} {v : V} (h : Assigned s s' p v) (hp : p ∈ P) : Keeps P s s' :=
  ⟨h.car, h.next, fun i hi => by
    rw [h.cdr, if_neg]
    rintro rfl; exact hi hp⟩

theorem EnvSep.keeps {P : List Nat} {s s' : St} {env : V} {ps : List Nat} (h : EnvSep s P env ps) (hk : Keeps P s s') : EnvSep s' P env ps := by
  induction h with
  | nil h => exact .nil h
  | cons h1 h2 _ ih => exact .cons (by rw [hk.1]; exact h1) h2 (by rw [hk.2.2 _ h2]; exact ih)

theorem AssignAll.append {ps : List Nat} {s s1 s2 : St} {l r : List (V × V)} (h1 : AssignAll ps s l s1) (h2 : AssignAll ps s1 r s2) : AssignAll ps s (l ++ r) s2 := by
  induction h1 with
  | nil => exact h2
  | one h3 h4 _ ih => exact .one h3 h4 (ih h2)
  | skip h3 _ ih => exact .skip h3 (ih h2)

/-- After the value of a binding has been evaluated, the pairs of the variables of the target get the parts of the value. `hs`: the pairs of the environment are not cells of the target, of
the value, or of the list that makes up the environment. -/
theorem fillLoc_spec {s0 : St} {ps : List Nat} {env : V} {key val : V} {l : List (V × V)} (hp : Parts s0 ps key val l) :
    ∀ {s : St}, Keeps ps s0 s → EnvSep s ps env ps → ps.length ≤ s.next →
      ∃ s' f0, AssignAll ps s l s' ∧ Keeps ps s s' ∧ ∀ f, f0 ≤ f → St.fillLoc f s key val env = some (s', true) := by
  induction hp with
  | @skip v =>
    intro s _ _ _
    refine ⟨s, 1, .nil, .refl _ _, fun f hf => ?_⟩
    obtain ⟨f, rfl⟩ : ∃ g, f = g + 1 := ⟨f - 1, by omega⟩
    simp [St.fillLoc]
  | @sym n v hn =>
    intro s _ he hl
    rcases modify_spec (key := .sym n) (val := v) he.cells hl with ⟨p, s', h1, h2, h3⟩ | ⟨h1, h2⟩
    · refine ⟨s', 1, .one h2 h3 .nil, h3.keeps h2.mem, fun f hf => ?_⟩
      obtain ⟨f, rfl⟩ : ∃ g, f = g + 1 := ⟨f - 1, by omega⟩
      simp [St.fillLoc, h1, hn]
    · refine ⟨s, 1, .skip h2 .nil, .refl _ _, fun f hf => ?_⟩
      obtain ⟨f, rfl⟩ : ∃ g, f = g + 1 := ⟨f - 1, by omega⟩
      simp [St.fillLoc, h1, hn]
  | @cons a b l r ha hb _ _ ih1 ih2 =>
    intro s hk he hl
    obtain ⟨s1, f1, h1, h2, h3⟩ := ih1 hk he hl
    obtain ⟨s2, f2, h4, h5, h6⟩ := ih2 (hk.trans h2) (he.keeps h2) (by rw [h2.2.1]; exact hl)
    refine ⟨s2, max f1 f2 + 1, h1.append h4, h2.trans h5, fun f hf => ?_⟩
    obtain ⟨f, rfl⟩ : ∃ g, f = g + 1 := ⟨f - 1, by omega⟩
    simp only [St.fillLoc, hk.1, h3 f (by omega), (hk.trans h2).2.2 a ha, (hk.trans h2).2.2 b hb, h6 f (by omega)]

/-- If the value does not have the shape of the target, the binding fails. -/
theorem fillLoc_mismatch {s0 : St} {ps : List Nat} {env : V} {key val : V} (hp : Mismatch s0 ps key val) :
    ∀ {s : St}, Keeps ps s0 s → EnvSep s ps env ps → ps.length ≤ s.next → ∃ s' f0, ∀ f, f0 ≤ f → St.fillLoc f s key val env = some (s', false) := by
  induction hp with
  | @target k v h1 h2 =>
    intro s _ _ _
    refine ⟨s, 1, fun f hf => ?_⟩
    obtain ⟨f, rfl⟩ : ∃ g, f = g + 1 := ⟨f - 1, by omega⟩
    cases k <;> first | rfl | exact absurd rfl (h1 _) | exact absurd rfl (h2 _)
  | @value a v h =>
    intro s _ _ _
    refine ⟨s, 1, fun f hf => ?_⟩
    obtain ⟨f, rfl⟩ : ∃ g, f = g + 1 := ⟨f - 1, by omega⟩
    cases v <;> first | rfl | exact absurd rfl (h _)
  | @left a b _ ih =>
    intro s hk he hl
    obtain ⟨s1, f1, h1⟩ := ih hk he hl
    refine ⟨s1, f1 + 1, fun f hf => ?_⟩
    obtain ⟨f, rfl⟩ : ∃ g, f = g + 1 := ⟨f - 1, by omega⟩
    simp only [St.fillLoc, hk.1, h1 f (by omega)]
  | @right a b l ha hb hl' _ ih =>
    intro s hk he hl
    obtain ⟨s1, f1, _, h2, h3⟩ := fillLoc_spec hl' hk he hl
    obtain ⟨s2, f2, h6⟩ := ih (hk.trans h2) (he.keeps h2) (by rw [h2.2.1]; exact hl)
    refine ⟨s2, max f1 f2 + 1, fun f hf => ?_⟩
    obtain ⟨f, rfl⟩ : ∃ g, f = g + 1 := ⟨f - 1, by omega⟩
    simp only [St.fillLoc, hk.1, h3 f (by omega), (hk.trans h2).2.2 a ha, (hk.trans h2).2.2 b hb, h6 f (by omega)]

section example_
/-- The environment `((x . placeholder) (x . 7))` in the cells 0 to 3. -/
private def demoStore : St where
  car i := if i = 0 then .cons 1 else if i = 1 then .sym 0x40000 else if i = 2 then .cons 3 else .sym 0x40000
  cdr i := if i = 0 then .cons 2 else if i = 1 then .placeholder else if i = 2 then .nil else .atom 7
  next := 4
  globals _ := .nil
  atomic := false
  konts _ := []
  nk := 0

private theorem demoStore_cells : EnvSep demoStore [1, 3] (.cons 0) [1, 3] :=
  .cons rfl (by decide) (.cons rfl (by decide) (.nil (fun a h => by cases h)))

/-- Looking up `x` finds the second pair, assigning changes the first one. -/
example : demoStore.lookup (.sym 0x40000) 5 (.cons 0) = some (some (.atom 7)) ∧
    ∃ s', demoStore.modify (.cons 0) (.sym 0x40000) (.atom 8) = some (some s') ∧ s'.cdr 1 = .atom 8 := by
  refine ⟨?_, ?_⟩
  · rcases lookup_spec (key := .sym 0x40000) demoStore_cells.cells (f := 5) (by decide) with ⟨p, h1, l, r, h2, h3, h4⟩ | ⟨_, h⟩
    · exact rfl
    · exact absurd (h 3 (by decide) rfl) (by decide)
  · exact ⟨_, rfl, rfl⟩

example : ∃ s' f0, AssignAll [1, 3] demoStore [(.sym 0x40000, .atom 9)] s' ∧ Keeps [1, 3] demoStore s' ∧
    ∀ f, f0 ≤ f → St.fillLoc f demoStore (.sym 0x40000) (.atom 9) (.cons 0) = some (s', true) :=
  fillLoc_spec (.sym (by decide)) (.refl _ _) demoStore_cells (by decide)
end example_

end Verif.Eval
