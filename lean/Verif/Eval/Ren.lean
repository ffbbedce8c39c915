import Verif.Eval.Cells

/-!
# Evaluation does not depend on the addresses of cells: relation and store
-/

namespace Verif.Eval

/-- Which cell of one store stands for which cell of the other, and the same for captured stacks. -/
structure Ren where
  c : Nat → Nat → Prop
  k : Nat → Nat → Prop

/-- More cells have a counterpart. -/
structure Ren.Le (ρ ρ' : Ren) : Prop where
  c : ∀ {a b}, ρ.c a b → ρ'.c a b
  k : ∀ {a b}, ρ.k a b → ρ'.k a b

theorem Ren.Le.refl (ρ : Ren) : ρ.Le ρ := ⟨id, id⟩
theorem Ren.Le.trans {a b c : Ren} (h : a.Le b) (h' : b.Le c) : a.Le c := ⟨fun x => h'.c (h.c x), fun x => h'.k (h.k x)⟩

/-- Values that are the same except for addresses. -/
inductive RV (ρ : Ren) : V → V → Prop
  | sym (n : Nat) : RV ρ (.sym n) (.sym n)
  | u (n : Nat) : RV ρ (.u n) (.u n)
  | atom (n : Nat) : RV ρ (.atom n) (.atom n)
  | cons {a b : Nat} : ρ.c a b → RV ρ (.cons a) (.cons b)
  | arr {a b : Nat} : ρ.k a b → RV ρ (.arr a) (.arr b)

/-- The same for words. -/
inductive RW (ρ : Ren) : W → W → Prop
  | v {x y : V} : RV ρ x y → RW ρ (.v x) (.v y)
  | k (n : Nat) : RW ρ (.k n) (.k n)
  | raw (n : Nat) : RW ρ (.raw n) (.raw n)
  | junk : RW ρ .junk .junk

/-- The same for stacks. -/
inductive RK (ρ : Ren) : List W → List W → Prop
  | nil : RK ρ [] []
  | cons {w w' : W} {K K' : List W} : RW ρ w w' → RK ρ K K' → RK ρ (w :: K) (w' :: K')

/-- The same for lists of values. -/
inductive RL (ρ : Ren) : List V → List V → Prop
  | nil : RL ρ [] []
  | cons {x y : V} {l l' : List V} : RV ρ x y → RL ρ l l' → RL ρ (x :: l) (y :: l')

/-- Stores that are the same except for addresses and garbage. The second one has had at least as many cells. -/
structure RS (ρ : Ren) (s s' : St) : Prop where
  fn : ∀ {a b b'}, ρ.c a b → ρ.c a b' → b = b'
  inj : ∀ {a a' b}, ρ.c a b → ρ.c a' b → a = a'
  kfn : ∀ {a b b'}, ρ.k a b → ρ.k a b' → b = b'
  kinj : ∀ {a a' b}, ρ.k a b → ρ.k a' b → a = a'
  cells : ∀ {a b}, ρ.c a b → (a < s.next ∧ b < s'.next) ∧ RV ρ (s.car a) (s'.car b) ∧ RV ρ (s.cdr a) (s'.cdr b)
  konts : ∀ {a b}, ρ.k a b → (a < s.nk ∧ b < s'.nk) ∧ RK ρ (s.konts a) (s'.konts b)
  globals : ∀ n, RV ρ (s.globals n) (s'.globals n)
  atomic : s.atomic = s'.atomic
  next : s.next ≤ s'.next

/-- Machines that are the same except for addresses and garbage. -/
structure RM (ρ : Ren) (m m' : M) : Prop where
  st : RS ρ m.st m'.st
  K : RK ρ m.K m'.K
  r : RV ρ m.r m'.r
  exp : RV ρ m.exp m'.exp
  env : RV ρ m.env m'.env
  program : RV ρ m.program m'.program
  app : m.app = m'.app
  flags : m.flags = m'.flags

/-- The same for what a step does. If the first one leaves the model there is no claim. -/
inductive ROut (ρ : Ren) : Out → Out → Prop
  | next {m m' : M} : RM ρ m m' → ROut ρ (.next m) (.next m')
  | fin {s s' : St} {v v' : V} {b : Bool} : RS ρ s s' → RV ρ v v' → ROut ρ (.fin s v b) (.fin s' v' b)
  | out : ROut ρ .out .out
  | ub {o : Out} : ROut ρ .ub o

/-- The same, possibly with counterparts for more cells. -/
def RO (ρ : Ren) (o o' : Out) : Prop := ∃ ρ', ρ.Le ρ' ∧ ROut ρ' o o'

/-- The same for the results of operations. -/
inductive RP (ρ : Ren) : PRes → PRes → Prop
  | ok {s s' : St} {v v' : V} : RS ρ s s' → RV ρ v v' → RP ρ (.ok s v) (.ok s' v')
  | err {s s' : St} {v v' : V} : RS ρ s s' → RV ρ v v' → RP ρ (.err s v) (.err s' v')

/-- The fundamental operations and extensions do not depend on the addresses of cells or on garbage. -/
structure Blind (P : Prims) : Prop where
  run : ∀ (ρ : Ren) n args args' env env' s s', RS ρ s s' → RL ρ args args' → RV ρ env env' → ∃ ρ', ρ.Le ρ' ∧ RP ρ' (P.run n args env s) (P.run n args' env' s')
  eq : ∀ (ρ : Ren) s s' a a' b b', RS ρ s s' → RV ρ a a' → RV ρ b b' → P.eq s a b = P.eq s' a' b'

variable {ρ ρ' : Ren}

theorem RV.le {v v' : V} (h : RV ρ v v') (hl : ρ.Le ρ') : RV ρ' v v' := by
  cases h with
  | sym => exact .sym _
  | u => exact .u _
  | atom => exact .atom _
  | cons h => exact .cons (hl.c h)
  | arr h => exact .arr (hl.k h)

theorem RW.le {w w' : W} (h : RW ρ w w') (hl : ρ.Le ρ') : RW ρ' w w' := by
  cases h with
  | v h => exact .v (h.le hl)
  | k => exact .k _
  | raw => exact .raw _
  | junk => exact .junk

theorem RK.le {K K' : List W} (h : RK ρ K K') (hl : ρ.Le ρ') : RK ρ' K K' := by
  induction h with
  | nil => exact .nil
  | cons h _ ih => exact .cons (h.le hl) ih

theorem RL.le {K K' : List V} (h : RL ρ K K') (hl : ρ.Le ρ') : RL ρ' K K' := by
  induction h with
  | nil => exact .nil
  | cons h _ ih => exact .cons (h.le hl) ih

theorem RK.length {K K' : List W} (h : RK ρ K K') : K.length = K'.length := by
  induction h with
  | nil => rfl
  | cons _ _ ih => simp only [List.length_cons, ih]

theorem RL.length {K K' : List V} (h : RL ρ K K') : K.length = K'.length := by
  induction h with
  | nil => rfl
  | cons _ _ ih => simp only [List.length_cons, ih]

theorem RK.append {K K' L L' : List W} (h : RK ρ K K') (h' : RK ρ L L') : RK ρ (K ++ L) (K' ++ L') := by
  induction h with
  | nil => exact h'
  | cons h _ ih => exact .cons h ih

theorem RK.tail {K K' : List W} (h : RK ρ K K') : RK ρ K.tail K'.tail := by
  cases h with
  | nil => exact .nil
  | cons _ h => exact h

theorem RO.le {o o' : Out} (h : RO ρ' o o') (hl : ρ.Le ρ') : RO ρ o o' := by
  obtain ⟨ρ1, h1, h2⟩ := h
  exact ⟨ρ1, hl.trans h1, h2⟩

theorem ROut.ro {o o' : Out} (h : ROut ρ o o') : RO ρ o o' := ⟨ρ, .refl ρ, h⟩

theorem RM.next {m m' : M} (h : RM ρ m m') : RO ρ (.next m) (.next m') := ROut.ro (.next h)

theorem RO.ub {o : Out} : RO ρ .ub o := ROut.ro .ub
theorem RO.out : RO ρ .out .out := ROut.ro .out

/-- Comparison with something that is not a cell. -/
theorem RV.eq_sym {v v' : V} (h : RV ρ v v') (n : Nat) : v = .sym n ↔ v' = .sym n := by
  cases h <;> simp

theorem RV.isCons {v v' : V} (h : RV ρ v v') : v.isCons = v'.isCons := by
  cases h <;> rfl

theorem RV.special {v v' : V} (h : RV ρ v v') : Verif.Eval.special v = Verif.Eval.special v' := by
  cases h <;> rfl

/-- Optional values. -/
inductive ROpt (ρ : Ren) : Option V → Option V → Prop
  | none : ROpt ρ none none
  | some {x y : V} : RV ρ x y → ROpt ρ (some x) (some y)

theorem ropt_cases {o o' : Option V} (h : ROpt ρ o o') : (o = none ∧ o' = none) ∨ ∃ x y, o = some x ∧ o' = some y ∧ RV ρ x y := by
  cases h with
  | none => exact .inl ⟨rfl, rfl⟩
  | some h => exact .inr ⟨_, _, rfl, rfl, h⟩

section
variable {s s' : St} (h : RS ρ s s')
include h

theorem RS.car {a b : Nat} (hc : ρ.c a b) : RV ρ (s.car a) (s'.car b) := (h.cells hc).2.1
theorem RS.cdr {a b : Nat} (hc : ρ.c a b) : RV ρ (s.cdr a) (s'.cdr b) := (h.cells hc).2.2

/-- Comparison of two values. -/
theorem RS.veq {x x' y y' : V} (hx : RV ρ x x') (hy : RV ρ y y') : x = y ↔ x' = y' := by
  cases hx with
  | sym => cases hy <;> simp
  | u => cases hy <;> simp
  | atom => cases hy <;> simp
  | cons h1 =>
    cases hy with
    | cons h2 =>
      simp only [V.cons.injEq]
      exact ⟨fun e => by subst e; exact h.fn h1 h2, fun e => by subst e; exact h.inj h1 h2⟩
    | _ => simp
  | arr h1 =>
    cases hy with
    | arr h2 =>
      simp only [V.arr.injEq]
      exact ⟨fun e => by subst e; exact h.kfn h1 h2, fun e => by subst e; exact h.kinj h1 h2⟩
    | _ => simp

theorem RS.gcar {v v' : V} (hv : RV ρ v v') : ROpt ρ (s.gcar v) (s'.gcar v') := by
  cases hv with
  | cons hc => exact .some (h.car hc)
  | sym n =>
    obtain _ | n := n
    · exact .some (.sym 0)
    · exact .none
  | _ => exact .none

theorem RS.gcdr {v v' : V} (hv : RV ρ v v') : ROpt ρ (s.gcdr v) (s'.gcdr v') := by
  cases hv with
  | cons hc => exact .some (h.cdr hc)
  | sym n =>
    obtain _ | n := n
    · exact .some (.sym 0)
    · exact .none
  | _ => exact .none

theorem RS.gcadr {v v' : V} (hv : RV ρ v v') : ROpt ρ (s.gcadr v) (s'.gcadr v') := by
  cases hv with
  | cons hc =>
    have h1 := h.cdr hc
    simp only [St.gcadr]
    generalize s.cdr _ = x at h1
    generalize s'.cdr _ = x' at h1
    cases h1 with
    | cons hc => exact .some (h.car hc)
    | sym n =>
      obtain _ | n := n
      · exact .some (.sym 0)
      · exact .none
    | _ => exact .none
  | sym n =>
    obtain _ | n := n
    · exact .some (.sym 0)
    · exact .none
  | _ => exact .none

theorem RS.lcar {v v' : V} (hv : RV ρ v v') : RV ρ (s.lcar v) (s'.lcar v') := by
  cases hv with
  | cons hc => exact h.car hc
  | sym n =>
    obtain _ | n := n
    · exact .sym 0
    · exact .sym _
  | _ => exact .sym _

theorem RS.hd {v v' : V} (hv : RV ρ v v') : RV ρ (s.hd v) (s'.hd v') := by
  cases hv with
  | cons hc => exact h.car hc
  | _ => exact .sym _

theorem RS.tl {v v' : V} (hv : RV ρ v v') : RV ρ (s.tl v) (s'.tl v') := by
  cases hv with
  | cons hc => exact h.cdr hc
  | sym => exact .sym _
  | u => exact .u _
  | atom => exact .atom _
  | arr h => exact .arr h

theorem RS.binderVar {v v' : V} (hv : RV ρ v v') : RV ρ (s.binderVar v) (s'.binderVar v') := by
  cases hv with
  | cons hc =>
    have h1 := h.car hc
    have h2 := h.cdr hc
    simp only [St.binderVar, h1.eq_sym]
    split
    · generalize s.cdr _ = x at h2
      generalize s'.cdr _ = x' at h2
      cases h2 with
      | cons hc => exact h.car hc
      | _ => exact .sym _
    · exact .sym _
  | _ => exact .sym _

/-- The second store may use more fuel. -/
theorem RS.len : ∀ {f f' : Nat} {v v' : V} {n : Nat}, f ≤ f' → RV ρ v v' → s.len f v = some n → s'.len f' v' = some n
  | 0, _, _, _, _, _, _, e => by cases e
  | f + 1, f', v, v', n, hf, hv, e => by
    obtain ⟨g, rfl⟩ : ∃ g, f' = g + 1 := ⟨f' - 1, by omega⟩
    cases hv with
    | cons hc =>
      simp only [St.len, Option.map_eq_some_iff] at e ⊢
      obtain ⟨k, e, rfl⟩ := e
      exact ⟨k, RS.len (by omega) (h.cdr hc) e, rfl⟩
    | _ => exact e

theorem RS.lookup {key key' : V} (hk : RV ρ key key') : ∀ {f f' : Nat} {v v' : V} {o : Option V}, f ≤ f' → RV ρ v v' → s.lookup key f v = some o →
    ∃ o', s'.lookup key' f' v' = some o' ∧ ROpt ρ o o'
  | 0, _, _, _, _, _, _, e => by cases e
  | f + 1, f', v, v', o, hf, hv, e => by
    obtain ⟨g, rfl⟩ : ∃ g, f' = g + 1 := ⟨f' - 1, by omega⟩
    cases hv with
    | cons hc =>
      have h1 := h.car hc
      simp only [St.lookup] at e ⊢
      generalize s.car _ = x at h1 e
      generalize s'.car _ = x' at h1 ⊢
      cases h1 with
      | cons hp =>
        simp only [ne_eq, h.veq (h.car hp) hk, (h.cdr hp).eq_sym] at e
        simp only [ne_eq]
        split at e
        · rename_i hif
          cases e
          rw [if_pos hif]
          exact ⟨_, rfl, .some (h.cdr hp)⟩
        · rename_i hif
          rw [if_neg hif]
          exact RS.lookup hk (by omega) (h.cdr hc) e
      | _ => cases e
    | _ => cases e; exact ⟨_, rfl, .none⟩

theorem RS.glookupLoop {key key' : V} (hk : RV ρ key key') : ∀ {f f' : Nat} {v v' : V} {o : Option V}, f ≤ f' → RV ρ v v' → s.glookupLoop key f v = some o →
    ∃ o', s'.glookupLoop key' f' v' = some o' ∧ ROpt ρ o o'
  | 0, _, _, _, _, _, _, e => by cases e
  | f + 1, f', v, v', o, hf, hv, e => by
    obtain ⟨g, rfl⟩ : ∃ g, f' = g + 1 := ⟨f' - 1, by omega⟩
    cases hv with
    | cons hc =>
      have h1 := h.car hc
      simp only [St.glookupLoop] at e ⊢
      generalize s.car _ = x at h1 e
      generalize s'.car _ = x' at h1 ⊢
      cases h1 with
      | cons hp =>
        simp only [h.veq (h.car hp) hk] at e
        simp only
        split at e
        · rename_i hif
          cases e
          rw [if_pos hif]
          exact ⟨_, rfl, .some (h.cdr hp)⟩
        · rename_i hif
          rw [if_neg hif]
          exact RS.glookupLoop hk (by omega) (h.cdr hc) e
      | _ => cases e
    | _ => cases e; exact ⟨_, rfl, .none⟩

theorem RS.glookup {n : Nat} {o : Option V} (e : s.glookup n = some o) : ∃ o', s'.glookup n = some o' ∧ ROpt ρ o o' :=
  h.glookupLoop (.sym n) (Nat.succ_le_succ h.next) (h.globals _) e

theorem RS.findPair {key key' : V} (hk : RV ρ key key') : ∀ {f f' : Nat} {v v' : V} {o : Option V}, f ≤ f' → RV ρ v v' → s.findPair key f v = some o →
    ∃ o', s'.findPair key' f' v' = some o' ∧ ROpt ρ o o'
  | 0, _, _, _, _, _, _, e => by cases e
  | f + 1, f', v, v', o, hf, hv, e => by
    obtain ⟨g, rfl⟩ : ∃ g, f' = g + 1 := ⟨f' - 1, by omega⟩
    cases hv with
    | cons hc =>
      have h1 := h.car hc
      simp only [St.findPair, h.veq (h.lcar h1) hk] at e
      simp only [St.findPair]
      split at e
      · rename_i hif
        cases e
        rw [if_pos hif]
        exact ⟨_, rfl, .some h1⟩
      · rename_i hif
        rw [if_neg hif]
        exact RS.findPair hk (by omega) (h.cdr hc) e
    | _ => cases e; exact ⟨_, rfl, .none⟩

theorem RS.cons {x x' y y' : V} (hx : RV ρ x x') (hy : RV ρ y y') :
    ∃ ρ1, ρ.Le ρ1 ∧ RS ρ1 (s.cons x y).1 (s'.cons x' y').1 ∧ RV ρ1 (s.cons x y).2 (s'.cons x' y').2 := by
  refine ⟨⟨fun a b => ρ.c a b ∨ (a = s.next ∧ b = s'.next), ρ.k⟩, ⟨.inl, id⟩, ?_, .cons (.inr ⟨rfl, rfl⟩)⟩
  have le : ρ.Le ⟨fun a b => ρ.c a b ∨ (a = s.next ∧ b = s'.next), ρ.k⟩ := ⟨.inl, id⟩
  refine ⟨?_, ?_, h.kfn, h.kinj, ?_, fun hk => ⟨(h.konts hk).1, (h.konts hk).2.le le⟩, fun n => (h.globals n).le le, h.atomic, Nat.succ_le_succ h.next⟩
  · rintro a b b' (h1 | ⟨rfl, rfl⟩) (h2 | ⟨e1, rfl⟩)
    · exact h.fn h1 h2
    · subst e1; exact absurd (h.cells h1).1.1 (Nat.lt_irrefl _)
    · exact absurd (h.cells h2).1.1 (Nat.lt_irrefl _)
    · rfl
  · rintro a b b' (h1 | ⟨rfl, rfl⟩) (h2 | ⟨rfl, e1⟩)
    · exact h.inj h1 h2
    · subst e1; exact absurd (h.cells h1).1.2 (Nat.lt_irrefl _)
    · exact absurd (h.cells h2).1.2 (Nat.lt_irrefl _)
    · rfl
  · rintro a b (h1 | ⟨rfl, rfl⟩)
    · obtain ⟨⟨l1, l2⟩, h3, h4⟩ := h.cells h1
      simp only [St.cons, if_neg (Nat.ne_of_lt l1), if_neg (Nat.ne_of_lt l2)]
      exact ⟨⟨Nat.lt_succ_of_lt l1, Nat.lt_succ_of_lt l2⟩, h3.le le, h4.le le⟩
    · simp only [St.cons, if_true]
      exact ⟨⟨Nat.lt_succ_self _, Nat.lt_succ_self _⟩, hx.le le, hy.le le⟩

theorem RS.setCar {v v' x x' : V} (hv : RV ρ v v') (hx : RV ρ x x') : RS ρ (s.setCar v x) (s'.setCar v' x') := by
  cases hv with
  | @cons p q hc =>
    refine ⟨h.fn, h.inj, h.kfn, h.kinj, fun {a b} h1 => ⟨(h.cells h1).1, ?_, (h.cells h1).2.2⟩, h.konts, h.globals, h.atomic, h.next⟩
    simp only [St.setCar]
    by_cases e : a = p
    · subst e
      obtain rfl := h.fn h1 hc
      simp only [if_true]; exact hx
    · rw [if_neg e, if_neg (fun e' : b = q => e (h.inj h1 (e' ▸ hc)))]
      exact h.car h1
  | _ => exact h

theorem RS.setCdr {v v' x x' : V} (hv : RV ρ v v') (hx : RV ρ x x') : RS ρ (s.setCdr v x) (s'.setCdr v' x') := by
  cases hv with
  | @cons p q hc =>
    refine ⟨h.fn, h.inj, h.kfn, h.kinj, fun {a b} h1 => ⟨(h.cells h1).1, (h.cells h1).2.1, ?_⟩, h.konts, h.globals, h.atomic, h.next⟩
    simp only [St.setCdr]
    by_cases e : a = p
    · subst e
      obtain rfl := h.fn h1 hc
      simp only [if_true]; exact hx
    · rw [if_neg e, if_neg (fun e' : b = q => e (h.inj h1 (e' ▸ hc)))]
      exact h.cdr h1
  | _ => exact h

theorem RS.setGlobal {n : Nat} {x x' : V} (hx : RV ρ x x') :
    RS ρ { s with globals := fun i => if i = n then x else s.globals i } { s' with globals := fun i => if i = n then x' else s'.globals i } := by
  refine ⟨h.fn, h.inj, h.kfn, h.kinj, h.cells, h.konts, fun i => ?_, h.atomic, h.next⟩
  dsimp only
  split
  · exact hx
  · exact h.globals i

theorem RS.setAtomic (b : Bool) : RS ρ { s with atomic := b } { s' with atomic := b } := ⟨h.fn, h.inj, h.kfn, h.kinj, h.cells, h.konts, h.globals, rfl, h.next⟩

theorem RS.kont {K K' : List W} (hK : RK ρ K K') : ∃ ρ1, ρ.Le ρ1 ∧
    RS ρ1 { s with konts := fun i => if i = s.nk then K else s.konts i, nk := s.nk + 1 } { s' with konts := fun i => if i = s'.nk then K' else s'.konts i, nk := s'.nk + 1 } ∧
    RV ρ1 (.arr s.nk) (.arr s'.nk) := by
  refine ⟨⟨ρ.c, fun a b => ρ.k a b ∨ (a = s.nk ∧ b = s'.nk)⟩, ⟨id, .inl⟩, ?_, .arr (.inr ⟨rfl, rfl⟩)⟩
  have le : ρ.Le ⟨ρ.c, fun a b => ρ.k a b ∨ (a = s.nk ∧ b = s'.nk)⟩ := ⟨id, .inl⟩
  refine ⟨h.fn, h.inj, ?_, ?_, fun hc => ⟨(h.cells hc).1, (h.cells hc).2.1.le le, (h.cells hc).2.2.le le⟩, ?_, fun n => (h.globals n).le le, h.atomic, h.next⟩
  · rintro a b b' (h1 | ⟨rfl, rfl⟩) (h2 | ⟨e1, rfl⟩)
    · exact h.kfn h1 h2
    · subst e1; exact absurd (h.konts h1).1.1 (Nat.lt_irrefl _)
    · exact absurd (h.konts h2).1.1 (Nat.lt_irrefl _)
    · rfl
  · rintro a b b' (h1 | ⟨rfl, rfl⟩) (h2 | ⟨rfl, e1⟩)
    · exact h.kinj h1 h2
    · subst e1; exact absurd (h.konts h1).1.2 (Nat.lt_irrefl _)
    · exact absurd (h.konts h2).1.2 (Nat.lt_irrefl _)
    · rfl
  · rintro a b (h1 | ⟨rfl, rfl⟩)
    · obtain ⟨⟨l1, l2⟩, h3⟩ := h.konts h1
      simp only [if_neg (Nat.ne_of_lt l1), if_neg (Nat.ne_of_lt l2)]
      exact ⟨⟨Nat.lt_succ_of_lt l1, Nat.lt_succ_of_lt l2⟩, h3.le le⟩
    · simp only [if_true]
      exact ⟨⟨Nat.lt_succ_self _, Nat.lt_succ_self _⟩, hK.le le⟩

theorem RS.modify {env env' key key' val val' : V} {o : Option St} (he : RV ρ env env') (hk : RV ρ key key') (hv : RV ρ val val') (e : s.modify env key val = some o) :
    (o = none ∧ s'.modify env' key' val' = some none) ∨ ∃ s1 s1', o = some s1 ∧ s'.modify env' key' val' = some (some s1') ∧ RS ρ s1 s1' := by
  unfold St.modify at e ⊢
  cases hf : s.findPair key (s.next + 1) env with
  | none => rw [hf] at e; cases e
  | some p =>
    obtain ⟨p', h1, h2⟩ := h.findPair hk (Nat.succ_le_succ h.next) he hf
    rw [hf] at e
    rw [h1]
    cases h2 with
    | none => cases e; exact .inl ⟨rfl, rfl⟩
    | some h2 => cases e; exact .inr ⟨_, _, rfl, rfl, h.setCdr h2 hv⟩

theorem RS.envSet {env env' key key' val val' : V} {s1 : St} {env1 : V} (he : RV ρ env env') (hk : RV ρ key key') (hv : RV ρ val val')
    (e : s.envSet env key val = some (s1, env1)) :
    ∃ ρ1 s1' env1', ρ.Le ρ1 ∧ s'.envSet env' key' val' = some (s1', env1') ∧ RS ρ1 s1 s1' ∧ RV ρ1 env1 env1' := by
  unfold St.envSet at e ⊢
  cases hf : s.findPair key (s.next + 1) env with
  | none => rw [hf] at e; cases e
  | some p =>
    obtain ⟨p', h1, h2⟩ := h.findPair hk (Nat.succ_le_succ h.next) he hf
    rw [hf] at e
    rw [h1]
    cases h2 with
    | none =>
      obtain ⟨ρ1, l1, a1, a2⟩ := h.cons hk hv
      obtain ⟨ρ2, l2, b1, b2⟩ := a1.cons a2 (he.le l1)
      cases e
      exact ⟨ρ2, _, _, l1.trans l2, rfl, b1, b2⟩
    | some h2 => cases e; exact ⟨ρ, _, _, .refl ρ, rfl, h.setCdr h2 hv, he⟩

theorem RS.define {n : Nat} {val val' : V} {s1 : St} (hv : RV ρ val val') (e : s.define n val = some s1) :
    ∃ ρ1 s1', ρ.Le ρ1 ∧ s'.define n val' = some s1' ∧ RS ρ1 s1 s1' := by
  unfold St.define at e ⊢
  split at e
  · cases e
  · rename_i s2 x hx
    obtain ⟨ρ1, s1', env1', l1, h1, h2, h3⟩ := h.envSet (h.globals _) (.sym n) hv hx
    cases e
    rw [h1]
    exact ⟨ρ1, _, l1, rfl, h2.setGlobal h3⟩

theorem RS.setvar {n : Nat} {val val' env env' : V} {s1 : St} {b : Bool} (he : RV ρ env env') (hv : RV ρ val val') (e : s.setvar n val env = some (s1, b)) :
    ∃ s1', s'.setvar n val' env' = some (s1', b) ∧ RS ρ s1 s1' := by
  unfold St.setvar at e ⊢
  cases h1 : s.modify env (.sym n) val with
  | none => rw [h1] at e; cases e
  | some o =>
    rw [h1] at e
    rcases h.modify he (.sym n) hv h1 with ⟨rfl, h2⟩ | ⟨s2, s2', rfl, h2, h3⟩
    · rw [h2]
      simp only at e ⊢
      cases h4 : s.modify (s.globals (n % 32)) (.sym n) val with
      | none => rw [h4] at e; cases e
      | some o =>
        rw [h4] at e
        rcases h.modify (h.globals _) (.sym n) hv h4 with ⟨rfl, h5⟩ | ⟨s2, s2', rfl, h5, h6⟩
        · rw [h5]; cases e
          exact ⟨_, rfl, h.setGlobal (.sym _)⟩
        · rw [h5]; cases e
          exact ⟨_, rfl, h6⟩
    · rw [h2]
      cases e
      exact ⟨_, rfl, h3⟩

theorem RS.copySpine : ∀ {f f' : Nat} {env env' : V} {s1 : St} {env1 : V}, f ≤ f' → RV ρ env env' → s.copySpine f env = some (s1, env1) →
    ∃ ρ1 s1' env1', ρ.Le ρ1 ∧ s'.copySpine f' env' = some (s1', env1') ∧ RS ρ1 s1 s1' ∧ RV ρ1 env1 env1'
  | 0, _, _, _, _, _, _, _, e => by cases e
  | f + 1, f', env, env', s1, env1, hf, he, e => by
    obtain ⟨g, rfl⟩ : ∃ g, f' = g + 1 := ⟨f' - 1, by omega⟩
    cases he with
    | cons hc =>
      simp only [St.copySpine] at e ⊢
      split at e
      · cases e
      · rename_i s2 t ht
        obtain ⟨ρ1, s2', t', l1, a1, a2, a3⟩ := RS.copySpine (by omega : f ≤ g) (h.cdr hc) ht
        obtain ⟨ρ2, l2, b1, b2⟩ := a2.cons ((h.car hc).le l1) a3
        cases e
        rw [a1]
        exact ⟨ρ2, _, _, l1.trans l2, rfl, b1, b2⟩
    | _ => cases e; exact ⟨ρ, _, _, .refl ρ, rfl, h, .sym _⟩

theorem RS.allocBinding {key key' val val' rest rest' : V} (hk : RV ρ key key') (hv : RV ρ val val') (hr : RV ρ rest rest') :
    ∃ ρ1, ρ.Le ρ1 ∧ RS ρ1 (allocBinding s key val rest).1 (allocBinding s' key' val' rest').1 ∧
      RV ρ1 (allocBinding s key val rest).2 (allocBinding s' key' val' rest').2 := by
  obtain ⟨ρ1, l1, a1, a2⟩ := h.cons hk hv
  obtain ⟨ρ2, l2, b1, b2⟩ := a1.cons a2 (hr.le l1)
  exact ⟨ρ2, l1.trans l2, b1, b2⟩

theorem RS.allocClosure {params params' body body' env env' : V} (hk : RV ρ params params') (hv : RV ρ body body') (hr : RV ρ env env') :
    ∃ ρ1, ρ.Le ρ1 ∧ RS ρ1 (allocClosure s params body env).1 (allocClosure s' params' body' env').1 ∧
      RV ρ1 (allocClosure s params body env).2 (allocClosure s' params' body' env').2 := by
  obtain ⟨ρ1, l1, a1, a2⟩ := h.cons hr (.sym 0)
  obtain ⟨ρ2, l2, b1, b2⟩ := a1.cons (hv.le l1) a2
  obtain ⟨ρ3, l3, c1, c2⟩ := b1.cons (hk.le (l1.trans l2)) b2
  obtain ⟨ρ4, l4, d1, d2⟩ := c1.cons (.sym 0x10F) c2
  exact ⟨ρ4, ((l1.trans l2).trans l3).trans l4, d1, d2⟩

end

theorem RS.createLoc : ∀ {f f' : Nat} {ρ : Ren} {s s' : St} {key key' env env' : V} {s1 : St} {env1 : V}, RS ρ s s' → f ≤ f' → RV ρ key key' → RV ρ env env' →
    s.createLoc f key env = some (s1, env1) → ∃ ρ1 s1' env1', ρ.Le ρ1 ∧ s'.createLoc f' key' env' = some (s1', env1') ∧ RS ρ1 s1 s1' ∧ RV ρ1 env1 env1'
  | 0, _, _, _, _, _, _, _, _, _, _, _, _, _, _, e => by cases e
  | f + 1, f', ρ, s, s', key, key', env, env', s1, env1, h, hf, hk, he, e => by
    obtain ⟨g, rfl⟩ : ∃ g, f' = g + 1 := ⟨f' - 1, by omega⟩
    cases hk with
    | sym n =>
      simp only [St.createLoc] at e ⊢
      split at e
      · rename_i hif
        cases e
        rw [if_pos hif]
        exact ⟨ρ, _, _, .refl ρ, rfl, h, he⟩
      · rename_i hif
        cases e
        rw [if_neg hif]
        obtain ⟨ρ1, l1, a1, a2⟩ := h.allocBinding (.sym n) (.sym 0x2A) he
        exact ⟨ρ1, _, _, l1, rfl, a1, a2⟩
    | cons hc =>
      simp only [St.createLoc] at e ⊢
      split at e
      · cases e
      · rename_i s2 env2 h2
        obtain ⟨ρ1, s2', env2', l1, a1, a2, a3⟩ := RS.createLoc h (by omega : f ≤ g) (h.car hc) he h2
        rw [a1]
        obtain ⟨ρ2, s3', env3', l2, b1, b2, b3⟩ := RS.createLoc a2 (by omega : f ≤ g) (a2.cdr (l1.c hc)) a3 e
        exact ⟨ρ2, s3', env3', l1.trans l2, b1, b2, b3⟩
    | _ => cases e; exact ⟨ρ, _, _, .refl ρ, rfl, h, he⟩

theorem RS.fillLoc : ∀ {f f' : Nat} {s s' : St} {key key' val val' env env' : V} {s1 : St} {b : Bool}, RS ρ s s' → f ≤ f' → RV ρ key key' → RV ρ val val' → RV ρ env env' →
    s.fillLoc f key val env = some (s1, b) → ∃ s1', s'.fillLoc f' key' val' env' = some (s1', b) ∧ RS ρ s1 s1'
  | 0, _, _, _, _, _, _, _, _, _, _, _, _, _, _, _, _, e => by cases e
  | f + 1, f', s, s', key, key', val, val', env, env', s1, b, h, hf, hk, hv, he, e => by
    obtain ⟨g, rfl⟩ : ∃ g, f' = g + 1 := ⟨f' - 1, by omega⟩
    cases hk with
    | sym n =>
      simp only [St.fillLoc] at e ⊢
      split at e
      · rename_i hif
        cases e
        rw [if_pos hif]
        exact ⟨_, rfl, h⟩
      · rename_i hif
        rw [if_neg hif]
        cases h1 : s.modify env (.sym n) val with
        | none => rw [h1] at e; cases e
        | some o =>
          rw [h1] at e
          rcases h.modify he (.sym n) hv h1 with ⟨rfl, h2⟩ | ⟨s2, s2', rfl, h2, h3⟩
          · rw [h2]; cases e; exact ⟨_, rfl, h⟩
          · rw [h2]; cases e; exact ⟨_, rfl, h3⟩
    | cons hc =>
      cases hv with
      | cons hd =>
        simp only [St.fillLoc] at e ⊢
        split at e
        · cases e
        · rename_i h2
          obtain ⟨s2', a1, a2⟩ := RS.fillLoc h (by omega : f ≤ g) (h.car hc) (h.car hd) he h2
          cases e
          rw [a1]; exact ⟨_, rfl, a2⟩
        · rename_i s2 h2
          obtain ⟨s2', a1, a2⟩ := RS.fillLoc h (by omega : f ≤ g) (h.car hc) (h.car hd) he h2
          rw [a1]
          exact RS.fillLoc a2 (by omega : f ≤ g) (a2.cdr hc) (a2.cdr hd) he e
      | _ => cases e; exact ⟨_, rfl, h⟩
    | _ => cases e; exact ⟨_, rfl, h⟩

theorem RS.letLocs : ∀ {f f' : Nat} {ρ : Ren} {s s' : St} {binds binds' env env' : V} {o : Option (St × V)}, RS ρ s s' → f ≤ f' → RV ρ binds binds' → RV ρ env env' →
    Verif.Eval.letLocs s f binds env = some o →
    (o = none ∧ Verif.Eval.letLocs s' f' binds' env' = some none) ∨
      ∃ s1 env1 ρ1 s1' env1', o = some (s1, env1) ∧ ρ.Le ρ1 ∧ Verif.Eval.letLocs s' f' binds' env' = some (some (s1', env1')) ∧ RS ρ1 s1 s1' ∧ RV ρ1 env1 env1'
  | 0, _, _, _, _, _, _, _, _, _, _, _, _, _, e => by cases e
  | f + 1, f', ρ, s, s', binds, binds', env, env', o, h, hf, hk, he, e => by
    obtain ⟨g, rfl⟩ : ∃ g, f' = g + 1 := ⟨f' - 1, by omega⟩
    cases hk with
    | cons hc =>
      simp only [Verif.Eval.letLocs] at e ⊢
      rcases ropt_cases (h.gcar (h.car hc)) with ⟨e1, e2⟩ | ⟨x, x', e1, e2, hx⟩
      · rw [e1] at e; cases e
        rw [e2]; exact .inl ⟨rfl, rfl⟩
      · rw [e1] at e; rw [e2]
        simp only at e ⊢
        split at e
        · cases e
        · rename_i s2 env2 h2
          obtain ⟨ρ1, s2', env2', l1, a1, a2, a3⟩ := h.createLoc (Nat.succ_le_succ h.next) hx he h2
          rw [a1]
          rcases RS.letLocs a2 (by omega : f ≤ g) ((h.cdr hc).le l1) a3 e with ⟨rfl, h3⟩ | ⟨s3, env3, ρ2, s3', env3', rfl, l2, b1, b2, b3⟩
          · exact .inl ⟨rfl, h3⟩
          · exact .inr ⟨s3, env3, ρ2, s3', env3', rfl, l1.trans l2, b1, b2, b3⟩
    | _ => cases e; exact .inr ⟨_, _, ρ, _, _, rfl, .refl ρ, rfl, h, he⟩

theorem RS.matchP {P : Prims} (hP : Blind P) : ∀ {f f' : Nat} {ρ : Ren} {s s' : St} {p p' x x' env env' : V} {b : Bool} {s1 : St} {env1 : V}, RS ρ s s' → f ≤ f' → RV ρ p p' → RV ρ x x' →
    RV ρ env env' → s.matchP P.eq f p x env = some (b, s1, env1) →
    ∃ ρ1 s1' env1', ρ.Le ρ1 ∧ s'.matchP P.eq f' p' x' env' = some (b, s1', env1') ∧ RS ρ1 s1 s1' ∧ RV ρ1 env1 env1'
  | 0, _, _, _, _, _, _, _, _, _, _, _, _, _, _, _, _, _, _, e => by cases e
  | f + 1, f', ρ, s, s', p, p', x, x', env, env', b, s1, env1, h, hf, hp, hx, he, e => by
    obtain ⟨g, rfl⟩ : ∃ g, f' = g + 1 := ⟨f' - 1, by omega⟩
    have hb := h.binderVar hp
    by_cases hif : s.binderVar p = .nil
    · have hif' := (hb.eq_sym 0).1 hif
      cases hp with
      | sym n =>
        simp only [St.matchP, ne_eq, hif, hif', not_true, if_false, h.veq (.sym n) hx] at e ⊢
        cases e
        exact ⟨ρ, _, _, .refl ρ, rfl, h, he⟩
      | cons hc =>
        simp only [St.matchP, ne_eq, hif, hif', not_true, if_false] at e ⊢
        cases hx with
        | cons hd =>
          simp only at e ⊢
          split at e
          · cases e
          · rename_i s2 env2 h2
            obtain ⟨ρ1, s2', env2', l1, a1, a2, a3⟩ := RS.matchP hP h (by omega : f ≤ g) (h.car hc) (h.car hd) he h2
            cases e
            rw [a1]
            exact ⟨ρ1, _, _, l1, rfl, a2, a3⟩
          · rename_i s2 env2 h2
            obtain ⟨ρ1, s2', env2', l1, a1, a2, a3⟩ := RS.matchP hP h (by omega : f ≤ g) (h.car hc) (h.car hd) he h2
            rw [a1]
            obtain ⟨ρ2, s3', env3', l2, b1, b2, b3⟩ := RS.matchP hP a2 (by omega : f ≤ g) ((h.cdr hc).le l1) ((h.cdr hd).le l1) a3 e
            exact ⟨ρ2, s3', env3', l1.trans l2, b1, b2, b3⟩
        | sym n => cases e; rw [hP.eq ρ s s' _ _ _ _ h (.cons hc) (.sym n)]; exact ⟨ρ, _, _, .refl ρ, rfl, h, he⟩
        | u n => cases e; rw [hP.eq ρ s s' _ _ _ _ h (.cons hc) (.u n)]; exact ⟨ρ, _, _, .refl ρ, rfl, h, he⟩
        | atom n => cases e; rw [hP.eq ρ s s' _ _ _ _ h (.cons hc) (.atom n)]; exact ⟨ρ, _, _, .refl ρ, rfl, h, he⟩
        | arr hd => cases e; rw [hP.eq ρ s s' _ _ _ _ h (.cons hc) (.arr hd)]; exact ⟨ρ, _, _, .refl ρ, rfl, h, he⟩
      | u n =>
        simp only [St.matchP, ne_eq, hif, hif', not_true, if_false] at e ⊢
        cases e; rw [hP.eq ρ s s' _ _ _ _ h (.u n) hx]; exact ⟨ρ, _, _, .refl ρ, rfl, h, he⟩
      | atom n =>
        simp only [St.matchP, ne_eq, hif, hif', not_true, if_false] at e ⊢
        cases e; rw [hP.eq ρ s s' _ _ _ _ h (.atom n) hx]; exact ⟨ρ, _, _, .refl ρ, rfl, h, he⟩
      | arr hd =>
        simp only [St.matchP, ne_eq, hif, hif', not_true, if_false] at e ⊢
        cases e; rw [hP.eq ρ s s' _ _ _ _ h (.arr hd) hx]; exact ⟨ρ, _, _, .refl ρ, rfl, h, he⟩
    · have hif' : ¬ s'.binderVar p' = .nil := fun e => hif ((hb.eq_sym 0).2 e)
      simp only [St.matchP, ne_eq, hif, hif', not_false_iff, if_true] at e ⊢
      cases e
      obtain ⟨ρ1, l1, a1, a2⟩ := h.allocBinding hb hx he
      exact ⟨ρ1, _, _, l1, rfl, a1, a2⟩

theorem RS.macroEnv : ∀ {f f' : Nat} {ρ : Ren} {s s' : St} {params params' args args' env env' : V} {s1 : St} {env1 : V}, RS ρ s s' → f ≤ f' → RV ρ params params' → RV ρ args args' →
    RV ρ env env' → s.macroEnv f params args env = some (s1, env1) →
    ∃ ρ1 s1' env1', ρ.Le ρ1 ∧ s'.macroEnv f' params' args' env' = some (s1', env1') ∧ RS ρ1 s1 s1' ∧ RV ρ1 env1 env1'
  | 0, _, _, _, _, _, _, _, _, _, _, _, _, _, _, _, _, _, e => by cases e
  | f + 1, f', ρ, s, s', params, params', args, args', env, env', s1, env1, h, hf, hp, ha, he, e => by
    obtain ⟨g, rfl⟩ : ∃ g, f' = g + 1 := ⟨f' - 1, by omega⟩
    cases hp with
    | cons hc =>
      cases ha with
      | cons hd =>
        simp only [St.macroEnv] at e ⊢
        obtain ⟨ρ1, l1, a1, a2⟩ := h.allocBinding (h.car hc) (h.car hd) he
        obtain ⟨ρ2, s3', env3', l2, b1, b2, b3⟩ := RS.macroEnv a1 (by omega : f ≤ g) ((h.cdr hc).le l1) ((h.cdr hd).le l1) a2 e
        exact ⟨ρ2, s3', env3', l1.trans l2, b1, b2, b3⟩
      | _ => cases e; exact ⟨ρ, _, _, .refl ρ, rfl, h, he⟩
    | _ => cases ha <;> cases e <;> exact ⟨ρ, _, _, .refl ρ, rfl, h, he⟩

end Verif.Eval
