import Verif.Gc.Step6
import Verif.Eval.Demo

/-!
# A collector that destroys everything it may, and operations that allocate

`hostile` runs at every allocation, overwrites every cell that is not reachable from the roots, and takes one of them. Both are
used to show that the hypotheses of the theorems can be met.
-/

namespace Verif.Gc

open Verif.Eval

open Classical in
/-- A collector that overwrites every cell it may free. -/
noncomputable def hostile : Gc where
  collect R s := { s with
    car := fun a => if Reach s R (.cons a) then s.car a else .sym 0x28
    cdr := fun a => if Reach s R (.cons a) then s.cdr a else .nil
    konts := fun n => if Reach s R (.arr n) then s.konts n else [] }
  pick R s := if h : ∃ a, ¬ Reach s R (.cons a) then Classical.choose h else 0
  pickArr R s := if h : ∃ a, ¬ Reach s R (.arr a) then Classical.choose h else 0

theorem hostile_sound : Sound hostile where
  car R s a h := by simp [hostile, h]
  cdr R s a h := by simp [hostile, h]
  konts R s n h := by simp [hostile, h]
  globals R s := rfl
  atomic R s := rfl
  next R s := rfl
  fresh R s h := by
    obtain ⟨n, hn⟩ := h
    have he : ∃ a, ¬ Reach s R (.cons a) := ⟨n, fun h => absurd (hn n h) (by omega)⟩
    simp only [hostile, dif_pos he]
    exact Classical.choose_spec he
  freshArr R s h := by
    obtain ⟨n, hn⟩ := h
    have he : ∃ a, ¬ Reach s R (.arr a) := ⟨n, fun h => absurd (hn n h) (by omega)⟩
    simp only [hostile, dif_pos he]
    exact Classical.choose_spec he

/-- Cells from a list of values, last first (`fundamental_list`, `src/fundamental.c:688-697`). -/
def mkList (s : St) : List V → St × V
  | [] => (s, .nil)
  | x :: l =>
    let (s1, t) := mkList s l
    s1.cons x t

/-- The same with a collector. -/
def mkListG (g : Gc) (R : List V) (s : St) : List V → St × V
  | [] => (s, .nil)
  | x :: l =>
    let (s1, t) := mkListG g R s l
    g.cons (t :: R) s1 x t

open Classical in
/-- `+`, `cons`, `car`, `cdr`, `list`, `set-car` and `set-cdr` (`src/fundamental.c:645-846`, `0x20000`, `0x20011`-`0x20014`, `0x2001C`, `0x2001D`); two values are equal if they have the same structure. -/
noncomputable def listPrims : Prims where
  run n args _ s :=
    match n, args with
    | 0x20000, [.atom a, .atom b] => .ok s (.atom (a + b))
    | 0x20011, [a, b] => .ok (s.cons a b).1 (s.cons a b).2
    | 0x20012, [a] =>
      match s.gcar a with
      | some v => .ok s v
      | none => .err s .terror
    | 0x20013, [a] =>
      match s.gcdr a with
      | some v => .ok s v
      | none => .err s .terror
    | 0x20014, l => .ok (mkList s l).1 (mkList s l).2
    | 0x2001C, [a, b] => .ok (s.setCar a b) (if a.isCons then .tru else .nil)
    | 0x2001D, [a, b] => .ok (s.setCdr a b) (if a.isCons then .tru else .nil)
    | _, _ => .err s .terror
  eq s v w := decide (∀ p, (look s v p).map label = (look s w p).map label)

open Classical in
/-- The same with a collector. -/
noncomputable def listPrimsG : PrimsG where
  run g R n args _ s :=
    match n, args with
    | 0x20000, [.atom a, .atom b] => .ok s (.atom (a + b))
    | 0x20011, [a, b] => .ok (g.cons R s a b).1 (g.cons R s a b).2
    | 0x20012, [a] =>
      match s.gcar a with
      | some v => .ok s v
      | none => .err s .terror
    | 0x20013, [a] =>
      match s.gcdr a with
      | some v => .ok s v
      | none => .err s .terror
    | 0x20014, l => .ok (mkListG g R s l).1 (mkListG g R s l).2
    | 0x2001C, [a, b] => .ok (s.setCar a b) (if a.isCons then .tru else .nil)
    | 0x2001D, [a, b] => .ok (s.setCdr a b) (if a.isCons then .tru else .nil)
    | _, _ => .err s .terror
  eq s v w := decide (∀ p, (look s v p).map label = (look s w p).map label)

theorem look_rel {ρ κ : Nat → Nat → Prop} {s s' : St} (h : Agree ρ κ s s') {v v' : V} (hv : VR ρ κ v v') (p : List Bool) :
    Option.Rel (VR ρ κ) (look s v p) (look s' v' p) := by
  induction p generalizing v v' with
  | nil => cases v <;> cases hv <;> exact .some (by constructor <;> assumption)
  | cons b p ih =>
    cases hv with
    | cons e =>
      cases b with
      | true => exact ih (h.cars _ _ e)
      | false => exact ih (h.cdrs _ _ e)
    | _ => cases b <;> exact .none

theorem VR.label {ρ κ : Nat → Nat → Prop} {v v' : V} (h : VR ρ κ v v') : label v = label v' := by cases h <;> rfl

theorem VR.eq_iff {ρ κ : Nat → Nat → Prop} {s s' : St} (h : Agree ρ κ s s') {v v' w w' : V} (hv : VR ρ κ v v') (hw : VR ρ κ w w') : v = w ↔ v' = w' := by
  cases hv with
  | cons e =>
    cases hw with
    | cons e2 =>
      simp only [V.cons.injEq]
      exact ⟨fun hh => by subst hh; exact h.rfun _ _ _ e e2, fun hh => by subst hh; exact h.rinj _ _ _ e e2⟩
    | _ => simp
  | arr e =>
    cases hw with
    | arr e2 =>
      simp only [V.arr.injEq]
      exact ⟨fun hh => by subst hh; exact h.kfun _ _ _ e e2, fun hh => by subst hh; exact h.kinj _ _ _ e e2⟩
    | _ => simp
  | _ => cases hw <;> simp

theorem map_label_rel {ρ κ : Nat → Nat → Prop} {x y : Option V} (h : Option.Rel (VR ρ κ) x y) : x.map label = y.map label := by
  cases h with
  | none => rfl
  | some h => simp [h.label]

theorem mkList_rel {g : Gc} (hg : Sound g) {ρ κ : Nat → Nat → Prop} {s s' : St} {R : List V} (h : Agree ρ κ s s') (hr : Rooted ρ κ R) {l l' : List V}
    (hl : All2 (VR ρ κ) l l') (ll : ∀ v ∈ l', Live s' R v) :
    ∃ ρ1 κ1, Agree ρ1 κ1 (mkList s l).1 (mkListG g R s' l').1 ∧ VR ρ1 κ1 (mkList s l).2 (mkListG g R s' l').2 ∧ Ext R ρ κ s' ρ1 κ1 (mkListG g R s' l').1 := by
  induction hl with
  | nil => exact ⟨ρ, κ, h, .sym 0, .refl _ _ _ _⟩
  | @cons x x' l l' hx _ ih =>
    obtain ⟨ρ1, κ1, h1, v1, x1⟩ := ih fun v hv => ll v (by simp [hv])
    have lx := ll x' (by simp)
    obtain ⟨ρ2, κ2, h2, v2, x2⟩ := cons_rel hg h1 ((hr.ext x1).cons v1) (x1.vr _ _ hx lx) v1 (x1.live lx).cons (.root (by simp))
    exact ⟨ρ2, κ2, h2, v2, (x1.trans (x2.mono (R := R) (by simp +contextual)) (by simp))⟩

theorem listPrims_other {n : Nat} (h : ¬ (n = 0x20000 ∨ n = 0x20011 ∨ n = 0x20012 ∨ n = 0x20013 ∨ n = 0x20014 ∨ n = 0x2001C ∨ n = 0x2001D)) (args : List V)
    (env : V) (s : St) : listPrims.run n args env s = .err s .terror := by
  simp only [listPrims]
  split <;> first | rfl | (exfalso; simp at h)

theorem listPrimsG_other {n : Nat} (h : ¬ (n = 0x20000 ∨ n = 0x20011 ∨ n = 0x20012 ∨ n = 0x20013 ∨ n = 0x20014 ∨ n = 0x2001C ∨ n = 0x2001D)) (g : Gc) (R args : List V)
    (env : V) (s : St) : listPrimsG.run g R n args env s = .err s .terror := by
  simp only [listPrimsG]
  split <;> first | rfl | (exfalso; simp at h)

theorem listPrims_sim : PSim listPrims listPrimsG where
  eq ρ κ s s' h v v' w w' hv hw := by
    have : ∀ p, ((look s v p).map label = (look s w p).map label) = ((look s' v' p).map label = (look s' w' p).map label) := by
      intro p
      rw [map_label_rel (look_rel h hv p), map_label_rel (look_rel h hw p)]
    simp only [listPrims, listPrimsG]
    rw [decide_eq_decide]
    exact ⟨fun h p => (this p) ▸ h p, fun h p => (this p) ▸ h p⟩
  run g hg ρ κ s s' h R hr n args args' env env' ha la he le := by
    have none_case : ∃ (ρ1 κ1 : Nat → Nat → Prop), (∀ v v', VR ρ κ v v' → Live s' R v' → VR ρ1 κ1 v v') ∧ Agree ρ1 κ1 s s' ∧ VR ρ1 κ1 V.terror V.terror :=
      ⟨ρ, κ, fun _ _ h _ => h, h, .sym _⟩
    by_cases h0 : ¬ (n = 0x20000 ∨ n = 0x20011 ∨ n = 0x20012 ∨ n = 0x20013 ∨ n = 0x20014 ∨ n = 0x2001C ∨ n = 0x2001D)
    · rw [listPrims_other h0, listPrimsG_other h0]
      exact none_case
    simp only [listPrims, listPrimsG]
    by_cases h1 : n = 0x20000
    · subst h1
      cases ha with
      | nil => exact none_case
      | cons ha1 ha =>
        cases ha with
        | nil => cases ha1 <;> exact none_case
        | cons ha2 ha =>
          cases ha with
          | nil => cases ha1 <;> cases ha2 <;> first | exact none_case | exact ⟨ρ, κ, fun _ _ h _ => h, h, .atom _⟩
          | cons _ _ => cases ha1 <;> cases ha2 <;> exact none_case
    by_cases h1 : n = 0x20011
    · subst h1
      cases ha with
      | nil => exact none_case
      | cons ha1 ha =>
        cases ha with
        | nil => exact none_case
        | cons ha2 ha =>
          cases ha with
          | nil =>
            obtain ⟨ρ1, κ1, h1, v1, x1⟩ := cons_rel hg h hr ha1 ha2 (la _ (by simp)) (la _ (by simp))
            exact ⟨ρ1, κ1, x1.vr, h1, v1⟩
          | cons _ _ => exact none_case
    by_cases h1 : n = 0x20012
    · subst h1
      cases ha with
      | nil => exact none_case
      | @cons a a' _ _ ha1 ha =>
        cases ha with
        | nil =>
          have := gcar_rel h ha1
          simp only
          generalize s.gcar a = x, s'.gcar a' = y at this ⊢
          cases this with
          | none => exact none_case
          | some hx => exact ⟨ρ, κ, fun _ _ h _ => h, h, hx⟩
        | cons _ _ => exact none_case
    by_cases h1 : n = 0x20013
    · subst h1
      cases ha with
      | nil => exact none_case
      | @cons a a' _ _ ha1 ha =>
        cases ha with
        | nil =>
          have := gcdr_rel h ha1
          simp only
          generalize s.gcdr a = x, s'.gcdr a' = y at this ⊢
          cases this with
          | none => exact none_case
          | some hx => exact ⟨ρ, κ, fun _ _ h _ => h, h, hx⟩
        | cons _ _ => exact none_case
    by_cases h1 : n = 0x20014
    · subst h1
      obtain ⟨ρ1, κ1, h1, v1, x1⟩ := mkList_rel hg h hr ha la
      exact ⟨ρ1, κ1, x1.vr, h1, v1⟩
    by_cases h1 : n = 0x2001C
    · subst h1
      cases ha with
      | nil => exact none_case
      | cons ha1 ha =>
        cases ha with
        | nil => exact none_case
        | cons ha2 ha =>
          cases ha with
          | nil =>
            refine ⟨ρ, κ, fun _ _ h _ => h, setCar_rel h ha1 ha2, ?_⟩
            rw [ha1.isCons]
            split <;> exact .sym _
          | cons _ _ => exact none_case
    by_cases h1 : n = 0x2001D
    · subst h1
      cases ha with
      | nil => exact none_case
      | cons ha1 ha =>
        cases ha with
        | nil => exact none_case
        | cons ha2 ha =>
          cases ha with
          | nil =>
            refine ⟨ρ, κ, fun _ _ h _ => h, setCdr_rel h ha1 ha2, ?_⟩
            rw [ha1.isCons]
            split <;> exact .sym _
          | cons _ _ => exact none_case
    omega

end Verif.Gc
