import Verif.Gc.Rel

/-!
# Collections and allocations keep the relation
-/

namespace Verif.Gc

open Verif.Eval

/-- A value that the collector keeps: it has no cell, or it is reachable. -/
def Live (s : St) (R : List V) : V → Prop
  | .cons a => Reach s R (.cons a)
  | .arr n => Reach s R (.arr n)
  | _ => True

theorem Reach.live {s : St} {R : List V} {v : V} (h : Reach s R v) : Live s R v := by
  cases v <;> first | exact h | trivial

theorem Live.root {s : St} {R : List V} {v : V} (h : v ∈ R) : Live s R v := (Reach.root h).live

theorem Reach.mono {s : St} {R R' : List V} (hR : ∀ v ∈ R, v ∈ R') {v : V} (h : Reach s R v) : Reach s R' v := by
  induction h with
  | root h => exact .root (hR _ h)
  | glob i => exact .glob i
  | car _ ih => exact .car ih
  | cdr _ ih => exact .cdr ih
  | kont _ hx ih => exact .kont ih hx

theorem Live.mono {s : St} {R R' : List V} (hR : ∀ v ∈ R, v ∈ R') {v : V} (h : Live s R v) : Live s R' v := by
  cases v <;> first | exact Reach.mono hR h | trivial

theorem Live.cons {s : St} {R : List V} {x v : V} (h : Live s R v) : Live s (x :: R) v := h.mono fun _ h => by simp [h]

theorem Live.app {s : St} {R L : List V} {v : V} (h : Live s R v) : Live s (L ++ R) v := h.mono fun _ h => by simp [h]

theorem Live.car {s : St} {R : List V} {a : Nat} (h : Live s R (.cons a)) : Live s R (s.car a) := (Reach.car h).live

theorem Live.cdr {s : St} {R : List V} {a : Nat} (h : Live s R (.cons a)) : Live s R (s.cdr a) := (Reach.cdr h).live

theorem Live.hd {s : St} {R : List V} {v : V} (h : Live s R v) : Live s R (s.hd v) := by
  cases v <;> first | exact h.car | trivial

theorem Live.tl {s : St} {R : List V} {v : V} (h : Live s R v) : Live s R (s.tl v) := by
  cases v <;> first | exact h.cdr | exact h | trivial

theorem Live.gcar {s : St} {R : List V} {v x : V} (h : Live s R v) (e : s.gcar v = some x) : Live s R x := by
  unfold St.gcar at e
  split at e
  · injection e with e; subst e; exact h.car
  · injection e with e; subst e; trivial
  · simp at e

theorem Live.gcdr {s : St} {R : List V} {v x : V} (h : Live s R v) (e : s.gcdr v = some x) : Live s R x := by
  unfold St.gcdr at e
  split at e
  · injection e with e; subst e; exact h.cdr
  · injection e with e; subst e; trivial
  · simp at e

theorem Live.gcadr {s : St} {R : List V} {v x : V} (h : Live s R v) (e : s.gcadr v = some x) : Live s R x := by
  unfold St.gcadr at e
  split at e
  · have h1 := h.cdr
    split at e
    · rename_i h2
      injection e with e; subst e; rw [h2] at h1; exact h1.car
    · injection e with e; subst e; trivial
    · simp at e
  · injection e with e; subst e; trivial
  · simp at e

theorem Live.binderVar {s : St} {R : List V} {v : V} (h : Live s R v) : Live s R (s.binderVar v) := by
  unfold St.binderVar
  split
  · split
    · have h1 := h.cdr
      split
      · rename_i h2
        rw [h2] at h1
        exact h1.car
      · trivial
    · trivial
  · trivial

theorem VR.imp {ρ κ ρ1 κ1 : Nat → Nat → Prop} {v v' : V} (h : VR ρ κ v v') (h1 : ∀ a b, v' = .cons b → ρ a b → ρ1 a b)
    (h2 : ∀ a b, v' = .arr b → κ a b → κ1 a b) : VR ρ1 κ1 v v' := by
  cases h with
  | sym n => exact .sym n
  | u n => exact .u n
  | atom n => exact .atom n
  | cons h => exact .cons (h1 _ _ rfl h)
  | arr h => exact .arr (h2 _ _ rfl h)

/-- What was reachable is as it was. -/
structure Keep (R : List V) (s s1 : St) : Prop where
  car : ∀ a, Reach s R (.cons a) → s1.car a = s.car a
  cdr : ∀ a, Reach s R (.cons a) → s1.cdr a = s.cdr a
  konts : ∀ n, Reach s R (.arr n) → s1.konts n = s.konts n
  globals : s1.globals = s.globals

theorem Keep.reach {R R' : List V} {s s1 : St} (h : Keep R s s1) (hR : ∀ v ∈ R', v ∈ R) {v : V} (hv : Reach s R' v) : Reach s1 R' v := by
  induction hv with
  | root h => exact .root h
  | glob i => rw [← h.globals]; exact .glob i
  | car h1 ih => rw [← h.car _ (h1.mono hR)]; exact .car ih
  | cdr h1 ih => rw [← h.cdr _ (h1.mono hR)]; exact .cdr ih
  | kont h1 hx ih => exact .kont ih (by rw [h.konts _ (h1.mono hR)]; exact hx)

theorem Keep.back {R : List V} {s s1 : St} (h : Keep R s s1) {v : V} (hv : Reach s1 R v) : Reach s R v := by
  induction hv with
  | root h => exact .root h
  | glob i => rw [h.globals]; exact .glob i
  | car h1 ih => rw [h.car _ ih]; exact .car ih
  | cdr h1 ih => rw [h.cdr _ ih]; exact .cdr ih
  | kont h1 hx ih => exact .kont ih (by rw [← h.konts _ ih]; exact hx)

theorem Keep.live {R R' : List V} {s s1 : St} (h : Keep R s s1) (hR : ∀ v ∈ R', v ∈ R) {v : V} (hv : Live s R' v) : Live s1 R' v := by
  cases v <;> first | exact h.reach hR hv | trivial

theorem Keep.refl (R : List V) (s : St) : Keep R s s := ⟨fun _ _ => rfl, fun _ _ => rfl, fun _ _ => rfl, rfl⟩

theorem Keep.trans {R R' : List V} {s s1 s2 : St} (h : Keep R s s1) (h' : Keep R' s1 s2) (hR : ∀ v ∈ R, v ∈ R') : Keep R s s2 := by
  have hr : ∀ v, Reach s R v → Reach s1 R' v := fun v hv => (h.reach (fun _ h => h) hv).mono hR
  exact ⟨fun a ha => (h'.car _ (hr _ ha)).trans (h.car _ ha), fun a ha => (h'.cdr _ (hr _ ha)).trans (h.cdr _ ha),
    fun a ha => (h'.konts _ (hr _ ha)).trans (h.konts _ ha), h'.globals.trans h.globals⟩

/-- After allocations of the machine with the collector: what was live is still related, and is as it was. -/
structure Ext (R : List V) (ρ κ : Nat → Nat → Prop) (s : St) (ρ1 κ1 : Nat → Nat → Prop) (s1 : St) : Prop where
  vr : ∀ v v', VR ρ κ v v' → Live s R v' → VR ρ1 κ1 v v'
  keep : Keep R s s1

theorem Ext.refl (R : List V) (ρ κ : Nat → Nat → Prop) (s : St) : Ext R ρ κ s ρ κ s := ⟨fun _ _ h _ => h, .refl _ _⟩

theorem Ext.trans {R R' : List V} {ρ κ ρ1 κ1 ρ2 κ2 : Nat → Nat → Prop} {s s1 s2 : St} (h : Ext R ρ κ s ρ1 κ1 s1) (h' : Ext R' ρ1 κ1 s1 ρ2 κ2 s2)
    (hR : ∀ v ∈ R, v ∈ R') : Ext R ρ κ s ρ2 κ2 s2 :=
  ⟨fun v v' hv hl => h'.vr _ _ (h.vr _ _ hv hl) ((h.keep.live (fun _ h => h) hl).mono hR), h.keep.trans h'.keep hR⟩

theorem Ext.mono {R R' : List V} {ρ κ ρ1 κ1 : Nat → Nat → Prop} {s s1 : St} (h : Ext R' ρ κ s ρ1 κ1 s1) (hR : ∀ v ∈ R, v ∈ R') : Ext R ρ κ s ρ1 κ1 s1 :=
  (Ext.refl R ρ κ s).trans h hR

theorem Ext.live {R : List V} {ρ κ ρ1 κ1 : Nat → Nat → Prop} {s s1 : St} (h : Ext R ρ κ s ρ1 κ1 s1) {v : V} (hv : Live s R v) : Live s1 R v :=
  h.keep.live (fun _ h => h) hv

/-- Every root is related to something. -/
def Rooted (ρ κ : Nat → Nat → Prop) (R : List V) : Prop := ∀ x ∈ R, ∃ v, VR ρ κ v x

theorem Rooted.ext {R : List V} {ρ κ ρ1 κ1 : Nat → Nat → Prop} {s s1 : St} (hr : Rooted ρ κ R) (h : Ext R ρ κ s ρ1 κ1 s1) : Rooted ρ1 κ1 R := by
  intro x hx
  obtain ⟨v, hv⟩ := hr x hx
  exact ⟨v, h.vr _ _ hv (.root hx)⟩

theorem Rooted.cons {R : List V} {ρ κ : Nat → Nat → Prop} {v x : V} (hr : Rooted ρ κ R) (h : VR ρ κ v x) : Rooted ρ κ (x :: R) := by
  intro y hy
  cases hy with
  | head => exact ⟨v, h⟩
  | tail _ hy => exact hr _ hy

theorem All2.mem {α β : Type} {r : α → β → Prop} {l : List α} {l' : List β} (h : All2 r l l') {b : β} (hb : b ∈ l') : ∃ a ∈ l, r a b := by
  induction h with
  | nil => simp at hb
  | cons h _ ih =>
    cases hb with
    | head => exact ⟨_, by simp, h⟩
    | tail _ hb =>
      obtain ⟨a, ha, hr⟩ := ih hb
      exact ⟨a, by simp [ha], hr⟩

/-- Everything that is reachable from related roots is related to something. -/
theorem Agree.reach {ρ κ : Nat → Nat → Prop} {s s' : St} {R : List V} (h : Agree ρ κ s s') (hr : Rooted ρ κ R) {x : V} (hx : Reach s' R x) :
    ∃ v, VR ρ κ v x := by
  induction hx with
  | root h => exact hr _ h
  | glob i => exact ⟨_, h.glob i⟩
  | car _ ih =>
    obtain ⟨v, hv⟩ := ih
    cases hv with
    | cons e => exact ⟨_, h.cars _ _ e⟩
  | cdr _ ih =>
    obtain ⟨v, hv⟩ := ih
    cases hv with
    | cons e => exact ⟨_, h.cdrs _ _ e⟩
  | kont _ hm ih =>
    obtain ⟨v, hv⟩ := ih
    cases hv with
    | arr e =>
      obtain ⟨w, _, hw⟩ := (h.kont _ _ e).mem hm
      cases hw with
      | v hw => exact ⟨_, hw⟩

theorem bounded_range {r : Nat → Nat → Prop} (hf : ∀ a b b', r a b → r a b' → b = b') (n : Nat) : ∃ N, ∀ a b, a < n → r a b → b < N := by
  induction n with
  | zero => exact ⟨0, fun a b h => by omega⟩
  | succ n ih =>
    obtain ⟨N, hN⟩ := ih
    by_cases h : ∃ b, r n b
    · obtain ⟨b, hb⟩ := h
      refine ⟨N + b + 1, fun a b' ha hr => ?_⟩
      by_cases e : a = n
      · subst e
        have := hf _ _ _ hr hb
        omega
      · have := hN a b' (by omega) hr
        omega
    · refine ⟨N, fun a b' ha hr => ?_⟩
      by_cases e : a = n
      · subst e
        exact absurd ⟨_, hr⟩ h
      · exact hN a b' (by omega) hr

theorem Agree.bounded {ρ κ : Nat → Nat → Prop} {s s' : St} {R : List V} (h : Agree ρ κ s s') (hr : Rooted ρ κ R) :
    ∃ n, ∀ a, Reach s' R (.cons a) → a < n := by
  obtain ⟨N, hN⟩ := bounded_range h.rfun s.next
  refine ⟨N, fun a ha => ?_⟩
  obtain ⟨v, hv⟩ := h.reach hr ha
  cases hv with
  | cons e => exact hN _ _ (h.lt _ _ e) e

theorem Agree.boundedArr {ρ κ : Nat → Nat → Prop} {s s' : St} {R : List V} (h : Agree ρ κ s s') (hr : Rooted ρ κ R) :
    ∃ n, ∀ a, Reach s' R (.arr a) → a < n := by
  obtain ⟨N, hN⟩ := bounded_range h.kfun s.nk
  refine ⟨N, fun a ha => ?_⟩
  obtain ⟨v, hv⟩ := h.reach hr ha
  cases hv with
  | arr e => exact hN _ _ (h.klt _ _ e) e

theorem Sound.keep {g : Gc} (hg : Sound g) (R : List V) (s : St) : Keep R s (g.collect R s) :=
  ⟨hg.car R s, hg.cdr R s, hg.konts R s, hg.globals R s⟩

/-- The relation restricted to what is reachable. -/
def only (r : Nat → Nat → Prop) (p : Nat → Prop) (a b : Nat) : Prop := r a b ∧ p b

theorem VR.only {ρ κ : Nat → Nat → Prop} {s : St} {R : List V} {v v' : V} (h : VR ρ κ v v') (hl : Live s R v') :
    VR (only ρ fun b => Reach s R (.cons b)) (only κ fun b => Reach s R (.arr b)) v v' := by
  cases h with
  | sym n => exact .sym n
  | u n => exact .u n
  | atom n => exact .atom n
  | cons h => exact .cons ⟨h, hl⟩
  | arr h => exact .arr ⟨h, hl⟩

theorem WR.only {ρ κ : Nat → Nat → Prop} {s : St} {R : List V} {w w' : W} (h : WR ρ κ w w') (hl : ∀ x, w' = .v x → Live s R x) :
    WR (only ρ fun b => Reach s R (.cons b)) (only κ fun b => Reach s R (.arr b)) w w' := by
  cases h with
  | v h => exact .v (h.only (hl _ rfl))
  | k n => exact .k n
  | raw n => exact .raw n
  | junk => exact .junk

theorem collect_rel {g : Gc} (hg : Sound g) {ρ κ : Nat → Nat → Prop} {s s' : St} (h : Agree ρ κ s s') (R : List V) :
    Agree (only ρ fun b => Reach s' R (.cons b)) (only κ fun b => Reach s' R (.arr b)) s (g.collect R s') := by
  refine ⟨fun a b b' h1 h2 => h.rfun _ _ _ h1.1 h2.1, fun a b b' h1 h2 => h.rinj _ _ _ h1.1 h2.1,
    fun a b b' h1 h2 => h.kfun _ _ _ h1.1 h2.1, fun a b b' h1 h2 => h.kinj _ _ _ h1.1 h2.1, ?_, ?_, ?_, ?_, ?_,
    fun a b h1 => h.lt _ _ h1.1, fun a b h1 => h.klt _ _ h1.1, ?_⟩
  · intro a b h1
    rw [hg.car _ _ _ h1.2]
    exact (h.cars _ _ h1.1).only (Reach.car h1.2).live
  · intro a b h1
    rw [hg.cdr _ _ _ h1.2]
    exact (h.cdrs _ _ h1.1).only (Reach.cdr h1.2).live
  · intro a b h1
    rw [hg.konts _ _ _ h1.2]
    exact (h.kont _ _ h1.1).imp fun w w' hm hw => hw.only fun x e => (Reach.kont h1.2 (e ▸ hm)).live
  · intro i
    rw [hg.globals]
    exact (h.glob i).only (Reach.glob i).live
  · rw [hg.atomic]
    exact h.atomic
  · rw [hg.next]
    exact h.nle

/-- A collection. -/
theorem collect_ext {g : Gc} (hg : Sound g) {ρ κ : Nat → Nat → Prop} {s s' : St} (h : Agree ρ κ s s') (R : List V) :
    ∃ ρ1 κ1, Agree ρ1 κ1 s (g.collect R s') ∧ Ext R ρ κ s' ρ1 κ1 (g.collect R s') :=
  ⟨_, _, collect_rel hg h R, fun _ _ hv hl => hv.only hl, hg.keep R s'⟩

theorem WR.imp {ρ κ ρ1 κ1 : Nat → Nat → Prop} {w w' : W} (h : WR ρ κ w w') (h1 : ∀ a b, ρ a b → ρ1 a b)
    (h2 : ∀ a b, κ a b → κ1 a b) : WR ρ1 κ1 w w' := by
  cases h with
  | v h => exact .v (h.imp (fun a b _ => h1 a b) (fun a b _ => h2 a b))
  | k n => exact .k n
  | raw n => exact .raw n
  | junk => exact .junk

/-- A new cell, in both machines. -/
theorem cons_rel {g : Gc} (hg : Sound g) {ρ κ : Nat → Nat → Prop} {s s' : St} (h : Agree ρ κ s s') {R : List V} (hr : Rooted ρ κ R) {a a' d d' : V}
    (ha : VR ρ κ a a') (hd : VR ρ κ d d') (la : Live s' R a') (ld : Live s' R d') :
    ∃ ρ1 κ1, Agree ρ1 κ1 (s.cons a d).1 (g.cons R s' a' d').1 ∧ VR ρ1 κ1 (s.cons a d).2 (g.cons R s' a' d').2 ∧
      Ext R ρ κ s' ρ1 κ1 (g.cons R s' a' d').1 := by
  have hk := hg.keep R s'
  have hfr : ¬ Reach s' R (.cons (g.pick R (g.collect R s'))) := by
    intro hh
    obtain ⟨n, hn⟩ := h.bounded hr
    exact hg.fresh R (g.collect R s') ⟨n, fun a ha => hn a (hk.back ha)⟩ (hk.reach (fun _ h => h) hh)
  have h1 := collect_rel hg h R
  have hv : ∀ v v', VR ρ κ v v' → Live s' R v' → VR (fun a b => only ρ (fun b => Reach s' R (.cons b)) a b ∨ (a = s.next ∧ b = g.pick R (g.collect R s')))
      (only κ fun b => Reach s' R (.arr b)) v v' :=
    fun v v' hv hl => (hv.only hl).imp (fun _ _ _ h => .inl h) (fun _ _ _ h => h)
  refine ⟨fun a b => only ρ (fun b => Reach s' R (.cons b)) a b ∨ (a = s.next ∧ b = g.pick R (g.collect R s')),
    only κ fun b => Reach s' R (.arr b), ?_, .cons (.inr ⟨rfl, rfl⟩), ⟨hv, ?_⟩⟩
  · have hlt : ∀ a b, only ρ (fun b => Reach s' R (.cons b)) a b → a ≠ s.next ∧ b ≠ g.pick R (g.collect R s') := by
      intro a b hab
      refine ⟨fun e => ?_, fun e => ?_⟩
      · have := h1.lt _ _ hab
        omega
      · subst e
        exact hfr hab.2
    refine ⟨?_, ?_, h1.kfun, h1.kinj, ?_, ?_, ?_, ?_, h1.atomic, ?_, h1.klt, ?_⟩
    · rintro a b b' (e | ⟨rfl, rfl⟩) (e' | ⟨e1, e2⟩)
      · exact h1.rfun _ _ _ e e'
      · exact absurd e1 (hlt _ _ e).1
      · exact absurd rfl (hlt _ _ e').1
      · exact e2.symm
    · rintro a a' b (e | ⟨rfl, rfl⟩) (e' | ⟨e1, e2⟩)
      · exact h1.rinj _ _ _ e e'
      · exact absurd e2 (hlt _ _ e).2
      · exact absurd rfl (hlt _ _ e').2
      · exact e1.symm
    · rintro a1 b1 (e | ⟨rfl, rfl⟩)
      · obtain ⟨e1, e2⟩ := hlt _ _ e
        simp only [St.cons, Gc.cons, if_neg e1, if_neg e2]
        exact (h1.cars _ _ e).imp (fun _ _ _ h => .inl h) (fun _ _ _ h => h)
      · simp only [St.cons, Gc.cons, if_true]
        exact hv _ _ ha la
    · rintro a1 b1 (e | ⟨rfl, rfl⟩)
      · obtain ⟨e1, e2⟩ := hlt _ _ e
        simp only [St.cons, Gc.cons, if_neg e1, if_neg e2]
        exact (h1.cdrs _ _ e).imp (fun _ _ _ h => .inl h) (fun _ _ _ h => h)
      · simp only [St.cons, Gc.cons, if_true]
        exact hv _ _ hd ld
    · intro a1 b1 e
      exact (h1.kont _ _ e).imp fun w w' _ hw => hw.imp (fun _ _ h => .inl h) (fun _ _ h => h)
    · intro i
      exact (h1.glob i).imp (fun _ _ _ h => .inl h) (fun _ _ _ h => h)
    · rintro a1 b1 (e | ⟨rfl, rfl⟩)
      · have := h1.lt _ _ e
        simp only [St.cons]
        omega
      · simp [St.cons]
    · have := h1.nle
      simp only [St.cons, Gc.cons]
      omega
  · refine ⟨fun a1 e => ?_, fun a1 e => ?_, hk.konts, hk.globals⟩
    · have : a1 ≠ g.pick R (g.collect R s') := fun h => hfr (h ▸ e)
      simp only [Gc.cons, if_neg this]
      exact hk.car _ e
    · have : a1 ≠ g.pick R (g.collect R s') := fun h => hfr (h ▸ e)
      simp only [Gc.cons, if_neg this]
      exact hk.cdr _ e

/-- The same, with the results named. -/
theorem cons_ext {g : Gc} (hg : Sound g) {ρ κ : Nat → Nat → Prop} {s s' : St} (h : Agree ρ κ s s') {R : List V} (hr : Rooted ρ κ R) {a a' d d' : V}
    (ha : VR ρ κ a a') (hd : VR ρ κ d d') (la : Live s' R a') (ld : Live s' R d') {s1 : St} {c : V} (e : s.cons a d = (s1, c)) {s1' : St} {c' : V}
    (e' : g.cons R s' a' d' = (s1', c')) :
    ∃ ρ1 κ1, Agree ρ1 κ1 s1 s1' ∧ VR ρ1 κ1 c c' ∧ Ext R ρ κ s' ρ1 κ1 s1' := by
  have := cons_rel hg h hr ha hd la ld
  rw [e, e'] at this
  exact this

/-- A new array for a captured stack, in both machines. -/
theorem newArr_rel {g : Gc} (hg : Sound g) {ρ κ : Nat → Nat → Prop} {s s' : St} (h : Agree ρ κ s s') {R : List V} (hr : Rooted ρ κ R) {K K' : List W}
    (hK : KR ρ κ K K') (hl : ∀ x, W.v x ∈ K' → Live s' R x) :
    ∃ ρ1 κ1, Agree ρ1 κ1 { s with konts := fun i => if i = s.nk then K else s.konts i, nk := s.nk + 1 } (g.newArr R s' K').1 ∧
      VR ρ1 κ1 (.arr s.nk) (g.newArr R s' K').2 ∧ Ext R ρ κ s' ρ1 κ1 (g.newArr R s' K').1 := by
  have hk := hg.keep R s'
  have hfr : ¬ Reach s' R (.arr (g.pickArr R (g.collect R s'))) := by
    intro hh
    obtain ⟨n, hn⟩ := h.boundedArr hr
    exact hg.freshArr R (g.collect R s') ⟨n, fun a ha => hn a (hk.back ha)⟩ (hk.reach (fun _ h => h) hh)
  have h1 := collect_rel hg h R
  have hv : ∀ v v', VR ρ κ v v' → Live s' R v' → VR (only ρ fun b => Reach s' R (.cons b))
      (fun a b => only κ (fun b => Reach s' R (.arr b)) a b ∨ (a = s.nk ∧ b = g.pickArr R (g.collect R s'))) v v' :=
    fun v v' hv hl => (hv.only hl).imp (fun _ _ _ h => h) (fun _ _ _ h => .inl h)
  refine ⟨only ρ fun b => Reach s' R (.cons b), fun a b => only κ (fun b => Reach s' R (.arr b)) a b ∨ (a = s.nk ∧ b = g.pickArr R (g.collect R s')),
    ?_, .arr (.inr ⟨rfl, rfl⟩), ⟨hv, ?_⟩⟩
  · have hlt : ∀ a b, only κ (fun b => Reach s' R (.arr b)) a b → a ≠ s.nk ∧ b ≠ g.pickArr R (g.collect R s') := by
      intro a b hab
      refine ⟨fun e => ?_, fun e => ?_⟩
      · have := h1.klt _ _ hab
        omega
      · subst e
        exact hfr hab.2
    refine ⟨h1.rfun, h1.rinj, ?_, ?_, ?_, ?_, ?_, ?_, h1.atomic, h1.lt, ?_, h1.nle⟩
    · rintro a b b' (e | ⟨rfl, rfl⟩) (e' | ⟨e1, e2⟩)
      · exact h1.kfun _ _ _ e e'
      · exact absurd e1 (hlt _ _ e).1
      · exact absurd rfl (hlt _ _ e').1
      · exact e2.symm
    · rintro a a' b (e | ⟨rfl, rfl⟩) (e' | ⟨e1, e2⟩)
      · exact h1.kinj _ _ _ e e'
      · exact absurd e2 (hlt _ _ e).2
      · exact absurd rfl (hlt _ _ e').2
      · exact e1.symm
    · intro a1 b1 e
      exact (h1.cars _ _ e).imp (fun _ _ _ h => h) (fun _ _ _ h => .inl h)
    · intro a1 b1 e
      exact (h1.cdrs _ _ e).imp (fun _ _ _ h => h) (fun _ _ _ h => .inl h)
    · rintro a1 b1 (e | ⟨rfl, rfl⟩)
      · obtain ⟨e1, e2⟩ := hlt _ _ e
        simp only [Gc.newArr, if_neg e1, if_neg e2]
        exact (h1.kont _ _ e).imp fun w w' _ hw => hw.imp (fun _ _ h => h) (fun _ _ h => .inl h)
      · simp only [Gc.newArr, if_true]
        refine hK.imp fun w w' hm hw => ?_
        exact (hw.only fun x e => hl _ (e ▸ hm)).imp (fun _ _ h => h) (fun _ _ h => .inl h)
    · intro i
      exact (h1.glob i).imp (fun _ _ _ h => h) (fun _ _ _ h => .inl h)
    · rintro a1 b1 (e | ⟨rfl, rfl⟩)
      · have := h1.klt _ _ e
        simp only
        omega
      · simp
  · refine ⟨hk.car, hk.cdr, fun a1 e => ?_, hk.globals⟩
    have : a1 ≠ g.pickArr R (g.collect R s') := fun h => hfr (h ▸ e)
    simp only [Gc.newArr, if_neg this]
    exact hk.konts _ e

end Verif.Gc
