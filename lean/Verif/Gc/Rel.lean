import Verif.Gc.Spec

/-!
# The relation between the machine without and the machine with a collector

`ρ` relates the cells of the machine that never frees a cell with those of the machine with a collector, `κ` the captured stacks.
-/

namespace Verif.Gc

open Verif.Eval

/-- Related values. -/
inductive VR (ρ κ : Nat → Nat → Prop) : V → V → Prop
  | sym (n) : VR ρ κ (.sym n) (.sym n)
  | u (n) : VR ρ κ (.u n) (.u n)
  | atom (n) : VR ρ κ (.atom n) (.atom n)
  | cons {a b} (h : ρ a b) : VR ρ κ (.cons a) (.cons b)
  | arr {a b} (h : κ a b) : VR ρ κ (.arr a) (.arr b)

/-- Related words. -/
inductive WR (ρ κ : Nat → Nat → Prop) : W → W → Prop
  | v {x y} (h : VR ρ κ x y) : WR ρ κ (.v x) (.v y)
  | k (n) : WR ρ κ (.k n) (.k n)
  | raw (n) : WR ρ κ (.raw n) (.raw n)
  | junk : WR ρ κ .junk .junk

/-- Lists related element by element. -/
inductive All2 {α β : Type} (r : α → β → Prop) : List α → List β → Prop
  | nil : All2 r [] []
  | cons {a b l l'} (h : r a b) (t : All2 r l l') : All2 r (a :: l) (b :: l')

abbrev KR (ρ κ : Nat → Nat → Prop) := All2 (WR ρ κ)

/-- Stores that agree on the related cells. -/
structure Agree (ρ κ : Nat → Nat → Prop) (s s' : St) : Prop where
  rfun : ∀ a b b', ρ a b → ρ a b' → b = b'
  rinj : ∀ a a' b, ρ a b → ρ a' b → a = a'
  kfun : ∀ a b b', κ a b → κ a b' → b = b'
  kinj : ∀ a a' b, κ a b → κ a' b → a = a'
  cars : ∀ a b, ρ a b → VR ρ κ (s.car a) (s'.car b)
  cdrs : ∀ a b, ρ a b → VR ρ κ (s.cdr a) (s'.cdr b)
  kont : ∀ a b, κ a b → KR ρ κ (s.konts a) (s'.konts b)
  glob : ∀ i, VR ρ κ (s.globals i) (s'.globals i)
  atomic : s.atomic = s'.atomic
  lt : ∀ a b, ρ a b → a < s.next
  klt : ∀ a b, κ a b → a < s.nk
  nle : s.next ≤ s'.next

theorem All2.length {α β : Type} {r : α → β → Prop} {l : List α} {l' : List β} (h : All2 r l l') : l.length = l'.length := by
  induction h with
  | nil => rfl
  | cons _ _ ih => simp [ih]

theorem All2.append {α β : Type} {r : α → β → Prop} {l : List α} {l' : List β} {m : List α} {m' : List β} (h : All2 r l l') (hm : All2 r m m') :
    All2 r (l ++ m) (l' ++ m') := by
  induction h with
  | nil => exact hm
  | cons h _ ih => exact .cons h ih

theorem All2.drop {α β : Type} {r : α → β → Prop} {l : List α} {l' : List β} (h : All2 r l l') (n : Nat) : All2 r (l.drop n) (l'.drop n) := by
  induction h generalizing n with
  | nil => simpa using All2.nil
  | cons h t ih =>
    cases n with
    | zero => exact .cons h t
    | succ n => exact ih n

theorem All2.take {α β : Type} {r : α → β → Prop} {l : List α} {l' : List β} (h : All2 r l l') (n : Nat) : All2 r (l.take n) (l'.take n) := by
  induction h generalizing n with
  | nil => simpa using All2.nil
  | cons h t ih =>
    cases n with
    | zero => exact .nil
    | succ n => exact .cons h (ih n)

theorem All2.reverse {α β : Type} {r : α → β → Prop} {l : List α} {l' : List β} (h : All2 r l l') : All2 r l.reverse l'.reverse := by
  induction h with
  | nil => exact .nil
  | cons h _ ih => simpa using ih.append (.cons h .nil)

theorem All2.tail {α β : Type} {r : α → β → Prop} {l : List α} {l' : List β} (h : All2 r l l') : All2 r l.tail l'.tail := by
  cases h with
  | nil => exact .nil
  | cons _ t => exact t

theorem All2.imp {α β : Type} {r q : α → β → Prop} {l : List α} {l' : List β} (h : All2 r l l') (hi : ∀ a b, b ∈ l' → r a b → q a b) : All2 q l l' := by
  induction h with
  | nil => exact .nil
  | cons h _ ih => exact .cons (hi _ _ (by simp) h) (ih fun a b hb => hi a b (by simp [hb]))

section
variable {ρ κ : Nat → Nat → Prop} {s s' : St} {v v' : V}

theorem VR.eqSym (h : VR ρ κ v v') (n : Nat) : v = .sym n ↔ v' = .sym n := by
  cases h <;> simp

theorem VR.isCons (h : VR ρ κ v v') : v.isCons = v'.isCons := by cases h <;> rfl

theorem VR.special (h : VR ρ κ v v') : special v = special v' := by cases h <;> rfl

theorem gcar_rel (h : Agree ρ κ s s') (hv : VR ρ κ v v') : Option.Rel (VR ρ κ) (s.gcar v) (s'.gcar v') := by
  cases hv with
  | cons e => exact .some (h.cars _ _ e)
  | sym n => cases n <;> first | exact .some (.sym _) | exact .none
  | _ => exact .none

theorem gcdr_rel (h : Agree ρ κ s s') (hv : VR ρ κ v v') : Option.Rel (VR ρ κ) (s.gcdr v) (s'.gcdr v') := by
  cases hv with
  | cons e => exact .some (h.cdrs _ _ e)
  | sym n => cases n <;> first | exact .some (.sym _) | exact .none
  | _ => exact .none

theorem gcadr_rel (h : Agree ρ κ s s') (hv : VR ρ κ v v') : Option.Rel (VR ρ κ) (s.gcadr v) (s'.gcadr v') := by
  cases hv with
  | @cons a b e =>
    have hc := h.cdrs _ _ e
    simp only [St.gcadr]
    generalize s.cdr a = x, s'.cdr b = y at hc ⊢
    cases hc with
    | cons e => exact .some (h.cars _ _ e)
    | sym n => cases n <;> first | exact .some (.sym _) | exact .none
    | _ => exact .none
  | sym n => cases n <;> first | exact .some (.sym _) | exact .none
  | _ => exact .none

theorem lcar_rel (h : Agree ρ κ s s') (hv : VR ρ κ v v') : VR ρ κ (s.lcar v) (s'.lcar v') := by
  cases hv with
  | cons e => exact h.cars _ _ e
  | sym n => cases n <;> exact .sym _
  | _ => exact .sym _

theorem hd_rel (h : Agree ρ κ s s') (hv : VR ρ κ v v') : VR ρ κ (s.hd v) (s'.hd v') := by
  cases hv with
  | cons e => exact h.cars _ _ e
  | _ => exact .sym _

theorem tl_rel (h : Agree ρ κ s s') (hv : VR ρ κ v v') : VR ρ κ (s.tl v) (s'.tl v') := by
  cases hv with
  | cons e => exact h.cdrs _ _ e
  | sym n => exact .sym _
  | u n => exact .u _
  | atom n => exact .atom _
  | arr e => exact .arr e

theorem len_rel (h : Agree ρ κ s s') {f f' : Nat} (hf : f ≤ f') (hv : VR ρ κ v v') {n : Nat} (e : s.len f v = some n) : s'.len f' v' = some n := by
  induction f generalizing f' v v' n with
  | zero => simp [St.len] at e
  | succ f ih =>
    obtain ⟨f', rfl⟩ : ∃ k, f' = k + 1 := ⟨f' - 1, by omega⟩
    cases hv with
    | cons hr =>
      simp only [St.len, Option.map_eq_some_iff] at e ⊢
      obtain ⟨k, hk, rfl⟩ := e
      exact ⟨k, ih (by omega) (h.cdrs _ _ hr) hk, rfl⟩
    | _ => simpa [St.len] using e

theorem lookup_rel (h : Agree ρ κ s s') (key : Nat) {f f' : Nat} (hf : f ≤ f') (hv : VR ρ κ v v') {r : Option V}
    (e : s.lookup (.sym key) f v = some r) : ∃ r', s'.lookup (.sym key) f' v' = some r' ∧ Option.Rel (VR ρ κ) r r' := by
  induction f generalizing f' v v' with
  | zero => simp [St.lookup] at e
  | succ f ih =>
    obtain ⟨f', rfl⟩ : ∃ k, f' = k + 1 := ⟨f' - 1, by omega⟩
    cases hv with
    | @cons a b hr =>
      simp only [St.lookup] at e ⊢
      have hc := h.cars _ _ hr
      have hd := h.cdrs _ _ hr
      generalize s.car a = x, s'.car b = y at hc e ⊢
      cases hc with
      | @cons p q hp =>
        have h1 := (h.cars _ _ hp).eqSym key
        have h2 := (h.cdrs _ _ hp).eqSym 0x2A
        simp only at e ⊢
        split at e
        · rename_i hif
          injection e with e
          subst e
          rw [if_pos ⟨h1.1 hif.1, fun he => hif.2 (h2.2 he)⟩]
          exact ⟨_, rfl, .some (h.cdrs _ _ hp)⟩
        · rename_i hif
          rw [if_neg (fun he => hif ⟨h1.2 he.1, fun hh => he.2 (h2.1 hh)⟩)]
          exact ih (by omega) hd e
      | _ => simp at e
    | _ =>
      simp only [St.lookup, Option.some.injEq] at e
      subst e
      exact ⟨_, rfl, .none⟩

theorem glookupLoop_rel (h : Agree ρ κ s s') (key : Nat) {f f' : Nat} (hf : f ≤ f') (hv : VR ρ κ v v') {r : Option V}
    (e : s.glookupLoop (.sym key) f v = some r) : ∃ r', s'.glookupLoop (.sym key) f' v' = some r' ∧ Option.Rel (VR ρ κ) r r' := by
  induction f generalizing f' v v' with
  | zero => simp [St.glookupLoop] at e
  | succ f ih =>
    obtain ⟨f', rfl⟩ : ∃ k, f' = k + 1 := ⟨f' - 1, by omega⟩
    cases hv with
    | @cons a b hr =>
      simp only [St.glookupLoop] at e ⊢
      have hc := h.cars _ _ hr
      have hd := h.cdrs _ _ hr
      generalize s.car a = x, s'.car b = y at hc e ⊢
      cases hc with
      | @cons p q hp =>
        have h1 := (h.cars _ _ hp).eqSym key
        simp only at e ⊢
        split at e
        · rename_i hif
          injection e with e
          subst e
          rw [if_pos (h1.1 hif)]
          exact ⟨_, rfl, .some (h.cdrs _ _ hp)⟩
        · rename_i hif
          rw [if_neg (fun he => hif (h1.2 he))]
          exact ih (by omega) hd e
      | _ => simp at e
    | _ =>
      simp only [St.glookupLoop, Option.some.injEq] at e
      subst e
      exact ⟨_, rfl, .none⟩

theorem glookup_rel (h : Agree ρ κ s s') (n : Nat) {r : Option V} (e : s.glookup n = some r) :
    ∃ r', s'.glookup n = some r' ∧ Option.Rel (VR ρ κ) r r' :=
  glookupLoop_rel h n (by have := h.nle; omega) (h.glob _) e

theorem findPair_rel (h : Agree ρ κ s s') (key : Nat) {f f' : Nat} (hf : f ≤ f') (hv : VR ρ κ v v') {r : Option V}
    (e : s.findPair (.sym key) f v = some r) : ∃ r', s'.findPair (.sym key) f' v' = some r' ∧ Option.Rel (VR ρ κ) r r' := by
  induction f generalizing f' v v' with
  | zero => simp [St.findPair] at e
  | succ f ih =>
    obtain ⟨f', rfl⟩ : ∃ k, f' = k + 1 := ⟨f' - 1, by omega⟩
    cases hv with
    | @cons a b hr =>
      simp only [St.findPair] at e ⊢
      have hc := h.cars _ _ hr
      have h1 := (lcar_rel h hc).eqSym key
      split at e
      · rename_i hif
        injection e with e
        subst e
        rw [if_pos (h1.1 hif)]
        exact ⟨_, rfl, .some hc⟩
      · rename_i hif
        rw [if_neg (fun he => hif (h1.2 he))]
        exact ih (by omega) (h.cdrs _ _ hr) e
    | _ =>
      simp only [St.findPair, Option.some.injEq] at e
      subst e
      exact ⟨_, rfl, .none⟩

theorem setCar_rel (h : Agree ρ κ s s') (hv : VR ρ κ v v') {x x' : V} (hx : VR ρ κ x x') : Agree ρ κ (s.setCar v x) (s'.setCar v' x') := by
  cases hv with
  | @cons a b hr =>
    refine { h with cars := ?_ }
    intro a1 b1 h1
    simp only [St.setCar]
    by_cases e : a1 = a
    · subst e
      rw [h.rfun _ _ _ h1 hr]
      simpa using hx
    · have : b1 ≠ b := fun e' => e (h.rinj _ _ _ (e' ▸ h1) hr)
      simpa [e, this] using h.cars _ _ h1
  | _ => exact h

theorem setCdr_rel (h : Agree ρ κ s s') (hv : VR ρ κ v v') {x x' : V} (hx : VR ρ κ x x') : Agree ρ κ (s.setCdr v x) (s'.setCdr v' x') := by
  cases hv with
  | @cons a b hr =>
    refine { h with cdrs := ?_ }
    intro a1 b1 h1
    simp only [St.setCdr]
    by_cases e : a1 = a
    · subst e
      rw [h.rfun _ _ _ h1 hr]
      simpa using hx
    · have : b1 ≠ b := fun e' => e (h.rinj _ _ _ (e' ▸ h1) hr)
      simpa [e, this] using h.cdrs _ _ h1
  | _ => exact h

theorem modify_rel (h : Agree ρ κ s s') (key : Nat) (hv : VR ρ κ v v') {x x' : V} (hx : VR ρ κ x x') {r : Option St}
    (e : s.modify v (.sym key) x = some r) : ∃ r', s'.modify v' (.sym key) x' = some r' ∧ Option.Rel (Agree ρ κ) r r' := by
  unfold St.modify at e ⊢
  cases hf : s.findPair (.sym key) (s.next + 1) v with
  | none => simp [hf] at e
  | some r1 =>
    obtain ⟨r1', e1, hr⟩ := findPair_rel h key (f' := s'.next + 1) (by have := h.nle; omega) hv hf
    rw [hf] at e
    rw [e1]
    cases hr with
    | none =>
      simp only [Option.some.injEq] at e
      subst e
      exact ⟨_, rfl, .none⟩
    | some hp =>
      simp only [Option.some.injEq] at e
      subst e
      exact ⟨_, rfl, .some (setCdr_rel h hp hx)⟩

theorem setGlob_rel (h : Agree ρ κ s s') (i : Nat) (hv : VR ρ κ v v') :
    Agree ρ κ { s with globals := fun j => if j = i then v else s.globals j } { s' with globals := fun j => if j = i then v' else s'.globals j } := by
  refine { h with glob := ?_ }
  intro j
  by_cases e : j = i
  · simpa [e] using hv
  · simpa [e] using h.glob j

theorem setvar_rel (h : Agree ρ κ s s') (n : Nat) {x x' : V} (hx : VR ρ κ x x') (hv : VR ρ κ v v') {s1 : St} {b : Bool}
    (e : s.setvar n x v = some (s1, b)) : ∃ s1', s'.setvar n x' v' = some (s1', b) ∧ Agree ρ κ s1 s1' := by
  unfold St.setvar at e ⊢
  cases hm : s.modify v (.sym n) x with
  | none => simp [hm] at e
  | some r =>
    obtain ⟨r', e1, hr⟩ := modify_rel h n hv hx hm
    rw [hm] at e
    rw [e1]
    cases hr with
    | some ha =>
      simp only [Option.some.injEq, Prod.mk.injEq] at e ⊢
      obtain ⟨rfl, rfl⟩ := e
      exact ⟨_, ⟨rfl, rfl⟩, ha⟩
    | none =>
      simp only at e ⊢
      cases hm2 : s.modify (s.globals (n % 32)) (.sym n) x with
      | none => simp [hm2] at e
      | some r2 =>
        obtain ⟨r2', e2, hr2⟩ := modify_rel h n (h.glob _) hx hm2
        rw [hm2] at e
        rw [e2]
        cases hr2 with
        | some ha =>
          simp only [Option.some.injEq, Prod.mk.injEq] at e ⊢
          obtain ⟨rfl, rfl⟩ := e
          exact ⟨_, ⟨rfl, rfl⟩, ha⟩
        | none =>
          simp only [Option.some.injEq, Prod.mk.injEq] at e ⊢
          obtain ⟨rfl, rfl⟩ := e
          exact ⟨_, ⟨rfl, rfl⟩, setGlob_rel h _ (.sym _)⟩

theorem fillLoc_rel (h : Agree ρ κ s s') {f f' : Nat} (hf : f ≤ f') {key key' x x' : V} (hk : VR ρ κ key key') (hx : VR ρ κ x x') (hv : VR ρ κ v v')
    {s1 : St} {b : Bool} (e : s.fillLoc f key x v = some (s1, b)) : ∃ s1', s'.fillLoc f' key' x' v' = some (s1', b) ∧ Agree ρ κ s1 s1' := by
  induction f generalizing f' s s' key key' x x' s1 b with
  | zero => simp [St.fillLoc] at e
  | succ f ih =>
    obtain ⟨f', rfl⟩ : ∃ k, f' = k + 1 := ⟨f' - 1, by omega⟩
    cases hk with
    | sym n =>
      simp only [St.fillLoc] at e ⊢
      split at e
      · rename_i hn
        rw [if_pos hn]
        simp only [Option.some.injEq, Prod.mk.injEq] at e ⊢
        obtain ⟨rfl, rfl⟩ := e
        exact ⟨_, ⟨rfl, rfl⟩, h⟩
      · rename_i hn
        rw [if_neg hn]
        cases hm : s.modify v (.sym n) x with
        | none => simp [hm] at e
        | some r =>
          obtain ⟨r', e1, hr⟩ := modify_rel h n hv hx hm
          rw [hm] at e
          rw [e1]
          cases hr with
          | some ha =>
            simp only [Option.some.injEq, Prod.mk.injEq] at e ⊢
            obtain ⟨rfl, rfl⟩ := e
            exact ⟨_, ⟨rfl, rfl⟩, ha⟩
          | none =>
            simp only [Option.some.injEq, Prod.mk.injEq] at e ⊢
            obtain ⟨rfl, rfl⟩ := e
            exact ⟨_, ⟨rfl, rfl⟩, h⟩
    | @cons a a' ha =>
      cases hx with
      | @cons b1 b1' hb =>
        simp only [St.fillLoc] at e ⊢
        cases hm : s.fillLoc f (s.car a) (s.car b1) v with
        | none => simp [hm] at e
        | some r =>
          obtain ⟨s2, c⟩ := r
          obtain ⟨s2', e2, h2⟩ := ih h (f' := f') (by omega) (h.cars _ _ ha) (h.cars _ _ hb) hm
          rw [hm] at e
          rw [e2]
          cases c with
          | false =>
            simp only [Option.some.injEq, Prod.mk.injEq] at e ⊢
            obtain ⟨rfl, rfl⟩ := e
            exact ⟨_, ⟨rfl, rfl⟩, h2⟩
          | true => exact ih h2 (f' := f') (by omega) (h2.cdrs _ _ ha) (h2.cdrs _ _ hb) e
      | _ =>
        simp only [St.fillLoc, Option.some.injEq, Prod.mk.injEq] at e ⊢
        obtain ⟨rfl, rfl⟩ := e
        exact ⟨_, ⟨rfl, rfl⟩, h⟩
    | _ =>
      simp only [St.fillLoc, Option.some.injEq, Prod.mk.injEq] at e ⊢
      obtain ⟨rfl, rfl⟩ := e
      exact ⟨_, ⟨rfl, rfl⟩, h⟩

theorem binderVar_rel (h : Agree ρ κ s s') (hv : VR ρ κ v v') : VR ρ κ (s.binderVar v) (s'.binderVar v') := by
  cases hv with
  | @cons a b hr =>
    have h1 := (h.cars _ _ hr).eqSym 0x41
    have hc := h.cdrs _ _ hr
    simp only [St.binderVar]
    by_cases e : s.car a = .matchAny
    · rw [if_pos e, if_pos (h1.1 e)]
      generalize s.cdr a = x, s'.cdr b = y at hc ⊢
      cases hc with
      | cons hh => exact h.cars _ _ hh
      | _ => exact .sym _
    · rw [if_neg e, if_neg (fun e' => e (h1.2 e'))]
      exact .sym _
  | _ => exact .sym _

end

end Verif.Gc
