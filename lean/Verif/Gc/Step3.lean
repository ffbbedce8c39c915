import Verif.Gc.Step2

/-!
# Every step keeps the relation: `var`, application and the continuations that allocate
-/

namespace Verif.Gc

open Verif.Eval

section
variable {ρ κ ρ1 κ1 : Nat → Nat → Prop} {m m' : M} {sz : Option Nat} {s s' : St} {R : List V}

theorem KR.invR {w' : W} {K' L : List W} (h : KR ρ κ L (w' :: K')) : ∃ w K, L = w :: K ∧ WR ρ κ w w' ∧ KR ρ κ K K' := by
  cases h with
  | cons h t => exact ⟨_, _, rfl, h, t⟩

variable {g : Gc} (hg : Sound g)
include hg

theorem evalVar_rel (hm : MR ρ κ m m') : OutRel (Eval.evalVar sz m) (evalVar sz g m') := by
  unfold Eval.evalVar evalVar
  obtain ⟨K0, r0, x0, n0, a0, f0, p0, s0⟩ := m'
  have hK : KR ρ κ m.K K0 := hm.K
  split
  · rename_i rest c penv K eK
    rw [eK] at hK
    obtain ⟨_, rfl, hK1⟩ := hK.invK
    obtain ⟨rest', _, rfl, hw, hK2⟩ := hK1.inv
    obtain ⟨_, _, rfl, hu, hK3⟩ := hK2.invV
    cases hu
    obtain ⟨penv', K', rfl, hp, hK4⟩ := hK3.invV
    simp only
    generalize hm0 : (⟨.k 4 :: rest' :: .v (.u c) :: .v penv' :: K', r0, x0, n0, a0, f0, p0, s0⟩ : M) = m0 at hm
    have eK' : m0.K = .k 4 :: rest' :: .v (.u c) :: .v penv' :: K' := by rw [← hm0]
    have es : m0.st = s0 := by rw [← hm0]
    have lp : Live s0 (roots m0) penv' := .root (mem_roots (by rw [eK']; simp))
    have hst : Agree ρ κ m.st s0 := es ▸ hm.st
    cases hcp : (if c = 0 then m.st.copySpine (m.st.next + 1) penv else some (m.st, penv)) with
    | none => trivial
    | some q =>
      obtain ⟨s1, penv1⟩ := q
      have : ∃ s1' penv1', (if c = 0 then copySpine g (roots m0) s0 (s0.next + 1) penv' else some (s0, penv')) = some (s1', penv1') ∧
          ∃ ρ1 κ1, Agree ρ1 κ1 s1 s1' ∧ VR ρ1 κ1 penv1 penv1' ∧ Ext (roots m0) ρ κ s0 ρ1 κ1 s1' := by
        by_cases hc : c = 0
        · rw [if_pos hc] at hcp ⊢
          exact copySpine_rel hg hst hm.rooted (by have h := hst.nle; omega) hp lp hcp
        · rw [if_neg hc] at hcp ⊢
          simp only [Option.some.injEq, Prod.mk.injEq] at hcp
          obtain ⟨rfl, rfl⟩ := hcp
          exact ⟨_, _, rfl, ρ, κ, hst, hp, .refl _ _ _ _⟩
      obtain ⟨s1', penv1', e1, ρ1, κ1, h1, hp1, x1⟩ := this
      simp only [e1]
      have hm1 := hm.lift (s := s1) (s' := s1') (fun v v' hv hl => x1.vr v v' hv (es ▸ hl)) h1
      have hKl : KR ρ1 κ1 m.K m0.K := hm1.K
      rw [eK, eK'] at hKl
      obtain ⟨_, e, hKl1⟩ := hKl.invK
      injection e with _ e; subst e
      obtain ⟨_, _, e, hw1, hKl2⟩ := hKl1.inv
      injection e with e e'; subst e e'
      obtain ⟨_, _, e, hu1, hKl3⟩ := hKl2.invV
      injection e with e e'; subst e'
      obtain ⟨_, _, e, _, hKl4⟩ := hKl3.invV
      injection e with e e'; subst e'
      subst hm0
      have hm1 := hm1.setK (.cons (.k 4) (.cons hw1 (.cons (.v (.u (if c = 0 then 1 else c))) (.cons (.v hp1) hKl4))))
      simp only at hm1 ⊢
      have h := gcdr_rel h1 hm1.exp
      have l : ∀ x, s1'.gcdr x0 = some x → Live s1' (roots (⟨.k 4 :: rest' :: .v (.u (if c = 0 then 1 else c)) :: .v penv1' :: K', r0, x0, n0, a0, f0, p0, s1'⟩ : M)) x :=
        fun x => Live.gcdr (.root (by simp [roots]))
      simp only at h
      generalize s1.gcdr m.exp = x, s1'.gcdr x0 = y at h l ⊢
      cases h with
      | none => exact raise_rel hm1 (.sym _)
      | @some args args' h =>
        have l := l _ rfl
        simp only
        have h2 := gcar_rel h1 h
        have l2 : ∀ x, s1'.gcar args' = some x → Live s1' (roots (⟨.k 4 :: rest' :: .v (.u (if c = 0 then 1 else c)) :: .v penv1' :: K', r0, x0, n0, a0, f0, p0, s1'⟩ : M)) x :=
          fun x => l.gcar
        generalize s1.gcar args = x, s1'.gcar args' = y at h2 l2 ⊢
        cases h2 with
        | none => exact raise_rel hm1 (.sym _)
        | @some key key' hk =>
          have lk := l2 _ rfl
          simp only
          cases hcl : s1.createLoc (s1.next + 1) key penv1 with
          | none => trivial
          | some q =>
            obtain ⟨s2, penv2⟩ := q
            obtain ⟨s2', penv2', e2, ρ2, κ2, h3, hp2, x2⟩ := createLoc_rel hg h1 (hm1.rooted.cons hp1) (f' := s1'.next + 1) (by have h := h1.nle; omega)
              hk lk.cons hp1 hcl
            simp only [e2]
            have hm2 := hm1.lift (s := s2) (s' := s2') (fun v v' hv hl => x2.vr v v' hv hl.cons) h3
            have hKm : KR ρ2 κ2 (.k 4 :: rest :: .v (.u (if c = 0 then 1 else c)) :: .v penv1 :: K) (.k 4 :: rest' :: .v (.u (if c = 0 then 1 else c)) :: .v penv1' :: K') := hm2.K
            obtain ⟨_, e, hKm1⟩ := hKm.invK
            injection e with _ e; subst e
            obtain ⟨_, _, e, hw2, hKm2⟩ := hKm1.inv
            injection e with e e'; subst e e'
            obtain ⟨_, _, e, _, hKm3⟩ := hKm2.invV
            injection e with e e'; subst e'
            obtain ⟨_, _, e, _, hKm4⟩ := hKm3.invV
            injection e with e e'; subst e'
            have hm2 := hm2.setK (.cons (.k 4) (.cons hw2 (.cons (.v (.u (if c = 0 then 1 else c))) (.cons (.v hp2) hKm4))))
            have h4 := gcadr_rel h3 (x2.vr _ _ h l.cons)
            generalize s2.gcadr args = x, s2'.gcadr args' = y at h4 ⊢
            cases h4 with
            | none => exact raise_rel hm2 (.sym _)
            | some h4 =>
              exact reserve_rel hm2 (.cons (.k _) (.cons (.v (x2.vr _ _ hk lk.cons)) (.cons (.v hp2) .nil))) fun hm3 => go_rel hm3 h4 hp2
  · rename_i hne
    have : ∀ rest c penv K, K0 = .k 4 :: rest :: .v (.u c) :: .v penv :: K → False := by
      intro rest c penv K e
      subst e
      obtain ⟨w, L, e1, hw, hK1⟩ := hK.invR
      cases hw
      obtain ⟨w, L, rfl, hw, hK2⟩ := hK1.invR
      obtain ⟨w, L, rfl, hu, hK3⟩ := hK2.invR
      cases hu with
      | v hu =>
        cases hu
        obtain ⟨w, L, rfl, hu, hK4⟩ := hK3.invR
        cases hu
        exact hne _ _ _ _ e1
    simp only
    exact raise_rel hm (.sym _)

theorem evalSpecial_rel (hm : MR ρ κ m m') (i : Nat) : OutRel (Eval.evalSpecial sz i m) (evalSpecial sz g i m') := by
  unfold evalSpecial
  split
  · exact evalLambda_rel hg hm
  · exact evalLet_rel hg hm
  · exact evalCallcc_rel hg hm
  · exact evalCond_rel hg hm
  · exact evalVar_rel hg hm
  · exact evalLoop_rel hg hm
  · exact evalTrap_rel hg hm
  · unfold Eval.evalSpecial
    split <;> try exact absurd rfl ‹_›
    · exact evalQuote_rel hm
    · exact evalDefine_rel hm
    · exact evalProgn_rel hm
    · exact evalIf_rel hm
    · exact evalJunct_rel hm _ _
    · exact evalJunct_rel hm _ _
    · exact evalMatch_rel hm
    · exact evalAtomic_rel hm
    · exact ret_rel hm hm.exp
    · exact ret_rel hm hm.exp
    · exact ret_rel hm hm.exp
    · exact evalAppCont_rel hm
    · exact evalSetq_rel hm
    · trivial

end

end Verif.Gc
