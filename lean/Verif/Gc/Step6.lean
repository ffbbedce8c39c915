import Verif.Gc.Step5

/-!
# Every step keeps the relation: the start of an application, and the step
-/

namespace Verif.Gc

open Verif.Eval

section
variable {ρ κ ρ1 κ1 : Nat → Nat → Prop} {m m' : M} {sz : Option Nat} {s s' : St} {R : List V}

variable {g : Gc} (hg : Sound g) {P : Prims} {PG : PrimsG} (hP : PSim P PG)
include hg hP

theorem contStart_rel (hm : MR ρ κ m m') : OutRel (Eval.contStart sz P m) (contStart sz g PG m') := by
  unfold Eval.contStart contStart
  obtain ⟨K0, r0, x0, n0, a0, f0, p0, s0⟩ := m
  obtain ⟨K1, r1, x1, n1, a1, f1, p1, s1⟩ := m'
  have hr : VR ρ κ r0 r1 := hm.r
  have hst : Agree ρ κ s0 s1 := hm.st
  cases hr with
  | sym n => exact reserve_rel hm (.cons (.v (.u 0)) .nil) fun hm1 => contArgs_rel hg hP hm1
  | @cons fa fb hf =>
    simp only
    have hK : KR ρ κ K0 K1 := hm.K
    split
    · rename_i args aenv K
      obtain ⟨args', _, rfl, h1, hK1⟩ := hK.invV
      obtain ⟨aenv', K', rfl, h2, hK2⟩ := hK1.invV
      have hhead := hst.cars _ _ hf
      have hcl := hst.cdrs _ _ hf
      simp only [V.closure, V.cont, V.macroSym, hhead.eqSym 0x10F, hhead.eqSym 0x10E, hhead.eqSym 0x10D]
      have lf : Live s1 (roots ⟨.v args' :: .v aenv' :: K', .cons fb, x1, n1, a1, f1, p1, s1⟩) (.cons fb) := .root (by simp [roots])
      have la : Live s1 (roots ⟨.v args' :: .v aenv' :: K', .cons fb, x1, n1, a1, f1, p1, s1⟩) args' := .root (by simp [roots, vals])
      have lae : Live s1 (roots ⟨.v args' :: .v aenv' :: K', .cons fb, x1, n1, a1, f1, p1, s1⟩) aenv' := .root (by simp [roots, vals])
      split
      · have hpar := hd_rel hst hcl
        have hbody := hd_rel hst (tl_rel hst hcl)
        have hcenv := hd_rel hst (tl_rel hst (tl_rel hst hcl))
        have ha := gcar_rel hst h1
        have hd := gcdr_rel hst h1
        generalize s0.gcar args = x, s1.gcar args' = y at ha ⊢
        generalize s0.gcdr args = z, s1.gcdr args' = w at hd ⊢
        generalize s0.hd (s0.cdr fa) = q1, s1.hd (s1.cdr fb) = q1' at hpar ⊢
        generalize s0.hd (s0.tl (s0.cdr fa)) = q2, s1.hd (s1.tl (s1.cdr fb)) = q2' at hbody ⊢
        generalize s0.hd (s0.tl (s0.tl (s0.cdr fa))) = q3, s1.hd (s1.tl (s1.tl (s1.cdr fb))) = q3' at hcenv ⊢
        cases ha with
        | none => exact raise_rel hm (.sym _)
        | @some ca ca' ha =>
          cases hd with
          | none => exact raise_rel hm (.sym _)
          | @some cd cd' hd =>
            refine reserve_rel (hm.setK (.cons (.v hbody) (.cons (.v h2) hK2))) (.cons .junk (.cons .junk (.cons .junk (.cons .junk .nil)))) fun hm1 => ?_
            simp only [V.nil, ne_eq, h1.eqSym 0, hpar.eqSym 0]
            split
            · exact go_rel (hm1.setK (.cons (.k _) (.cons (.v hd) (.cons (.v hpar) (.cons (.v hcenv) (.cons (.v hbody) (.cons (.v h2) hK2))))))) ha h2
            · split
              · exact go_rel (hm1.setK hK2) hbody hcenv
              · split
                · have hm2 := ((hm1.setK (.cons .junk (.cons .junk (.cons (.v hd) (.cons .junk (.cons (.v hbody) (.cons (.v h2) hK2))))))).setExp ha).setEnv h2
                  obtain ⟨ρ2, κ2, hs2, hv2, x2⟩ := allocBinding_rel hg hm2.st hm2.rooted (VR.sym 0x30015) (VR.sym 0) hcenv
                  have hm3 := hm2.lift x2.vr hs2
                  have hK3 := hm3.K
                  simp only at hK3
                  cases hK3 with
                  | cons k0 hK3 =>
                    cases hK3 with
                    | cons k1 hK3 =>
                      cases hK3 with
                      | cons k2 hK3 =>
                        cases hK3 with
                        | cons k3 hK3 =>
                          exact go_rel (hm3.setK (.cons (.k _) (.cons (.v (hd_rel hs2 hv2)) (.cons k2 (.cons (.v hv2) hK3))))) hm3.exp hm3.env
                · exact raise_rel hm1 (.sym _)
      · split
        · generalize s0.cdr fa = q, s1.cdr fb = q' at hcl ⊢
          cases hcl with
          | @arr c c' hc =>
            simp only
            cases hl : s0.len (s0.next + 1) args with
            | none => trivial
            | some n =>
              rw [len_rel hst (f' := s1.next + 1) (by have := hst.nle; omega) h1 hl]
              simp only
              split
              · exact raise_rel hm (.sym _)
              · have hk := hst.kont _ _ hc
                generalize s0.konts c = L, s1.konts c' = L' at hk ⊢
                cases hk with
                | nil => trivial
                | @cons w w' L L' hw hk =>
                  simp only [← hk.length]
                  split
                  · have hat : decide (w ≠ W.v .nil) = decide (w' ≠ W.v .nil) := by
                      cases hw with
                      | v h => simp only [ne_eq, W.v.injEq, V.nil, h.eqSym 0]
                      | _ => simp
                    rw [hat]
                    exact go_rel ((hm.setK hk).setSt (setAtomic_rel hst _)) (hd_rel hst h1) hm.env
                  · trivial
          | _ => exact raise_rel hm (.sym _)
        · split
          · have hfv : VR ρ κ (.cons fa) (.cons fb) := .cons hf
            have ha := gcadr_rel hst hfv
            have hd := gcdr_rel hst hfv
            have lpa : ∀ x, s1.gcadr (.cons fb) = some x → Live s1 (roots ⟨.v args' :: .v aenv' :: K', .cons fb, x1, n1, a1, f1, p1, s1⟩) x := fun x => lf.gcadr
            have lpd : ∀ x, s1.gcdr (.cons fb) = some x → Live s1 (roots ⟨.v args' :: .v aenv' :: K', .cons fb, x1, n1, a1, f1, p1, s1⟩) x := fun x => lf.gcdr
            generalize s0.gcadr (.cons fa) = x, s1.gcadr (.cons fb) = y at ha lpa ⊢
            generalize s0.gcdr (.cons fa) = z, s1.gcdr (.cons fb) = w at hd lpd ⊢
            cases ha with
            | none => exact raise_rel hm (.sym _)
            | @some par par' ha =>
              cases hd with
              | none => exact raise_rel hm (.sym _)
              | @some d d' hd =>
                simp only
                cases hme : s0.macroEnv (s0.next + 1) par args aenv with
                | none => trivial
                | some q =>
                  obtain ⟨s2, env2⟩ := q
                  obtain ⟨s2', env2', e2, ρ2, κ2, hs2, hv2, x2⟩ := macroEnv_rel hg hst hm.rooted (f' := s1.next + 1) (by have := hst.nle; omega) ha (lpa _ rfl) h1 la h2 hme
                  simp only [e2]
                  have hm2 := hm.lift x2.vr hs2
                  have hK3 := hm2.K
                  simp only at hK3
                  cases hK3 with
                  | cons k0 hK3 =>
                    have hm3 := hm2.setK (.cons (.k 11) hK3)
                    have h4 := gcadr_rel hs2 (x2.vr _ _ hd (lpd _ rfl))
                    generalize s2.gcadr d = x, s2'.gcadr d' = y at h4 ⊢
                    cases h4 with
                    | none => exact raise_rel hm3 (.sym _)
                    | some h4 => exact go_rel hm3 h4 hv2
          · exact raise_rel hm (.sym _)
    · trivial
  | _ => exact raise_rel hm (.sym _)

theorem runCont_rel (hm : MR ρ κ m m') (c : Nat) : OutRel (Eval.runCont sz P c m) (runCont sz g PG c m') := by
  unfold runCont
  split
  · exact contDefine_rel hg hm
  · exact contArgs_rel hg hP hm
  · exact contMatch_rel hg hP hm
  · exact contStart_rel hg hP hm
  · exact contCloArgs_rel hg hm
  · exact contMap_rel hg hm
  · exact contCloRest_rel hg hm
  · unfold Eval.runCont
    split <;> try exact absurd rfl ‹_›
    · exact contDone_rel hm
    · exact contBind_rel hm
    · exact contIf_rel hm
    · exact contProgn_rel hm
    · exact contAnd_rel hm
    · exact contOr_rel hm
    · exact contEvalR_rel hm
    · exact ret_rel (hm.setSt (setAtomic_rel hm.st _)) hm.r
    · exact contGuard_rel hm
    · exact raise_rel hm hm.r
    · exact contVar_rel hm
    · exact contSetq_rel hm
    · exact contLoop_rel hm
    · exact contLoopCond_rel hm
    · exact contHandler_rel hm
    · trivial

theorem step_rel (hm : MR ρ κ m m') : OutRel (Eval.step sz P m) (step sz g PG m') := by
  unfold Eval.step step
  rw [← hm.app]
  split
  · have hK := hm.K
    split
    · rename_i c K e
      rw [e] at hK
      obtain ⟨K', e', hK1⟩ := hK.invK
      simp only [e']
      exact runCont_rel hg hP ((hm.setK hK1).setApp _) c
    · trivial
  · have hx := hm.exp
    generalize m.exp = x, m'.exp = x' at hx ⊢
    cases hx with
    | sym n => exact evalSymbol_rel hm n
    | @cons a b hab =>
      simp only [(hm.st.cars _ _ hab).special]
      generalize special (m'.st.car b) = q
      cases q with
      | some i => exact evalSpecial_rel hg hm _
      | none => exact reserve_rel hm (.cons (.k _) (.cons (.v (hm.st.cdrs _ _ hab)) (.cons (.v hm.env) .nil))) fun hm1 => go_rel hm1 (hm.st.cars _ _ hab) hm.env
    | u n => exact ret_rel hm (.u n)
    | atom n => exact ret_rel hm (.atom n)
    | arr h => exact ret_rel hm (.arr h)

end

/-- Any number of steps, with a collection before each of them. -/
theorem steps_rel {sz : Option Nat} {P : Prims} {PG : PrimsG} (hP : PSim P PG) (n : Nat) {g : Nat → Gc} (hg : ∀ k, Sound (g k)) {o o' : Out} (h : OutRel o o') :
    OutRel (Eval.steps sz P n o) (steps sz g PG n o') := by
  induction n generalizing g o o' with
  | zero => exact h
  | succ n ih =>
    cases o with
    | ub =>
      rw [show Eval.steps sz P (n + 1) .ub = .ub from rfl]
      trivial
    | next m =>
      cases o' with
      | next m' =>
        obtain ⟨ρ, κ, hm⟩ := h
        refine ih (fun k => hg (k + 1)) ?_
        obtain ⟨ρ1, κ1, h1, x1⟩ := collect_ext (hg 0) hm.st (roots m')
        exact step_rel (hg 0) hP (hm.lift x1.vr h1)
      | _ => exact h.elim
    | fin s v ok =>
      cases o' with
      | fin s' v' ok' => exact h
      | _ => exact h.elim
    | out =>
      cases o' with
      | out => exact h
      | _ => exact h.elim

end Verif.Gc
