import Verif.Gc.Step4

/-!
# Every step keeps the relation: the remaining continuations, and the step
-/

namespace Verif.Gc

open Verif.Eval

section
variable {ρ κ ρ1 κ1 : Nat → Nat → Prop} {m m' : M} {sz : Option Nat} {s s' : St} {R : List V}

variable {g : Gc} (hg : Sound g)
include hg

theorem contDefine_rel (hm : MR ρ κ m m') : OutRel (Eval.contDefine m) (contDefine g m') := by
  unfold Eval.contDefine contDefine
  have hK := hm.K
  split
  · rename_i n K e
    rw [e] at hK
    obtain ⟨_, K', e', hu, hK1⟩ := hK.invV
    cases hu
    simp only [e']
    cases hd : m.st.define n m.r with
    | none => trivial
    | some s1 =>
      have hm1 := hm.setK hK1
      obtain ⟨s1', e1, ρ1, κ1, h1, vr⟩ := define_rel hg hm1.st hm1.rooted n hm1.r live_r hd
      simp only at e1
      simp only [e1]
      have hm2 := hm1.lift vr h1
      exact ret_rel hm2 hm2.r
  · trivial

theorem contMap_rel (hm : MR ρ κ m m') : OutRel (Eval.contMap sz m) (contMap sz g m') := by
  unfold Eval.contMap contMap
  have hK := hm.K
  split
  · rename_i arg appli t res env ls K e
    rw [e] at hK
    obtain ⟨arg', _, e', h1, hK1⟩ := hK.invV
    obtain ⟨appli', _, rfl, h2, hK2⟩ := hK1.invV
    obtain ⟨t', _, rfl, h3, hK3⟩ := hK2.invV
    obtain ⟨res', _, rfl, h4, hK4⟩ := hK3.invV
    obtain ⟨env', _, rfl, h5, hK5⟩ := hK4.invV
    obtain ⟨ls', K', rfl, h6, hK6⟩ := hK5.invV
    simp only [e']
    have hs := setCar_rel hm.st h3 hm.r
    generalize hS : m.st.setCar t m.r = S at hs ⊢
    generalize hS' : m'.st.setCar t' m'.r = S' at hs ⊢
    cases h6 with
    | @cons a b h6 =>
      have hx := hs.cars _ _ h6
      have hrest := hs.cdrs _ _ h6
      have hKf : KR ρ κ (.v arg :: .v appli :: .v t :: .v res :: .v env :: .v (S.cdr a) :: K) (.v arg' :: .v appli' :: .v t' :: .v res' :: .v env' :: .v (S'.cdr b) :: K') :=
        .cons (.v h1) (.cons (.v h2) (.cons (.v h3) (.cons (.v h4) (.cons (.v h5) (.cons (.v hrest) hK6)))))
      refine reserve_rel ((hm.setSt hs).setK hKf) (.cons (.k _) .nil) fun hm1 => ?_
      have hm1 := hm1.setSt (setCar_rel hs h1 hx)
      have hr := ((hm1.rooted.cons (VR.sym 0)).cons (VR.sym 0)).cons (VR.sym 0)
      obtain ⟨ρ2, κ2, h7, v2, x2⟩ := cons_rel hg hm1.st hr (VR.sym 0) (VR.sym 0) trivial trivial
      have hm2 := hm1.lift (fun v v' hv hl => x2.vr v v' hv hl.cons.cons.cons) h7
      have hK2 : KR ρ2 κ2 (.k 23 :: .v arg :: .v appli :: .v t :: .v res :: .v env :: .v (S.cdr a) :: K)
        (.k 23 :: .v arg' :: .v appli' :: .v t' :: .v res' :: .v env' :: .v (S'.cdr b) :: K') := hm2.K
      cases hK2 with
      | cons k0 hK2 =>
        cases hK2 with
        | cons k1 hK2 =>
          cases hK2 with
          | cons k2 hK2 =>
            cases hK2 with
            | cons k3 hK2 =>
              cases hK2 with
              | cons k4 hK2 =>
                cases hK2 with
                | cons k5 hK2 =>
                  cases k3 with
                  | v k3 =>
                    cases k2 with
                    | v k2 =>
                      cases k5 with
                      | v k5 =>
                        exact go_rel ((hm2.setSt (setCdr_rel h7 k3 v2)).setK (.cons k0 (.cons k1 (.cons (.v k2) (.cons (.v v2) (.cons k4 (.cons (.v k5) hK2))))))) k2 k5
    | _ => exact ret_rel (((hm.setSt hs).setK hK6).setEnv h5) h4
  · trivial

theorem contCloRest_rel (hm : MR ρ κ m m') : OutRel (Eval.contCloRest sz m) (contCloRest sz g m') := by
  unfold Eval.contCloRest contCloRest
  have hK := hm.K
  split
  · rename_i last args cenv body aenv K e
    rw [e] at hK
    obtain ⟨last', _, e', h1, hK1⟩ := hK.invV
    obtain ⟨args', _, rfl, h2, hK2⟩ := hK1.invV
    obtain ⟨cenv', _, rfl, h3, hK3⟩ := hK2.invV
    obtain ⟨body', _, rfl, h4, hK4⟩ := hK3.invV
    obtain ⟨aenv', K', rfl, h5, hK5⟩ := hK4.invV
    simp only [e', V.nil, h2.eqSym 0]
    obtain ⟨s2, c, s2', c', e2, e2', ρ2, κ2, h7, v2, x2⟩ := cons_step hg hm.st hm.rooted hm.r (VR.sym 0) live_r trivial
    have lk : ∀ x, W.v x ∈ m'.K → Live m'.st (roots m') x := fun x hx => .root (mem_roots hx)
    rw [e'] at lk
    simp only [e2, e2']
    have h1 := x2.vr _ _ h1 (lk _ (by simp))
    have h2 := x2.vr _ _ h2 (lk _ (by simp))
    have h3 := x2.vr _ _ h3 (lk _ (by simp))
    have h4 := x2.vr _ _ h4 (lk _ (by simp))
    have h5 := x2.vr _ _ h5 (lk _ (by simp))
    have hK6 : KR ρ2 κ2 K K' := KR.lift hK5 x2.vr fun x hx => lk x (by simp [hx])
    have hs := setCdr_rel h7 h1 v2
    have hm2 := hm.lift x2.vr h7
    have hm3 := hm2.setSt hs
    split
    · exact go_rel (hm3.setK hK6) h4 h3
    · refine reserve_rel (hm3.setK (.cons (.v v2) (.cons (.v h2) (.cons (.v h3) (.cons (.v h4) (.cons (.v h5) hK6)))))) (.cons (.k _) .nil) fun hm4 => ?_
      have h8 := gcdr_rel hs h2
      have h9 := gcar_rel hs h2
      simp only
      generalize (s2.setCdr last c).gcdr args = x, (s2'.setCdr last' c').gcdr args' = y at h8 ⊢
      generalize (s2.setCdr last c).gcar args = z, (s2'.setCdr last' c').gcar args' = w at h9 ⊢
      cases h8 with
      | none => exact raise_rel hm4 (.sym _)
      | some h8 =>
        cases h9 with
        | none => exact raise_rel hm4 (.sym _)
        | some h9 => exact go_rel (hm3.setK (.cons (.k _) (.cons (.v v2) (.cons (.v h8) (.cons (.v h3) (.cons (.v h4) (.cons (.v h5) hK6))))))) h9 h5
  · trivial

theorem contCloArgs_rel (hm : MR ρ κ m m') : OutRel (Eval.contCloArgs sz m) (contCloArgs sz g m') := by
  unfold Eval.contCloArgs contCloArgs
  obtain ⟨K0, r0, x0, n0, a0, f0, p0, s0⟩ := m'
  have hK : KR ρ κ m.K K0 := hm.K
  split
  · rename_i args params cenv body aenv K e
    rw [e] at hK
    obtain ⟨args', _, rfl, h1, hK1⟩ := hK.invV
    obtain ⟨params', _, rfl, h2, hK2⟩ := hK1.invV
    obtain ⟨cenv', _, rfl, h3, hK3⟩ := hK2.invV
    obtain ⟨body', _, rfl, h4, hK4⟩ := hK3.invV
    obtain ⟨aenv', K', rfl, h5, hK5⟩ := hK4.invV
    simp only
    generalize hm0 : (⟨.v args' :: .v params' :: .v cenv' :: .v body' :: .v aenv' :: K', r0, x0, n0, a0, f0, p0, s0⟩ : M) = m0 at hm
    have e' : m0.K = .v args' :: .v params' :: .v cenv' :: .v body' :: .v aenv' :: K' := by rw [← hm0]
    have es : m0.st = s0 := by rw [← hm0]
    have er : m0.r = r0 := by rw [← hm0]
    have hst : Agree ρ κ m.st s0 := es ▸ hm.st
    have lk : ∀ (s : St) x, W.v x ∈ .v args' :: .v params' :: .v cenv' :: .v body' :: .v aenv' :: K' → Live s (roots m0) x :=
      fun s x hx => .root (mem_roots (by rw [e']; exact hx))
    have hp := gcar_rel hst h2
    have hps := gcdr_rel hst h2
    have lps : ∀ x, s0.gcdr params' = some x → Live s0 (roots m0) x := fun x => (lk s0 _ (by simp)).gcdr
    generalize m.st.gcar params = q, s0.gcar params' = q' at hp ⊢
    generalize m.st.gcdr params = z, s0.gcdr params' = z' at hps lps ⊢
    cases hp with
    | none => subst hm0; exact raise_rel hm (.sym _)
    | @some p p' hp =>
      cases hps with
      | none => subst hm0; exact raise_rel hm (.sym _)
      | @some ps ps' hps =>
        have lps := lps _ rfl
        obtain ⟨ρ1, κ1, hs, hv, x1⟩ := allocBinding_rel hg hst hm.rooted hp (er ▸ hm.r) h3
        have hm1 := hm.lift (fun v v' hv hl => x1.vr v v' hv (es ▸ hl)) hs
        have h1 := x1.vr _ _ h1 (lk _ _ (by simp))
        have h4 := x1.vr _ _ h4 (lk _ _ (by simp))
        have h5 := x1.vr _ _ h5 (lk _ _ (by simp))
        have hps := x1.vr _ _ hps lps
        have hK6 : KR ρ1 κ1 K K' := KR.lift hK5 x1.vr fun x hx => lk _ x (by simp [hx])
        simp only [V.nil, ne_eq, h1.eqSym 0, hps.eqSym 0]
        generalize Eval.allocBinding m.st p m.r cenv = q, allocBinding g (roots m0) s0 p' r0 cenv' = q' at hs hv x1 hm1 ⊢
        obtain ⟨s1, env⟩ := q
        obtain ⟨s1', env'⟩ := q'
        simp only at hs hv x1 hm1 ⊢
        split
        · have ha := gcar_rel hs h1
          have hd := gcdr_rel hs h1
          subst hm0
          generalize s1.gcar args = x, s1'.gcar args' = y at ha ⊢
          generalize s1.gcdr args = z, s1'.gcdr args' = w at hd ⊢
          cases ha with
          | none => exact raise_rel hm1 (.sym _)
          | some ha =>
            cases hd with
            | none => exact raise_rel hm1 (.sym _)
            | some hd =>
              exact reserve_rel (hm1.setK (.cons (.v hd) (.cons (.v hps) (.cons (.v hv) (.cons (.v h4) (.cons (.v h5) hK6)))))) (.cons (.k _) .nil)
                fun hm2 => go_rel hm2 ha h5
        · split
          · subst hm0
            exact go_rel (hm1.setK hK6) h4 hv
          · split
            · have hr2 : Rooted ρ1 κ1 (roots m0) := hm1.rooted
              obtain ⟨ρ2, κ2, hs2, hv2, x2⟩ := allocBinding_rel hg hs hr2 (VR.sym 0x30015) (VR.sym 0) hv
              have hm2 := hm1.lift x2.vr hs2
              have h1 := x2.vr _ _ h1 (lk _ _ (by simp))
              have h4 := x2.vr _ _ h4 (lk _ _ (by simp))
              have h5 := x2.vr _ _ h5 (lk _ _ (by simp))
              have hK6 : KR ρ2 κ2 K K' := KR.lift hK6 x2.vr fun x hx => lk _ x (by simp [hx])
              have ero : roots (⟨.v args' :: .v params' :: .v cenv' :: .v body' :: .v aenv' :: K', r0, x0, n0, a0, f0, p0, s1'⟩ : M) = roots m0 := by
                rw [← hm0]; rfl
              simp only [ero, V.restArgs]
              generalize Eval.allocBinding s1 (.sym 0x30015) (.sym 0) env = q, allocBinding g (roots m0) s1' (.sym 0x30015) (.sym 0) env' = q' at hs2 hv2 x2 hm2 ⊢
              obtain ⟨s2, rb⟩ := q
              obtain ⟨s2', rb'⟩ := q'
              subst hm0
              simp only at hs2 hv2 x2 hm2 ⊢
              have ha := gcar_rel hs2 h1
              have hd := gcdr_rel hs2 h1
              generalize s2.gcdr args = z, s2'.gcdr args' = w at hd ⊢
              generalize s2.gcar args = x, s2'.gcar args' = y at ha ⊢
              cases hd with
              | none => exact raise_rel hm2 (.sym _)
              | some hd =>
                cases ha with
                | none => exact raise_rel hm2 (.sym _)
                | some ha =>
                  exact reserve_rel (hm2.setK (.cons (.v (hd_rel hs2 hv2)) (.cons (.v hd) (.cons (.v hv2) (.cons (.v h4) (.cons (.v h5) hK6)))))) (.cons (.k _) .nil)
                    fun hm3 => go_rel hm3 ha h5
            · subst hm0
              exact raise_rel hm1 (.sym _)
  · trivial

variable {P : Prims} {PG : PrimsG} (hP : PSim P PG)
include hP

theorem contMatch_rel (hm : MR ρ κ m m') : OutRel (Eval.contMatch sz P m) (contMatch sz g PG m') := by
  unfold Eval.contMatch contMatch
  have hK := hm.K
  split
  · rename_i oenv pats K e
    rw [e] at hK
    obtain ⟨oenv', _, e', h1, hK1⟩ := hK.invV
    obtain ⟨pats', K', rfl, h2, hK2⟩ := hK1.invV
    have lk : ∀ x, W.v x ∈ m'.K → Live m'.st (roots m') x := fun x hx => .root (mem_roots hx)
    rw [e'] at lk
    simp only [e']
    cases h2 with
    | sym n =>
      cases n with
      | zero => exact ret_rel (hm.setK hK2) (.sym _)
      | succ n => exact raise_rel hm (.sym _)
    | @cons a b hab =>
      simp only
      have la : Live m'.st (roots m') (.cons b) := lk _ (by simp)
      have hmc := hm.st.cars _ _ hab
      have lmc := la.car
      have q1 := gcar_rel hm.st hmc
      have l1 : ∀ x, m'.st.gcar (m'.st.car b) = some x → Live m'.st (roots m') x := fun x => lmc.gcar
      have q2 := gcadr_rel hm.st hmc
      have l2 : ∀ x, m'.st.gcadr (m'.st.car b) = some x → Live m'.st (roots m') x := fun x => lmc.gcadr
      have q3 : Option.Rel (VR ρ κ) ((m.st.gcdr (m.st.car a)).bind m.st.gcadr) ((m'.st.gcdr (m'.st.car b)).bind m'.st.gcadr) := by
        have := gcdr_rel hm.st hmc
        generalize m.st.gcdr (m.st.car a) = x, m'.st.gcdr (m'.st.car b) = y at this ⊢
        cases this with
        | none => exact .none
        | some h => exact gcadr_rel hm.st h
      have l3 : ∀ x, (m'.st.gcdr (m'.st.car b)).bind m'.st.gcadr = some x → Live m'.st (roots m') x := by
        intro x hx
        rw [Option.bind_eq_some_iff] at hx
        obtain ⟨y, hy, hx⟩ := hx
        exact (lmc.gcdr hy).gcadr hx
      generalize m.st.gcar (m.st.car a) = x1, m'.st.gcar (m'.st.car b) = y1 at q1 l1 ⊢
      generalize m.st.gcadr (m.st.car a) = x2, m'.st.gcadr (m'.st.car b) = y2 at q2 l2 ⊢
      generalize (m.st.gcdr (m.st.car a)).bind m.st.gcadr = x3, (m'.st.gcdr (m'.st.car b)).bind m'.st.gcadr = y3 at q3 l3 ⊢
      cases q1 with
      | none => exact raise_rel hm (.sym _)
      | @some p p' q1 =>
        cases q2 with
        | none => exact raise_rel hm (.sym _)
        | @some n1 n1' q2 =>
          cases q3 with
          | none => exact raise_rel hm (.sym _)
          | @some n2 n2' q3 =>
            simp only
            cases hmp : m.st.matchP P.eq (m.st.next + 1) p m.r oenv with
            | none => trivial
            | some q =>
              obtain ⟨bo, s1, env1⟩ := q
              obtain ⟨s1', env1', e1, ρ1, κ1, hs, hv, x1⟩ := matchP_rel hg hP hm.st hm.rooted (f' := m'.st.next + 1) (by have h := hm.st.nle; omega)
                q1 (l1 _ rfl) hm.r live_r h1 hmp
              simp only [e1]
              have hm1 := hm.lift x1.vr hs
              have hK6 : KR ρ1 κ1 K K' := KR.lift hK2 x1.vr fun x hx => lk x (by simp [hx])
              have q2 := x1.vr _ _ q2 (l2 _ rfl)
              have q3 := x1.vr _ _ q3 (l3 _ rfl)
              have h1 := x1.vr _ _ h1 (lk _ (by simp))
              have hcd : VR ρ1 κ1 (s1.cdr a) (s1'.cdr b) := by
                have := x1.vr _ _ (.cons hab) la
                cases this with
                | cons h => exact hs.cdrs _ _ h
              cases bo with
              | false =>
                exact reserve_rel (hm1.setK (.cons (.v h1) (.cons (.v hcd) hK6))) (.cons (.k _) .nil) fun hm2 => ret_rel hm2 hm1.r
              | true =>
                simp only [V.nil, q3.eqSym 0]
                split
                · exact go_rel (hm1.setK hK6) q2 hv
                · exact reserve_rel (hm1.setK (.cons (.v hm1.env) (.cons (.v hcd) hK6)))
                    (.cons (.k _) (.cons (.v hm1.r) (.cons (.v q3) (.cons (.v hv) (.cons (.k _) .nil))))) fun hm2 => go_rel hm2 q2 hv
    | _ => exact raise_rel hm (.sym _)
  · trivial

end

end Verif.Gc
