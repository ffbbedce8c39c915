import Verif.Gc.Step

/-!
# Every step keeps the relation: the special forms that allocate
-/

namespace Verif.Gc

open Verif.Eval

theorem mem_vals {x : V} {K : List W} : x ∈ vals K ↔ W.v x ∈ K := by
  induction K with
  | nil => simp [vals]
  | cons w K ih =>
    cases w with
    | v y => simp [vals, ih]
    | _ => simp [vals, ih]

theorem mem_roots {x : V} {m : M} (h : W.v x ∈ m.K) : x ∈ roots m := by simp [roots, mem_vals, h]

section
variable {ρ κ ρ1 κ1 : Nat → Nat → Prop} {m m' : M} {sz : Option Nat} {s s' : St} {R : List V}

theorem VR.eq (h : Agree ρ κ s s') {v x y : V} (h1 : VR ρ κ v x) (h2 : VR ρ κ v y) : x = y := by
  cases h1 with
  | cons e =>
    cases h2 with
    | cons e2 => rw [h.rfun _ _ _ e e2]
  | arr e =>
    cases h2 with
    | arr e2 => rw [h.kfun _ _ _ e e2]
  | _ => cases h2; rfl

theorem MR.rooted (hm : MR ρ κ m m') : Rooted ρ κ (roots m') := by
  intro x hx
  simp only [roots, List.mem_cons, mem_vals] at hx
  rcases hx with rfl | rfl | rfl | rfl | hx
  · exact ⟨_, hm.exp⟩
  · exact ⟨_, hm.program⟩
  · exact ⟨_, hm.r⟩
  · exact ⟨_, hm.env⟩
  · obtain ⟨w, _, hw⟩ := hm.K.mem hx
    cases hw with
    | v h => exact ⟨_, h⟩

theorem live_exp : Live s (roots m) m.exp := .root (by simp [roots])
theorem live_env : Live s (roots m) m.env := .root (by simp [roots])
theorem live_r : Live s (roots m) m.r := .root (by simp [roots])
theorem live_program : Live s (roots m) m.program := .root (by simp [roots])

theorem KR.lift {K K' : List W} (h : KR ρ κ K K') (vr : ∀ v v', VR ρ κ v v' → Live s R v' → VR ρ1 κ1 v v') (hl : ∀ x, W.v x ∈ K' → Live s R x) :
    KR ρ1 κ1 K K' := by
  refine h.imp fun a b hb hab => ?_
  cases hab with
  | v hv => exact .v (vr _ _ hv (hl _ hb))
  | k n => exact .k n
  | raw n => exact .raw n
  | junk => exact .junk

theorem MR.lift (hm : MR ρ κ m m') (vr : ∀ v v', VR ρ κ v v' → Live m'.st (roots m') v' → VR ρ1 κ1 v v') (h : Agree ρ1 κ1 s s') :
    MR ρ1 κ1 { m with st := s } { m' with st := s' } :=
  ⟨h, vr _ _ hm.r live_r, vr _ _ hm.exp live_exp, vr _ _ hm.env live_env, vr _ _ hm.program live_program,
    KR.lift hm.K vr fun _ hx => .root (mem_roots hx), hm.flags, hm.app⟩

theorem reserve_all (hm : MR ρ κ m m') {ws ws' : List W} (hw : KR ρ κ ws ws') {c c' : M → Out}
    (hc : ∀ m1 m1', MR ρ κ m1 m1' → OutRel (c m1) (c' m1')) : OutRel (reserve sz m ws c) (reserve sz m' ws' c') :=
  reserve_rel hm hw fun h => hc _ _ h

variable {g : Gc} (hg : Sound g)
include hg

theorem cons_step (h : Agree ρ κ s s') (hr : Rooted ρ κ R) {a a' d d' : V} (ha : VR ρ κ a a') (hd : VR ρ κ d d') (la : Live s' R a') (ld : Live s' R d') :
    ∃ s1 c s1' c', s.cons a d = (s1, c) ∧ g.cons R s' a' d' = (s1', c') ∧ ∃ ρ1 κ1, Agree ρ1 κ1 s1 s1' ∧ VR ρ1 κ1 c c' ∧ Ext R ρ κ s' ρ1 κ1 s1' :=
  ⟨_, _, _, _, rfl, rfl, cons_rel hg h hr ha hd la ld⟩

theorem newArr_step (h : Agree ρ κ s s') (hr : Rooted ρ κ R) {K K' : List W} (hK : KR ρ κ K K') (hl : ∀ x, W.v x ∈ K' → Live s' R x) :
    ∃ s1' c', g.newArr R s' K' = (s1', c') ∧ ∃ ρ1 κ1, Agree ρ1 κ1 { s with konts := fun i => if i = s.nk then K else s.konts i, nk := s.nk + 1 } s1' ∧
      VR ρ1 κ1 (.arr s.nk) c' ∧ Ext R ρ κ s' ρ1 κ1 s1' :=
  ⟨_, _, rfl, newArr_rel hg h hr hK hl⟩

theorem evalCallcc_rel (hm : MR ρ κ m m') : OutRel (Eval.evalCallcc sz m) (evalCallcc sz g m') := by
  unfold Eval.evalCallcc evalCallcc
  rw [← hm.st.atomic]
  refine reserve_all hm (.cons (.v ?_) .nil) fun m1 m1' hm1 => ?_
  · split <;> exact .sym _
  · have hr := hm1.rooted
    obtain ⟨s1', arr, e1, ρ1, κ1, h1, c1, x1⟩ := newArr_step hg hm1.st hr hm1.K fun x hx => .root (mem_roots hx)
    have hr2 : Rooted ρ1 κ1 ([.cont, arr, .nil] ++ roots m1') := (((hr.ext x1).cons (VR.sym 0)).cons c1).cons (VR.sym 0x10E)
    obtain ⟨s2, ac, s2', ac', e2, e2', ρ2, κ2, h2, c2, x2⟩ := cons_step hg h1 hr2 (VR.sym 0x10E) c1 trivial (.root (by simp))
    have x2 := x1.trans (x2.mono (R := roots m1') (by simp +contextual)) (by simp)
    have hr3 : Rooted ρ2 κ2 ([ac', .nil, .nil] ++ roots m1') := (((hr.ext x2).cons (VR.sym 0)).cons (VR.sym 0)).cons c2
    obtain ⟨s3, as, s3', as', e3, e3', ρ3, κ3, h3, c3, x3⟩ := cons_step hg h2 hr3 c2 (VR.sym 0) (.root (by simp)) trivial
    have x3 := x2.trans (x3.mono (R := roots m1') (by simp +contextual)) (by simp)
    have hm3 := hm1.lift x3.vr h3
    simp only [V.nil, V.cont, e1, e2, e2', e3, e3']
    refine reserve_all (hm3.setK (.cons (.v hm3.env) hm3.K.tail)) (.cons (.k _) (.cons (.v c3) .nil)) fun m2 m2' hm2 => ?_
    have h := gcadr_rel hm2.st hm2.exp
    generalize m2.st.gcadr m2.exp = x, m2'.st.gcadr m2'.exp = y at h ⊢
    cases h with
    | none => exact raise_rel hm2 (.sym _)
    | some h => exact go_rel hm2 h hm2.env

theorem evalLambda_rel (hm : MR ρ κ m m') : OutRel (Eval.evalLambda m) (evalLambda g m') := by
  unfold Eval.evalLambda evalLambda
  have h0 := tl_rel hm.st hm.exp
  have l0 : Live m'.st (roots m') (m'.st.tl m'.exp) := live_exp.tl
  obtain ⟨ρ1, κ1, h1, c1, x1⟩ := allocClosure_rel hg hm.st hm.rooted (hd_rel hm.st h0) (hd_rel hm.st (tl_rel hm.st h0)) hm.env l0.hd l0.tl.hd live_env
  exact ret_rel (hm.lift x1.vr h1) c1

theorem evalCond_rel (hm : MR ρ κ m m') : OutRel (Eval.evalCond sz m) (evalCond sz g m') := by
  unfold Eval.evalCond evalCond
  have h0 := tl_rel hm.st hm.exp
  have h1 := hd_rel hm.st h0
  have h2 := tl_rel hm.st h0
  have l0 : Live m'.st (roots m') (m'.st.tl m'.exp) := live_exp.tl
  simp only [V.nil, h1.eqSym 0]
  split
  · exact ret_rel hm (.sym _)
  · cases hl : m.st.len (m.st.next + 1) (m.st.hd (m.st.tl m.exp)) with
    | none => trivial
    | some n =>
      rw [len_rel hm.st (f' := m'.st.next + 1) (by have := hm.st.nle; omega) h1 hl]
      simp only
      split
      · exact raise_rel hm (.sym _)
      · have hr := hm.rooted
        have hr1 : Rooted ρ κ ([.cond, m'.st.tl (m'.st.tl m'.exp), .nil] ++ roots m') := ((hr.cons (VR.sym 0)).cons h2).cons (VR.sym 0x110)
        obtain ⟨s1, o, s1', o', e1, e1', ρ1, κ1, h3, c1, x1⟩ := cons_step hg hm.st hr1 (VR.sym 0x110) h2 trivial (.root (by simp))
        have x1 := x1.mono (R := roots m') (by simp +contextual)
        obtain ⟨s2, t, s2', t', e2, e2', ρ2, κ2, h4, c2, x2⟩ := cons_step hg h3 ((hr.ext x1).cons c1) c1 (VR.sym 0) (.root (by simp)) trivial
        have x2 := x1.trans (x2.mono (R := roots m') (by simp +contextual)) (by simp)
        have h5 := hd_rel hm.st (tl_rel hm.st h1)
        have l5 : Live m'.st (roots m') (m'.st.hd (m'.st.tl (m'.st.hd (m'.st.tl m'.exp)))) := l0.hd.tl.hd
        obtain ⟨s3, b, s3', b', e3, e3', ρ3, κ3, h6, c3, x3⟩ := cons_step hg h4 ((hr.ext x2).cons c2) (x2.vr _ _ h5 l5) c2 (x2.live l5).cons (.root (by simp))
        have x3 := x2.trans (x3.mono (R := roots m') (by simp +contextual)) (by simp)
        simp only [V.cond, e1, e1', e2, e2', e3, e3']
        have hm3 := hm.lift x3.vr h6
        exact reserve_rel hm3 (.cons (.k _) (.cons (.v hm3.env) (.cons (.v c3) .nil))) fun hm4 => go_rel hm4 (x3.vr _ _ (hd_rel hm.st h1) l0.hd.hd) hm3.env

theorem letBind_rel (hm : MR ρ κ m m') {bs bs' body body' : V} (hb : VR ρ κ bs bs') (lb : Live m'.st (roots m') bs') (hx : VR ρ κ body body')
    (lx : Live m'.st (roots m') body') : OutRel (Eval.letBind sz m bs body) (letBind sz g m' bs' body') := by
  unfold Eval.letBind letBind
  cases hb with
  | @cons a b hab =>
    simp only
    have hb : VR ρ κ (.cons a) (.cons b) := .cons hab
    cases hl : Eval.letLocs m.st (m.st.next + 1) (.cons a) m.env with
    | none => trivial
    | some r =>
      obtain ⟨r', e, h1, h2⟩ := letLocs_rel hg hm.st hm.rooted (f' := m'.st.next + 1) (by have := hm.st.nle; omega) hb lb hm.env hl
      simp only [e]
      cases r with
      | none =>
        rw [h1 rfl]
        exact raise_rel hm (.sym _)
      | some r =>
        obtain ⟨s1, env1⟩ := r
        obtain ⟨s1', env1', rfl, ρ1, κ1, h3, h4, x1⟩ := h2 _ _ rfl
        have hm1 := hm.lift x1.vr h3
        have hb1 := x1.vr _ _ hb lb
        have h5 := hd_rel h3 hb1
        exact reserve_rel hm1 (.cons (.k _) (.cons (.v (hd_rel h3 h5)) (.cons (.v h4) (.cons (.v (tl_rel h3 hb1)) (.cons (.v (x1.vr _ _ hx lx)) .nil)))))
          fun hm2 => go_rel hm2 (hd_rel h3 (tl_rel h3 h5)) h4
  | _ => exact go_rel hm hx hm.env

theorem evalLet_rel (hm : MR ρ κ m m') : OutRel (Eval.evalLet sz m) (evalLet sz g m') := by
  have h0 := tl_rel hm.st hm.exp
  have l0 : Live m'.st (roots m') (m'.st.tl m'.exp) := live_exp.tl
  exact letBind_rel hg hm (hd_rel hm.st h0) l0.hd (hd_rel hm.st (tl_rel hm.st h0)) l0.tl.hd

theorem evalLoop_rel (hm : MR ρ κ m m') : OutRel (Eval.evalLoop sz m) (evalLoop sz g m') := by
  unfold Eval.evalLoop evalLoop
  have h := gcdr_rel hm.st hm.exp
  have l : ∀ x, m'.st.gcdr m'.exp = some x → Live m'.st [m'.exp] x := fun x => Live.gcdr (.root (by simp))
  generalize m.st.gcdr m.exp = x, m'.st.gcdr m'.exp = y at h l ⊢
  cases h with
  | none => exact raise_rel hm (.sym _)
  | @some p p' h =>
    have l := l _ rfl
    have h1 := tl_rel hm.st h
    have h2 := tl_rel hm.st h1
    simp only
    refine reserve_rel hm (.cons (.k _) (.cons (.v (hd_rel hm.st h1)) (.cons (.v (hd_rel hm.st h2)) .nil))) fun hm1 => ?_
    have hl : ∀ v ∈ [m'.exp], v ∈ roots { m' with K := [W.k 39, .v (m'.st.hd (m'.st.tl p')), .v (m'.st.hd (m'.st.tl (m'.st.tl p')))] ++ m'.K } := by simp [roots]
    exact letBind_rel hg hm1 (hd_rel hm.st h) (l.mono hl).hd (hd_rel hm.st h1) (l.mono hl).tl.hd

theorem evalTrap_rel (hm : MR ρ κ m m') : OutRel (Eval.evalTrap sz m) (evalTrap sz g m') := by
  unfold Eval.evalTrap evalTrap
  have h := gcadr_rel hm.st hm.exp
  have l : ∀ x, m'.st.gcadr m'.exp = some x → Live m'.st (roots m') x := fun x => Live.gcadr live_exp
  generalize m.st.gcadr m.exp = x, m'.st.gcadr m'.exp = y at h l ⊢
  cases h with
  | none => exact raise_rel hm (.sym _)
  | @some e e' h =>
    have l := l _ rfl
    simp only
    have hr := hm.rooted
    obtain ⟨s1, c1, s1', c1', e1, e1', ρ1, κ1, h1, v1, x1⟩ := cons_step hg hm.st hr (VR.sym 0) (VR.sym 0) trivial trivial
    obtain ⟨s2, c2, s2', c2', e2, e2', ρ2, κ2, h2, v2, x2⟩ := cons_step hg h1 ((hr.ext x1).cons v1) (VR.sym 0) v1 trivial (.root (by simp))
    have x2 := x1.trans (x2.mono (R := roots m') (by simp +contextual)) (by simp)
    have h3 := setCar_rel h2 v2 (VR.sym (ρ := ρ2) (κ := κ2) 0x3000B)
    have hs : (s1.cons .exitOk c1) = (s2.setCar c2 .exitOk, c2) := by
      simp only [St.cons, Prod.mk.injEq] at e2 ⊢
      obtain ⟨rfl, rfl⟩ := e2
      simp only [St.setCar, and_true]
      congr 1
      funext i
      split <;> rfl
    simp only [V.nil, e1, e1', e2', hs]
    have hm3 := hm.lift x2.vr h3
    have hw : WR ρ2 κ2 (.raw m.flags) (.raw m'.flags) := by rw [hm.flags]; exact .raw _
    refine reserve_rel hm3 (.cons (.k _) (.cons hw (.cons (.v v2) .nil))) fun hm4 => ?_
    have hm5 := hm4.setFlags (setUnroll m.flags)
    have := go_rel hm5 (x2.vr _ _ h l) hm3.env
    rw [hm.flags] at this
    rw [hm.flags]
    exact this

end

end Verif.Gc
