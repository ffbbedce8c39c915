import Verif.Gc.Step3

/-!
# Every step keeps the relation: application
-/

namespace Verif.Gc

open Verif.Eval

section
variable {ρ κ ρ1 κ1 : Nat → Nat → Prop} {m m' : M} {sz : Option Nat} {s s' : St} {R : List V}

/-- The cells of `map` in the order of the code: first allocated, then filled. -/
theorem mapCells (s : St) (h f : V) {t1 t2 t3 t4 : St} {a0 a1 c ap : V} (e1 : s.cons .nil .nil = (t1, a0)) (e2 : t1.cons .nil a0 = (t2, a1))
    (e3 : t2.cons .nil .nil = (t3, c)) (e4 : t3.cons .nil c = (t4, ap)) :
    ∃ s1 s2 s3, s.cons h .nil = (s1, a0) ∧ s1.cons .quote a0 = (s2, a1) ∧ s2.cons a1 .nil = (s3, c) ∧
      s3.cons f c = ((((t4.setCar a0 h).setCar a1 .quote).setCar c a1).setCar ap f, ap) ∧
      ((((t4.setCar a0 h).setCar a1 .quote).setCar c a1).setCar ap f).tl ap = c ∧
      ((((t4.setCar a0 h).setCar a1 .quote).setCar c a1).setCar ap f).hd c = a1 ∧
      ((((t4.setCar a0 h).setCar a1 .quote).setCar c a1).setCar ap f).tl a1 = a0 := by
  simp only [St.cons, Prod.mk.injEq] at e1 e2 e3 e4
  obtain ⟨rfl, rfl⟩ := e1
  obtain ⟨rfl, rfl⟩ := e2
  obtain ⟨rfl, rfl⟩ := e3
  obtain ⟨rfl, rfl⟩ := e4
  refine ⟨_, _, _, rfl, rfl, rfl, ?_, ?_, ?_, ?_⟩
  · simp only [St.cons, St.setCar, Prod.mk.injEq, and_true]
    congr 1
    funext i
    grind
  · simp [St.setCar, St.tl]
  · simp [St.setCar, St.hd]
  · simp [St.setCar, St.tl]

variable {g : Gc} (hg : Sound g)
include hg

theorem applyMap_rel (hm : MR ρ κ m m') {args args' : List V} (ha : All2 (VR ρ κ) args args') (la : ∀ v ∈ args', v ∈ roots m') {K K' : List W}
    (hK : KR ρ κ K K') (lK : ∀ x, W.v x ∈ K' → x ∈ roots m') : OutRel (Eval.applyMap sz m args K) (applyMap sz g m' args' K') := by
  unfold Eval.applyMap applyMap
  cases ha with
  | nil => exact raise_rel hm (.sym _)
  | @cons f f' _ _ hf ha =>
    cases ha with
    | nil => exact raise_rel hm (.sym _)
    | @cons l l' _ _ hl ha =>
      cases ha with
      | cons _ _ =>
        cases hl with
        | sym n => cases n <;> exact raise_rel hm (.sym _)
        | _ => exact raise_rel hm (.sym _)
      | nil =>
        cases hl with
        | @cons a b hab =>
          simp only
          have hr := hm.rooted
          have hab' : VR ρ κ (.cons a) (.cons b) := .cons hab
          have lb : Live m'.st (roots m') (.cons b) := .root (la _ (by simp))
          have lf : Live m'.st (roots m') f' := .root (la _ (by simp))
          obtain ⟨t1, a0, t1', a0', e1, e1', ρ1, κ1, h1, v1, x1⟩ := cons_step hg hm.st hr (VR.sym 0) (VR.sym 0) trivial trivial
          obtain ⟨t2, a1, t2', a1', e2, e2', ρ2, κ2, h2, v2, x2⟩ := cons_step hg h1 ((hr.ext x1).cons v1) (VR.sym 0) v1 trivial (.root (by simp))
          have w1 := x2.vr _ _ v1 (.root (by simp))
          have x2 := x1.trans (x2.mono (R := roots m') (by simp +contextual)) (by simp)
          obtain ⟨t3, c, t3', c', e3, e3', ρ3, κ3, h3, v3, x3⟩ := cons_step hg h2 ((hr.ext x2).cons v2) (VR.sym 0) (VR.sym 0) trivial trivial
          have hr3 := ((hr.ext x2).cons v2).ext x3
          have k1 : a0' = t2'.tl a1' := by
            refine VR.eq h2 w1 ?_
            have : a0 = t2.tl a1 := by
              simp only [St.cons, Prod.mk.injEq] at e2
              obtain ⟨rfl, rfl⟩ := e2
              simp [St.tl]
            rw [this]
            exact tl_rel h2 v2
          have l1 : Live t2' (a1' :: roots m') a0' := by rw [k1]; exact Live.tl (.root (by simp))
          have w2 := x3.vr _ _ v2 (.root (by simp))
          have w1 := x3.vr _ _ w1 l1
          have l1 := x3.live l1
          have x3 := x2.trans (x3.mono (R := roots m') (by simp +contextual)) (by simp)
          obtain ⟨t4, ap, t4', ap', e4, e4', ρ4, κ4, h4, v4, x4⟩ := cons_step hg h3 (hr3.cons v3) (VR.sym 0) v3 trivial (.root (by simp))
          have w3 := x4.vr _ _ v3 (.root (by simp))
          have w2 := x4.vr _ _ w2 (.root (by simp))
          have w1 := x4.vr _ _ w1 l1.cons
          have x4 := x3.trans (x4.mono (R := roots m') (by simp +contextual)) (by simp)
          obtain ⟨s1, s2, s3, i1, i2, i3, i4, i5, i6, i7⟩ := mapCells m.st (m.st.car a) f e1 e2 e3 e4
          have hh := x4.vr _ _ (hm.st.cars _ _ hab) lb.car
          have ht := x4.vr _ _ (hm.st.cdrs _ _ hab) lb.cdr
          have hf4 := x4.vr _ _ hf lf
          have h5 := setCar_rel (setCar_rel (setCar_rel (setCar_rel h4 w1 hh) w2 (VR.sym 0x100)) w3 w2) v4 hf4
          have hm5 := hm.lift x4.vr h5
          have hr5 := ((hm5.rooted.cons v4).cons (VR.sym 0)).cons hm5.r
          have hb5 := x4.vr _ _ hab' lb
          simp only [V.quote] at i2 i4 i5 i6 i7
          simp only [V.nil, V.quote, e1', e2', e3', e4', i1, i2, i3, i4]
          generalize hS : (((t4.setCar a0 (m.st.car a)).setCar a1 (.sym 0x100)).setCar c a1).setCar ap f = S at h5 hm5 i5 i6 i7 ⊢
          generalize hS' : (((t4'.setCar a0' (m'.st.car b)).setCar a1' (.sym 0x100)).setCar c' a1').setCar ap' f' = S' at h5 hm5 ⊢
          obtain ⟨s6, el, s6', el', e6, e6', ρ6, κ6, h6, v6, x6⟩ := cons_step hg h5 hr5 hm5.r (VR.sym 0) (.root (by simp)) trivial
          simp only at e6 e6'
          have e6' : g.cons ([m'.r, V.sym 0, ap'] ++ roots m') S' m'.r (V.sym 0) = (s6', el') := e6'
          simp only [e6, e6']
          have hm6 := hm5.lift (s := s6) (s' := s6') (fun v v' hv hl => x6.vr v v' hv (hl.cons.cons.cons)) h6
          have l4 : Live S' (m'.r :: V.sym 0 :: ap' :: roots m') ap' := .root (by simp)
          have q3 : S'.tl ap' = c' := VR.eq h5 (i5 ▸ tl_rel h5 v4) w3
          have l3 := q3 ▸ l4.tl
          have q2 : S'.hd c' = a1' := VR.eq h5 (i6 ▸ hd_rel h5 w3) w2
          have l2 := q2 ▸ l3.hd
          have q1 : S'.tl a1' = a0' := VR.eq h5 (i7 ▸ tl_rel h5 w2) w1
          have l1 := q1 ▸ l2.tl
          have lb5 : Live S' (m'.r :: V.sym 0 :: ap' :: roots m') (.cons b) := .root (by simp [la])
          have qt : S'.cdr b = m'.st.cdr b := by
            subst hS'
            rw [← x4.keep.cdr b lb]
            simp only [St.setCar]
            repeat' split
            all_goals rfl
          have lt5 := qt ▸ lb5.cdr
          have hK6 : KR ρ6 κ6 K K' := by
            refine KR.lift (KR.lift hK x4.vr fun x hx => .root (lK x hx)) x6.vr fun x hx => .root ?_
            have := lK x hx
            simp only [List.mem_cons]
            exact .inr (.inr (.inr this))
          exact reserve_rel (hm6.setK (.cons (.v v6) (.cons (.v hm6.env) (.cons (.v (x6.vr _ _ ht lt5)) hK6))))
            (.cons (.k _) (.cons (.v (x6.vr _ _ w1 l1)) (.cons (.v (x6.vr _ _ v4 l4)) (.cons (.v v6) .nil)))) fun hm7 => go_rel hm7 (x6.vr _ _ v4 l4) hm6.env
        | sym n =>
          cases n with
          | zero => exact ret_rel (hm.setK hK) (.sym _)
          | succ n => exact raise_rel hm (.sym _)
        | _ => exact raise_rel hm (.sym _)

theorem popVals_mem {K : List W} {l : List V} (e : popVals K = some l) {x : V} (hx : x ∈ l) : W.v x ∈ K := by
  induction K generalizing l with
  | nil => simp only [popVals, Option.some.injEq] at e; subst e; simp at hx
  | cons w K ih =>
    cases w with
    | v y =>
      simp only [popVals, Option.map_eq_some_iff] at e
      obtain ⟨l1, e1, rfl⟩ := e
      cases hx with
      | head => simp
      | tail _ hx => exact List.mem_cons_of_mem _ (ih e1 hx)
    | _ => simp [popVals] at e

variable {P : Prims} {PG : PrimsG} (hP : PSim P PG)
include hP

theorem application_rel (hm : MR ρ κ m m') (c : Nat) : OutRel (Eval.application sz P m c) (application sz g PG m' c) := by
  unfold Eval.application application
  have hK := hm.K.drop (c + 1)
  cases hpv : popVals (m.K.take (c + 1)) with
  | none => simp only [Option.map_none]; trivial
  | some l =>
    obtain ⟨l', e', hl⟩ := popVals_rel (hm.K.take (c + 1)) hpv
    have hmem : ∀ x ∈ l', x ∈ roots m' := fun x hx => mem_roots (List.mem_of_mem_take (popVals_mem hg e' hx))
    have lK : ∀ x, W.v x ∈ m'.K.drop (c + 1) → x ∈ roots m' := fun x hx => mem_roots (List.mem_of_mem_drop hx)
    simp only [e', Option.map_some]
    have hl := hl.reverse
    have hmem : ∀ x ∈ l'.reverse, x ∈ roots m' := fun x hx => hmem x (by simpa using hx)
    generalize l.reverse = L, l'.reverse = L' at hl hmem ⊢
    cases hl with
    | nil => trivial
    | @cons v v' args args' hv ha =>
      cases hv with
      | sym n =>
        have hmem : ∀ x ∈ args', x ∈ roots m' := fun x hx => hmem x (by simp [hx])
        simp only [← ha.length]
        split
        · trivial
        · split
          · obtain ⟨ρ1, κ1, vr, h⟩ := hP.run g hg ρ κ m.st m'.st hm.st (roots m') hm.rooted n args args' m.env m'.env ha (fun v hv => .root (hmem v hv)) hm.env live_env
            generalize P.run n args m.env m.st = q, PG.run g (roots m') n args' m'.env m'.st = q' at h ⊢
            cases q with
            | ok s v =>
              cases q' with
              | ok s' v' => exact ret_rel ((hm.lift vr h.1).setK (KR.lift hK vr fun x hx => .root (lK x hx))) h.2
              | err s' v' => exact h.elim
            | err s v =>
              cases q' with
              | ok s' v' => exact h.elim
              | err s' v' => exact raise_rel (hm.lift vr h.1) h.2
          · split
            · exact applySetvar_rel hm ha hK
            · split
              · exact applyEval_rel hm ha hK
              · split
                · exact applyError_rel hm ha
                · split
                  · exact applyMap_rel hg hm ha hmem hK lK
                  · split
                    · exact applyRestArgs_rel hm ha hK
                    · split
                      · trivial
                      · exact raise_rel hm (.sym _)
      | _ => trivial

theorem contArgs_rel (hm : MR ρ κ m m') : OutRel (Eval.contArgs sz P m) (contArgs sz g PG m') := by
  unfold Eval.contArgs contArgs
  have hK := hm.K
  split
  · rename_i c rest env K e
    rw [e] at hK
    obtain ⟨_, _, e', hu, hK1⟩ := hK.invV
    cases hu
    obtain ⟨rest', _, rfl, h1, hK2⟩ := hK1.invV
    obtain ⟨env', K', rfl, h2, hK3⟩ := hK2.invV
    simp only [e']
    cases h1 with
    | cons h1 =>
      exact reserve_rel (hm.setK (.cons (.v (hm.st.cdrs _ _ h1)) (.cons (.v h2) (.cons (.v hm.r) hK3)))) (.cons (.k _) (.cons (.v (.u _)) .nil))
        fun hm1 => go_rel hm1 (hm.st.cars _ _ h1) h2
    | _ => exact application_rel hg hP ((hm.setK (.cons (.v hm.r) hK3)).setEnv h2) c
  · trivial

end

end Verif.Gc
