import Verif.Gc.Props
import Verif.Eval.LimitProps

/-!
# The list functions with the collector

C73 assumes of the built-in functions that they cannot tell when memory is collected. Here this is shown for the list functions of `Verif.Eval.Builtin`.
-/

namespace Verif.Gc

open Verif.Eval

/-- A program of a built-in function, as `execP`, on a heap with a collector. `D` are the cells that this call has taken: the collector does not run before the function has ended or failed, so they
are not free (`call_fundamental`, `src/eval_cps.c:669-690`). Here it may even run at each allocation with these cells as additional roots. -/
def execG (gc : Gc) (R : List V) (fuel : Nat) (args : List V) (jump : Nat → List V → (Nat → V) → St → PRes) : FProg → List V → (Nat → V) → St → PRes
  | .ret r, _, g, s => cellRes s (g r)
  | .goto l, D, g, s => jump l D g s
  | .move d r k, D, g, s => execG gc R fuel args jump k D (setReg g d (g r)) s
  | .car d r k, D, g, s => execG gc R fuel args jump k D (setReg g d ((s.gcar (g r)).getD .terror)) s
  | .cdr d r k, D, g, s => execG gc R fuel args jump k D (setReg g d ((s.gcdr (g r)).getD .terror)) s
  | .cons d a b k, D, g, s =>
    let c := gc.cons (D ++ R) s (g a) (g b)
    execG gc R fuel args jump k (c.2 :: D) (setReg g d c.2) c.1
  | .setCar r x k, D, g, s => execG gc R fuel args jump k D g (s.setCar (g r) (g x))
  | .setCdr r x k, D, g, s => execG gc R fuel args jump k D g (s.setCdr (g r) (g x))
  | .arg d r k, D, g, s => execG gc R fuel args jump k D (setReg g d (match g r with | .u i => args[i]?.getD .nil | _ => .nil)) s
  | .comp d rs f k, D, g, s => execG gc R fuel args jump k D (setReg g d (f (rs.map fun r => (g r).shape)).flat) s
  | .test rs t p q, D, g, s => if t (rs.map fun r => (g r).shape) then execG gc R fuel args jump p D g s else execG gc R fuel args jump q D g s
  | .same a b p q, D, g, s => if g a = g b then execG gc R fuel args jump p D g s else execG gc R fuel args jump q D g s
  | .eqv a b p q, D, g, s => if structEq fuel s (g a) (g b) then execG gc R fuel args jump p D g s else execG gc R fuel args jump q D g s

/-- At most `n` jumps, as `exec`. -/
def execGs (gc : Gc) (R : List V) (fuel : Nat) (code : Nat → FProg) (args : List V) : Nat → Nat → List V → (Nat → V) → St → PRes
  | 0, _, _, _, s => .err s .fatal
  | n + 1, l, D, g, s => execG gc R fuel args (execGs gc R fuel code args n) (code l) D g s

/-- The functions of `Verif.Eval.Builtin` with a collector. -/
def builtinG (nm : Nums) (fuel : Nat) : PrimsG where
  run gc R n args _ s :=
    match nm.fns n with
    | some f => cellRes s (f (args.map V.shape)).flat
    | none => execGs gc R fuel (Builtin.code nm) args fuel n [] (startRegs args) s
  eq s a b := structEq fuel s a b

/-! ### They do what they do without a collector -/

/-- Related results. -/
def RG (ρ κ : Nat → Nat → Prop) : PRes → PRes → Prop
  | .ok s v, .ok s' v' => Agree ρ κ s s' ∧ VR ρ κ v v'
  | .err s v, .err s' v' => Agree ρ κ s s' ∧ VR ρ κ v v'
  | _, _ => False

section
variable {ρ κ : Nat → Nat → Prop} {s s' : St}

theorem cellRes_rg (h : Agree ρ κ s s') {v v' : V} (hv : VR ρ κ v v') : RG ρ κ (cellRes s v) (cellRes s' v') := by
  cases hv with
  | sym n =>
    simp only [cellRes]
    split
    · exact ⟨h, .sym n⟩
    · exact ⟨h, .sym n⟩
  | u n => exact ⟨h, .u n⟩
  | atom n => exact ⟨h, .atom n⟩
  | cons e => exact ⟨h, .cons e⟩
  | arr e => exact ⟨h, .arr e⟩

theorem VR.shape {v v' : V} (h : VR ρ κ v v') : v.shape = v'.shape := by cases h <;> rfl

theorem vr_flat (v : V) : VR ρ κ v.flat v.flat := by
  cases v with
  | sym => exact .sym _
  | u => exact .u _
  | atom => exact .atom _
  | cons => exact .sym 0
  | arr => exact .sym 0

theorem live_flat {R : List V} (v : V) : Live s R v.flat := by cases v <;> trivial

theorem vr_setReg {g g' : Nat → V} {d : Nat} {v v' : V} (hg : ∀ i, VR ρ κ (g i) (g' i)) (hv : VR ρ κ v v') (i : Nat) : VR ρ κ (setReg g d v i) (setReg g' d v' i) := by
  unfold setReg
  split
  · exact hv
  · exact hg i

theorem live_setReg {R : List V} {g : Nat → V} {d : Nat} {v : V} (hg : ∀ i, Live s R (g i)) (hv : Live s R v) (i : Nat) : Live s R (setReg g d v i) := by
  unfold setReg
  split
  · exact hv
  · exact hg i

theorem optRel_getD {x y : Option V} (h : Option.Rel (VR ρ κ) x y) : VR ρ κ (x.getD .terror) (y.getD .terror) := by
  cases h with
  | none => exact .sym _
  | some h => exact h

theorem All2.at {l l' : List V} (h : All2 (VR ρ κ) l l') : ∀ i : Nat, VR ρ κ (l[i]?.getD .nil) (l'[i]?.getD .nil) := by
  induction h with
  | nil => intro i; exact .sym 0
  | cons hx _ ih =>
    intro i
    cases i with
    | zero => exact hx
    | succ i => exact ih i

theorem live_at {R l : List V} (h : ∀ v ∈ l, Live s R v) (i : Nat) : Live s R (l[i]?.getD .nil) := by
  cases e : l[i]? with
  | none => trivial
  | some v => exact h v (List.mem_of_getElem? e)

theorem vr_arg {args args' : List V} (ha : All2 (VR ρ κ) args args') {x x' : V} :
    VR ρ κ x x' → VR ρ κ (match x with | .u i => args[i]?.getD .nil | _ => .nil) (match x' with | .u i => args'[i]?.getD .nil | _ => .nil) := by
  intro hx
  cases x <;> cases x' <;> cases hx
  case u i => exact ha.at i
  all_goals exact .sym 0

theorem live_arg {R args : List V} (h : ∀ v ∈ args, Live s R v) (x : V) : Live s R (match x with | .u i => args[i]?.getD .nil | _ => .nil) := by
  cases x with
  | u i => exact live_at h i
  | _ => trivial

theorem structEq_rel (h : Agree ρ κ s s') : ∀ (f : Nat) {a a' b b' : V}, VR ρ κ a a' → VR ρ κ b b' → structEq f s a b = structEq f s' a' b'
  | 0, _, _, _, _, _, _ => rfl
  | f + 1, _, _, _, _, ha, hb => by
    have hv := VR.eq_iff h ha hb
    cases ha with
    | cons hc =>
      cases hb with
      | cons hd => simp only [structEq, structEq_rel h f (h.cars _ _ hc) (h.cars _ _ hd), structEq_rel h f (h.cdrs _ _ hc) (h.cdrs _ _ hd)]
      | _ => simp [structEq]
    | sym n => cases hb <;> simp_all [structEq]
    | u n => cases hb <;> simp_all [structEq]
    | atom n => cases hb <;> simp_all [structEq]
    | arr hk => cases hb <;> simp_all [structEq]

theorem gcar_live {R : List V} {v : V} (h : Live s R v) : Live s R ((s.gcar v).getD .terror) := by
  cases e : s.gcar v with
  | none => trivial
  | some x => exact h.gcar e

theorem gcdr_live {R : List V} {v : V} (h : Live s R v) : Live s R ((s.gcdr v).getD .terror) := by
  cases e : s.gcdr v with
  | none => trivial
  | some x => exact h.gcdr e

end

variable {gc : Gc} {R : List V} {fuel : Nat} {W : Nat → Bool}

theorem execG_late {ρ κ : Nat → Nat → Prop} {args args' : List V} {jump : Nat → (Nat → V) → St → PRes} {jumpG : Nat → List V → (Nat → V) → St → PRes} (ha : All2 (VR ρ κ) args args')
    (hj : ∀ l D g g' s s', W l = true → Agree ρ κ s s' → (∀ i, VR ρ κ (g i) (g' i)) → RG ρ κ (jump l g s) (jumpG l D g' s')) :
    ∀ (p : FProg) (D : List V) (g g' : Nat → V) (s s' : St), noCells W p = true → Agree ρ κ s s' → (∀ i, VR ρ κ (g i) (g' i)) →
      RG ρ κ (execP fuel args jump p g s) (execG gc R fuel args' jumpG p D g' s') := by
  intro p
  induction p with
  | ret r => intro D g g' s s' _ h hg; exact cellRes_rg h (hg r)
  | goto l => intro D g g' s s' hq h hg; exact hj l D g g' s s' hq h hg
  | move d r k ih => intro D g g' s s' hq h hg; exact ih D _ _ s s' hq h (vr_setReg hg (hg r))
  | car d r k ih => intro D g g' s s' hq h hg; exact ih D _ _ s s' hq h (vr_setReg hg (optRel_getD (gcar_rel h (hg r))))
  | cdr d r k ih => intro D g g' s s' hq h hg; exact ih D _ _ s s' hq h (vr_setReg hg (optRel_getD (gcdr_rel h (hg r))))
  | cons d a b k ih => intro D g g' s s' hq; simp [noCells] at hq
  | setCar r x k ih => intro D g g' s s' hq h hg; exact ih D _ _ _ _ hq (setCar_rel h (hg r) (hg x)) hg
  | setCdr r x k ih => intro D g g' s s' hq h hg; exact ih D _ _ _ _ hq (setCdr_rel h (hg r) (hg x)) hg
  | arg d r k ih => intro D g g' s s' hq h hg; exact ih D _ _ s s' hq h (vr_setReg hg (vr_arg ha (hg r)))
  | comp d rs f k ih =>
    intro D g g' s s' hq h hg
    have e : rs.map (fun r => (g r).shape) = rs.map (fun r => (g' r).shape) := List.map_congr_left fun r _ => (hg r).shape
    unfold execP execG
    rw [e]
    exact ih D _ _ s s' hq h (vr_setReg hg (vr_flat _))
  | test rs t p q ihp ihq =>
    intro D g g' s s' hq h hg
    simp only [noCells, Bool.and_eq_true] at hq
    have e : rs.map (fun r => (g r).shape) = rs.map (fun r => (g' r).shape) := List.map_congr_left fun r _ => (hg r).shape
    unfold execP execG
    rw [e]
    split
    · exact ihp D _ _ s s' hq.1 h hg
    · exact ihq D _ _ s s' hq.2 h hg
  | same a b p q ihp ihq =>
    intro D g g' s s' hq h hg
    simp only [noCells, Bool.and_eq_true] at hq
    have e := VR.eq_iff h (hg a) (hg b)
    unfold execP execG
    by_cases hab : g a = g b
    · rw [if_pos hab, if_pos (e.1 hab)]
      exact ihp D _ _ s s' hq.1 h hg
    · rw [if_neg hab, if_neg (fun h => hab (e.2 h))]
      exact ihq D _ _ s s' hq.2 h hg
  | eqv a b p q ihp ihq =>
    intro D g g' s s' hq h hg
    simp only [noCells, Bool.and_eq_true] at hq
    unfold execP execG
    rw [structEq_rel h fuel (hg a) (hg b)]
    split
    · exact ihp D _ _ s s' hq.1 h hg
    · exact ihq D _ _ s s' hq.2 h hg

theorem execGs_late {ρ κ : Nat → Nat → Prop} {args args' : List V} {code : Nat → FProg} (hc : TidyAt W code) (ha : All2 (VR ρ κ) args args') :
    ∀ (n l : Nat) (D : List V) (g g' : Nat → V) (s s' : St), W l = true → Agree ρ κ s s' → (∀ i, VR ρ κ (g i) (g' i)) →
      RG ρ κ (exec fuel code args n l g s) (execGs gc R fuel code args' n l D g' s')
  | 0, _, _, _, _, _, _, _, h, _ => ⟨h, .sym _⟩
  | n + 1, l, D, g, g', s, s', hw, h, hg =>
    execG_late ha (fun l D g g' s s' hw h hg => execGs_late hc ha n l D g g' s s' hw h hg) (code l) D g g' s s' (hc.noCells l hw) h hg

/-- Related results, with what was in use still related. -/
def Goes (ρ κ : Nat → Nat → Prop) (s' : St) (R : List V) (r r' : PRes) : Prop :=
  ∃ ρ1 κ1 : Nat → Nat → Prop, (∀ v v', VR ρ κ v v' → Live s' R v' → VR ρ1 κ1 v v') ∧ RG ρ1 κ1 r r'

theorem execG_goes (hgc : Sound gc) {args args' : List V} {jump : Nat → (Nat → V) → St → PRes} {jumpG : Nat → List V → (Nat → V) → St → PRes}
    (hq : ∀ (ρ κ : Nat → Nat → Prop) l D g g' s s', All2 (VR ρ κ) args args' → W l = true → Agree ρ κ s s' → (∀ i, VR ρ κ (g i) (g' i)) → RG ρ κ (jump l g s) (jumpG l D g' s'))
    (hj : ∀ (ρ κ : Nat → Nat → Prop) l D g g' s s', Agree ρ κ s s' → Rooted ρ κ (D ++ R) → (∀ i, VR ρ κ (g i) (g' i)) → (∀ i, Live s' (D ++ R) (g' i)) → All2 (VR ρ κ) args args' →
      (∀ v ∈ args', Live s' (D ++ R) v) → Goes ρ κ s' (D ++ R) (jump l g s) (jumpG l D g' s')) :
    ∀ (p : FProg) (ρ κ : Nat → Nat → Prop) (D : List V) (g g' : Nat → V) (s s' : St), lateWrites W p = true → Agree ρ κ s s' → Rooted ρ κ (D ++ R) → (∀ i, VR ρ κ (g i) (g' i)) →
      (∀ i, Live s' (D ++ R) (g' i)) → All2 (VR ρ κ) args args' → (∀ v ∈ args', Live s' (D ++ R) v) →
      Goes ρ κ s' (D ++ R) (execP fuel args jump p g s) (execG gc R fuel args' jumpG p D g' s') := by
  intro p
  induction p with
  | ret r => intro ρ κ D g g' s s' _ h _ hg _ _ _; exact ⟨ρ, κ, fun _ _ h _ => h, cellRes_rg h (hg r)⟩
  | goto l => intro ρ κ D g g' s s' _ h hr hg lg ha la; exact hj ρ κ l D g g' s s' h hr hg lg ha la
  | move d r k ih => intro ρ κ D g g' s s' ht h hr hg lg ha la; exact ih ρ κ D _ _ s s' ht h hr (vr_setReg hg (hg r)) (live_setReg lg (lg r)) ha la
  | car d r k ih =>
    intro ρ κ D g g' s s' ht h hr hg lg ha la
    exact ih ρ κ D _ _ s s' ht h hr (vr_setReg hg (optRel_getD (gcar_rel h (hg r)))) (live_setReg lg (gcar_live (lg r))) ha la
  | cdr d r k ih =>
    intro ρ κ D g g' s s' ht h hr hg lg ha la
    exact ih ρ κ D _ _ s s' ht h hr (vr_setReg hg (optRel_getD (gcdr_rel h (hg r)))) (live_setReg lg (gcdr_live (lg r))) ha la
  | cons d a b k ih =>
    intro ρ κ D g g' s s' ht h hr hg lg ha la
    obtain ⟨ρ1, κ1, h1, v1, x1⟩ := cons_rel hgc h hr (hg a) (hg b) (lg a) (lg b)
    obtain ⟨ρ2, κ2, e2, r2⟩ := ih ρ1 κ1 ((gc.cons (D ++ R) s' (g' a) (g' b)).2 :: D) _ (setReg g' d (gc.cons (D ++ R) s' (g' a) (g' b)).2) _ _ ht h1 ((hr.ext x1).cons v1)
      (vr_setReg (fun i => x1.vr _ _ (hg i) (lg i)) v1) (live_setReg (fun i => (x1.live (lg i)).cons) (.root (by simp))) (ha.imp fun v v' hv h => x1.vr _ _ h (la v' hv)) (fun v hv => (x1.live (la v hv)).cons)
    exact ⟨ρ2, κ2, fun v v' hv hl => e2 v v' (x1.vr _ _ hv hl) (x1.live hl).cons, r2⟩
  | setCar r x k ih =>
    intro ρ κ D g g' s s' ht h hr hg lg ha la
    exact ⟨ρ, κ, fun _ _ h _ => h, execG_late ha (fun l D g g' s s' => hq ρ κ l D g g' s s' ha) k D _ _ _ _ ht (setCar_rel h (hg r) (hg x)) hg⟩
  | setCdr r x k ih =>
    intro ρ κ D g g' s s' ht h hr hg lg ha la
    exact ⟨ρ, κ, fun _ _ h _ => h, execG_late ha (fun l D g g' s s' => hq ρ κ l D g g' s s' ha) k D _ _ _ _ ht (setCdr_rel h (hg r) (hg x)) hg⟩
  | arg d r k ih =>
    intro ρ κ D g g' s s' ht h hr hg lg ha la
    exact ih ρ κ D _ _ s s' ht h hr (vr_setReg hg (vr_arg ha (hg r))) (live_setReg lg (live_arg la _)) ha la
  | comp d rs f k ih =>
    intro ρ κ D g g' s s' ht h hr hg lg ha la
    have e : rs.map (fun r => (g r).shape) = rs.map (fun r => (g' r).shape) := List.map_congr_left fun r _ => (hg r).shape
    unfold execP execG
    rw [e]
    exact ih ρ κ D _ _ s s' ht h hr (vr_setReg hg (vr_flat _)) (live_setReg lg (live_flat _)) ha la
  | test rs t p q ihp ihq =>
    intro ρ κ D g g' s s' ht h hr hg lg ha la
    simp only [lateWrites, Bool.and_eq_true] at ht
    have e : rs.map (fun r => (g r).shape) = rs.map (fun r => (g' r).shape) := List.map_congr_left fun r _ => (hg r).shape
    unfold execP execG
    rw [e]
    split
    · exact ihp ρ κ D _ _ s s' ht.1 h hr hg lg ha la
    · exact ihq ρ κ D _ _ s s' ht.2 h hr hg lg ha la
  | same a b p q ihp ihq =>
    intro ρ κ D g g' s s' ht h hr hg lg ha la
    simp only [lateWrites, Bool.and_eq_true] at ht
    have e := VR.eq_iff h (hg a) (hg b)
    unfold execP execG
    by_cases hab : g a = g b
    · rw [if_pos hab, if_pos (e.1 hab)]
      exact ihp ρ κ D _ _ s s' ht.1 h hr hg lg ha la
    · rw [if_neg hab, if_neg (fun h => hab (e.2 h))]
      exact ihq ρ κ D _ _ s s' ht.2 h hr hg lg ha la
  | eqv a b p q ihp ihq =>
    intro ρ κ D g g' s s' ht h hr hg lg ha la
    simp only [lateWrites, Bool.and_eq_true] at ht
    unfold execP execG
    rw [structEq_rel h fuel (hg a) (hg b)]
    split
    · exact ihp ρ κ D _ _ s s' ht.1 h hr hg lg ha la
    · exact ihq ρ κ D _ _ s s' ht.2 h hr hg lg ha la

theorem execGs_goes (hgc : Sound gc) {args args' : List V} {code : Nat → FProg} (hc : TidyAt W code) :
    ∀ (n : Nat) (ρ κ : Nat → Nat → Prop) (l : Nat) (D : List V) (g g' : Nat → V) (s s' : St), Agree ρ κ s s' → Rooted ρ κ (D ++ R) → (∀ i, VR ρ κ (g i) (g' i)) →
      (∀ i, Live s' (D ++ R) (g' i)) → All2 (VR ρ κ) args args' → (∀ v ∈ args', Live s' (D ++ R) v) →
      Goes ρ κ s' (D ++ R) (exec fuel code args n l g s) (execGs gc R fuel code args' n l D g' s')
  | 0, ρ, κ, _, _, _, _, _, _, h, _, _, _, _, _ => ⟨ρ, κ, fun _ _ h _ => h, h, .sym _⟩
  | n + 1, ρ, κ, l, D, g, g', s, s', h, hr, hg, lg, ha, la =>
    execG_goes hgc (fun ρ κ l D g g' s s' ha hw h hg => execGs_late hc ha n l D g g' s s' hw h hg) (fun ρ κ l D g g' s s' h hr hg lg ha la => execGs_goes hgc hc n ρ κ l D g g' s s' h hr hg lg ha la)
      (code l) ρ κ D g g' s s' (hc.tidy l) h hr hg lg ha la

/-- The list functions cannot tell when memory is collected. -/
theorem builtin_sim (nm : Nums) (fuel : Nat) : PSim (Builtin.prims nm fuel) (builtinG nm fuel) where
  eq ρ κ s s' h v v' w w' hv hw := structEq_rel h fuel hv hw
  run gc hgc ρ κ s s' h R hr n args args' env env' ha la he le := by
    have key : Goes ρ κ s' R ((Builtin.prims nm fuel).run n args env s) ((builtinG nm fuel).run gc R n args' env' s') := by
      simp only [Builtin.prims, builtinG]
      cases nm.fns n with
      | some f =>
        have e : args.map V.shape = args'.map V.shape := by
          clear la
          induction ha with
          | nil => rfl
          | cons hx _ ih => simp only [List.map_cons, hx.shape, ih]
        simp only [e]
        exact ⟨ρ, κ, fun _ _ h _ => h, cellRes_rg h (vr_flat _)⟩
      | none =>
        refine execGs_goes (D := []) hgc (Builtin.code_tidy nm) fuel ρ κ n _ _ s s' h hr (fun i => ?_) (fun i => ?_) ha la
        · cases i with
          | zero => show VR ρ κ (.u _) (.u _); rw [ha.length]; exact .u _
          | succ i => exact ha.at i
        · cases i with
          | zero => trivial
          | succ i => exact live_at la i
    obtain ⟨ρ1, κ1, h1, h2⟩ := key
    refine ⟨ρ1, κ1, h1, ?_⟩
    revert h2
    generalize (Builtin.prims nm fuel).run n args env s = r
    generalize (builtinG nm fuel).run gc R n args' env' s' = r'
    intro h2
    cases r <;> cases r' <;> exact h2

/-- **C73** for programs with the list functions: nothing is assumed of the functions any more. -/
theorem gc_invisible_lists (nm : Nums) (fuel : Nat) (sz : Option Nat) {g : Nat → Gc} (hg : ∀ k, Sound (g k)) {m : M} (hm : WF m) (n : Nat)
    (hub : Eval.steps sz (Builtin.prims nm fuel) n (.next m) ≠ .ub) :
    SameOutcome (Eval.steps sz (Builtin.prims nm fuel) n (.next m)) (steps sz g (builtinG nm fuel) n (.next m)) :=
  gc_invisible (builtin_sim nm fuel) sz hg hm n hub

/-- `(car (append (list 3 4) (list 5)))` -/
def demoList : Sx := .l [.s 0x20012, .l [.s 0x20015, .l [.s 0x20014, .n 3, .n 4], .l [.s 0x20014, .n 5]]]

/-- The machine that evaluates it. -/
def demoListM : M := ⟨[.k 0], .nil, (load demoList st0).2, .nil, false, 0, .nil, (load demoList st0).1⟩

theorem demoListM_wf : WF demoListM := by
  refine wf_of_okV ?_ (fun _ => rfl) ?_
  · decide +kernel
  · decide +kernel

theorem demoListM_ends : ∃ s, Eval.steps none (Builtin.prims Builtin.noNums 20) 60 (.next demoListM) = .fin s (.atom 3) true := by
  have h : (match Eval.steps none (Builtin.prims Builtin.noNums 20) 60 (.next demoListM) with | .fin _ v ok => decide (v = .atom 3 ∧ ok = true) | _ => false) = true := by decide +kernel
  revert h
  generalize Eval.steps none (Builtin.prims Builtin.noNums 20) 60 (.next demoListM) = o
  intro h
  cases o with
  | fin s v ok =>
    simp only [decide_eq_true_eq] at h
    obtain ⟨rfl, rfl⟩ := h
    exact ⟨s, rfl⟩
  | _ => cases h

/-- Example: the program ends with 3 although every cell that is not in use is destroyed at every step and at every allocation. -/
example : ∃ s', steps none (fun _ => hostile) (builtinG Builtin.noNums 20) 60 (.next demoListM) = .fin s' (.atom 3) true := by
  obtain ⟨s, hs⟩ := demoListM_ends
  exact gc_atom (builtin_sim _ _) none (fun _ => hostile_sound) demoListM_wf 60 (.inl ⟨3, rfl⟩) hs

end Verif.Gc
