import Verif.Gc.Builtin

/-!
# C125 for whole programs

The list functions when memory runs out within them: `call_fundamental` collects and calls the function again.
-/

namespace Verif.Gc

open Verif.Eval

/-- An attempt to call a function: it ends, or there is no free cell; then this is the store that it leaves. -/
inductive Att
  | done (r : PRes)
  | failed (s : St)

/-- A program of a built-in function as `execG`, with `b` free cells. -/
def execGB (gc : Gc) (R : List V) (fuel : Nat) (args : List V) (jump : Nat → Nat → List V → (Nat → V) → St → Att) : FProg → Nat → List V → (Nat → V) → St → Att
  | .ret r, _, _, g, s => .done (cellRes s (g r))
  | .goto l, b, D, g, s => jump l b D g s
  | .move d r k, b, D, g, s => execGB gc R fuel args jump k b D (setReg g d (g r)) s
  | .car d r k, b, D, g, s => execGB gc R fuel args jump k b D (setReg g d ((s.gcar (g r)).getD .terror)) s
  | .cdr d r k, b, D, g, s => execGB gc R fuel args jump k b D (setReg g d ((s.gcdr (g r)).getD .terror)) s
  | .cons _ _ _ _, 0, _, _, s => .failed s
  | .cons d x y k, b + 1, D, g, s =>
    let c := gc.cons (D ++ R) s (g x) (g y)
    execGB gc R fuel args jump k b (c.2 :: D) (setReg g d c.2) c.1
  | .setCar r x k, b, D, g, s => execGB gc R fuel args jump k b D g (s.setCar (g r) (g x))
  | .setCdr r x k, b, D, g, s => execGB gc R fuel args jump k b D g (s.setCdr (g r) (g x))
  | .arg d r k, b, D, g, s => execGB gc R fuel args jump k b D (setReg g d (match g r with | .u i => args[i]?.getD .nil | _ => .nil)) s
  | .comp d rs f k, b, D, g, s => execGB gc R fuel args jump k b D (setReg g d (f (rs.map fun r => (g r).shape)).flat) s
  | .test rs t p q, b, D, g, s => if t (rs.map fun r => (g r).shape) then execGB gc R fuel args jump p b D g s else execGB gc R fuel args jump q b D g s
  | .same x y p q, b, D, g, s => if g x = g y then execGB gc R fuel args jump p b D g s else execGB gc R fuel args jump q b D g s
  | .eqv x y p q, b, D, g, s => if structEq fuel s (g x) (g y) then execGB gc R fuel args jump p b D g s else execGB gc R fuel args jump q b D g s

/-- At most `n` jumps, as `exec`. -/
def execGBs (gc : Gc) (R : List V) (fuel : Nat) (code : Nat → FProg) (args : List V) : Nat → Nat → Nat → List V → (Nat → V) → St → Att
  | 0, _, _, _, _, s => .done (.err s .fatal)
  | n + 1, l, b, D, g, s => execGB gc R fuel args (execGBs gc R fuel code args n) (code l) b D g s

/-- `call_fundamental`, `src/eval_cps.c:669-690`: the function is called; if it runs out of memory, memory is collected with the roots of the context (the arguments are on its stack), and the function is called
again. `free` is the number of free cells at the first call; there are enough at the second. Simplified: a function whose own result is the symbol `out_of_memory` is not called again. -/
def builtinRetry (nm : Nums) (fuel : Nat) (free : List V → St → Nat) : PrimsG where
  run gc R n args _ s :=
    match nm.fns n with
    | some f => cellRes s (f (args.map V.shape)).flat
    | none =>
      match execGBs gc R fuel (Builtin.code nm) args fuel n (free R s) [] (startRegs args) s with
      | .done r => r
      | .failed s1 => execGs gc R fuel (Builtin.code nm) args fuel n [] (startRegs args) (gc.collect R s1)
  eq s a b := structEq fuel s a b

/-! ### A failed attempt changes nothing that is in use -/

/-- What is reachable from `R` is as it was. -/
structure Still (R : List V) (s s1 : St) : Prop where
  keep : Keep R s s1
  atomic : s1.atomic = s.atomic
  next : s.next ≤ s1.next

theorem Still.refl (R : List V) (s : St) : Still R s s := ⟨.refl R s, rfl, Nat.le_refl _⟩

theorem Still.trans {R R' : List V} {s s1 s2 : St} (h : Still R s s1) (h' : Still R' s1 s2) (hR : ∀ v ∈ R, v ∈ R') : Still R s s2 :=
  ⟨h.keep.trans h'.keep hR, h'.atomic.trans h.atomic, Nat.le_trans h.next h'.next⟩

theorem Still.rel {ρ κ : Nat → Nat → Prop} {R : List V} {s s' s1 : St} (hk : Still R s' s1) (h : Agree ρ κ s s') :
    Agree (only ρ fun b => Reach s' R (.cons b)) (only κ fun b => Reach s' R (.arr b)) s s1 := by
  refine ⟨fun a b b' h1 h2 => h.rfun _ _ _ h1.1 h2.1, fun a b b' h1 h2 => h.rinj _ _ _ h1.1 h2.1,
    fun a b b' h1 h2 => h.kfun _ _ _ h1.1 h2.1, fun a b b' h1 h2 => h.kinj _ _ _ h1.1 h2.1, ?_, ?_, ?_, ?_, ?_,
    fun a b h1 => h.lt _ _ h1.1, fun a b h1 => h.klt _ _ h1.1, Nat.le_trans h.nle hk.next⟩
  · intro a b h1
    rw [hk.keep.car _ h1.2]
    exact (h.cars _ _ h1.1).only (Reach.car h1.2).live
  · intro a b h1
    rw [hk.keep.cdr _ h1.2]
    exact (h.cdrs _ _ h1.1).only (Reach.cdr h1.2).live
  · intro a b h1
    rw [hk.keep.konts _ h1.2]
    exact (h.kont _ _ h1.1).imp fun w w' hm hw => hw.only fun x e => (Reach.kont h1.2 (e ▸ hm)).live
  · intro i
    rw [hk.keep.globals]
    exact (h.glob i).only (Reach.glob i).live
  · rw [hk.atomic]
    exact h.atomic

variable {gc : Gc} {R : List V} {fuel : Nat} {W : Nat → Bool}

theorem execGB_late {args : List V} {jumpG : Nat → List V → (Nat → V) → St → PRes} {jumpB : Nat → Nat → List V → (Nat → V) → St → Att}
    (hj : ∀ l b D g s, W l = true → jumpB l b D g s = .done (jumpG l D g s)) :
    ∀ (p : FProg) (b : Nat) (D : List V) (g : Nat → V) (s : St), noCells W p = true → execGB gc R fuel args jumpB p b D g s = .done (execG gc R fuel args jumpG p D g s) := by
  intro p
  induction p with
  | ret r => intro b D g s _; rfl
  | goto l => intro b D g s h; exact hj l b D g s h
  | cons d x y k ih => intro b D g s h; simp [noCells] at h
  | move d r k ih | car d r k ih | cdr d r k ih | arg d r k ih | comp d rs f k ih | setCar r x k ih | setCdr r x k ih => intro b D g s h; exact ih b D _ _ h
  | test rs t p q ihp ihq | same x y p q ihp ihq | eqv x y p q ihp ihq =>
    intro b D g s h
    simp only [noCells, Bool.and_eq_true] at h
    unfold execGB execG
    rw [ihp b D g s h.1, ihq b D g s h.2]
    split <;> rfl

theorem execGBs_late {code : Nat → FProg} {args : List V} (hc : TidyAt W code) : ∀ (n l b : Nat) (D : List V) (g : Nat → V) (s : St), W l = true →
    execGBs gc R fuel code args n l b D g s = .done (execGs gc R fuel code args n l D g s)
  | 0, _, _, _, _, _, _ => rfl
  | n + 1, l, b, D, g, s, h => execGB_late (fun l b D g s h => execGBs_late hc n l b D g s h) (code l) b D g s (hc.noCells l h)

/-- The attempt ends as without a bound, or fails and changes nothing that is in use. -/
def Tried (R : List V) (s : St) (a : Att) (r : PRes) : Prop := a = .done r ∨ ∃ s1, a = .failed s1 ∧ Still R s s1

theorem execGB_tried (hgc : Sound gc) {args args' : List V} {jumpG : Nat → List V → (Nat → V) → St → PRes} {jumpB : Nat → Nat → List V → (Nat → V) → St → Att}
    (hq : ∀ l b D g s, W l = true → jumpB l b D g s = .done (jumpG l D g s))
    (hj : ∀ (ρ κ : Nat → Nat → Prop) l b D (g g' : Nat → V) s s', Agree ρ κ s s' → Rooted ρ κ (D ++ R) → (∀ i, VR ρ κ (g i) (g' i)) → (∀ i, Live s' (D ++ R) (g' i)) → All2 (VR ρ κ) args args' →
      (∀ v ∈ args', Live s' (D ++ R) v) → Tried (D ++ R) s' (jumpB l b D g' s') (jumpG l D g' s')) :
    ∀ (p : FProg) (ρ κ : Nat → Nat → Prop) (b : Nat) (D : List V) (g g' : Nat → V) (s s' : St), lateWrites W p = true → Agree ρ κ s s' → Rooted ρ κ (D ++ R) → (∀ i, VR ρ κ (g i) (g' i)) →
      (∀ i, Live s' (D ++ R) (g' i)) → All2 (VR ρ κ) args args' → (∀ v ∈ args', Live s' (D ++ R) v) →
      Tried (D ++ R) s' (execGB gc R fuel args' jumpB p b D g' s') (execG gc R fuel args' jumpG p D g' s') := by
  intro p
  induction p with
  | ret r => intro ρ κ b D g g' s s' _ h _ hg _ _ _; exact .inl rfl
  | goto l => intro ρ κ b D g g' s s' _ h hr hg lg ha la; exact hj ρ κ l b D g g' s s' h hr hg lg ha la
  | move d r k ih =>
    intro ρ κ b D g g' s s' ht h hr hg lg ha la
    exact ih ρ κ b D _ _ s s' ht h hr (vr_setReg (d := d) hg (hg r)) (live_setReg lg (lg r)) ha la
  | car d r k ih =>
    intro ρ κ b D g g' s s' ht h hr hg lg ha la
    exact ih ρ κ b D _ _ s s' ht h hr (vr_setReg (d := d) hg (optRel_getD (gcar_rel h (hg r)))) (live_setReg lg (gcar_live (lg r))) ha la
  | cdr d r k ih =>
    intro ρ κ b D g g' s s' ht h hr hg lg ha la
    exact ih ρ κ b D _ _ s s' ht h hr (vr_setReg (d := d) hg (optRel_getD (gcdr_rel h (hg r)))) (live_setReg lg (gcdr_live (lg r))) ha la
  | cons d x y k ih =>
    intro ρ κ b D g g' s s' ht h hr hg lg ha la
    cases b with
    | zero => exact .inr ⟨s', rfl, .refl _ _⟩
    | succ b =>
      obtain ⟨ρ1, κ1, h1, v1, x1⟩ := cons_rel hgc h hr (hg x) (hg y) (lg x) (lg y)
      have hst : Still (D ++ R) s' (gc.cons (D ++ R) s' (g' x) (g' y)).1 := ⟨x1.keep, hgc.atomic _ _, by show s'.next ≤ (gc.collect (D ++ R) s').next + 1; rw [hgc.next]; exact Nat.le_succ _⟩
      rcases ih ρ1 κ1 b ((gc.cons (D ++ R) s' (g' x) (g' y)).2 :: D) _ (setReg g' d (gc.cons (D ++ R) s' (g' x) (g' y)).2) _ _ ht h1 ((hr.ext x1).cons v1)
        (vr_setReg (fun i => x1.vr _ _ (hg i) (lg i)) v1) (live_setReg (fun i => (x1.live (lg i)).cons) (.root (by simp))) (ha.imp fun v v' hv h => x1.vr _ _ h (la v' hv)) (fun v hv => (x1.live (la v hv)).cons)
        with e | ⟨s1, e, hs⟩
      · exact .inl e
      · exact .inr ⟨s1, e, hst.trans hs (by simp +contextual)⟩
  | setCar r x k ih => intro ρ κ b D g g' s s' ht h hr hg lg ha la; exact .inl (execGB_late hq k b D _ _ ht)
  | setCdr r x k ih => intro ρ κ b D g g' s s' ht h hr hg lg ha la; exact .inl (execGB_late hq k b D _ _ ht)
  | arg d r k ih =>
    intro ρ κ b D g g' s s' ht h hr hg lg ha la
    exact ih ρ κ b D _ _ s s' ht h hr (vr_setReg (d := d) hg (vr_arg ha (hg r))) (live_setReg lg (live_arg la _)) ha la
  | comp d rs f k ih =>
    intro ρ κ b D g g' s s' ht h hr hg lg ha la
    exact ih ρ κ b D _ _ s s' ht h hr (vr_setReg (d := d) hg (vr_flat _)) (live_setReg lg (live_flat _)) ha la
  | test rs t p q ihp ihq | same x y p q ihp ihq | eqv x y p q ihp ihq =>
    intro ρ κ b D g g' s s' ht h hr hg lg ha la
    simp only [lateWrites, Bool.and_eq_true] at ht
    unfold execGB execG
    split
    · exact ihp ρ κ b D _ _ s s' ht.1 h hr hg lg ha la
    · exact ihq ρ κ b D _ _ s s' ht.2 h hr hg lg ha la

theorem execGBs_tried (hgc : Sound gc) {args args' : List V} {code : Nat → FProg} (hc : TidyAt W code) :
    ∀ (n : Nat) (ρ κ : Nat → Nat → Prop) (l b : Nat) (D : List V) (g g' : Nat → V) (s s' : St), Agree ρ κ s s' → Rooted ρ κ (D ++ R) → (∀ i, VR ρ κ (g i) (g' i)) →
      (∀ i, Live s' (D ++ R) (g' i)) → All2 (VR ρ κ) args args' → (∀ v ∈ args', Live s' (D ++ R) v) →
      Tried (D ++ R) s' (execGBs gc R fuel code args' n l b D g' s') (execGs gc R fuel code args' n l D g' s')
  | 0, _, _, _, _, _, _, _, _, _, _, _, _, _, _, _ => .inl rfl
  | n + 1, ρ, κ, l, b, D, g, g', s, s', h, hr, hg, lg, ha, la =>
    execGB_tried hgc (fun l b D g s hw => execGBs_late hc n l b D g s hw) (fun ρ κ l b D g g' s s' h hr hg lg ha la => execGBs_tried hgc hc n ρ κ l b D g g' s s' h hr hg lg ha la)
      (code l) ρ κ b D g g' s s' (hc.tidy l) h hr hg lg ha la

theorem vr_start {ρ κ : Nat → Nat → Prop} {args args' : List V} (ha : All2 (VR ρ κ) args args') (i : Nat) : VR ρ κ (startRegs args i) (startRegs args' i) := by
  cases i with
  | zero => show VR ρ κ (.u _) (.u _); rw [ha.length]; exact .u _
  | succ i => exact ha.at i

theorem live_start {s : St} {args : List V} (la : ∀ v ∈ args, Live s R v) (i : Nat) : Live s R (startRegs args i) := by
  cases i with
  | zero => trivial
  | succ i => exact live_at la i

/-- The functions with the second attempt cannot be told from the ones that never run out of memory. -/
theorem retry_sim (nm : Nums) (fuel : Nat) (free : List V → St → Nat) : PSim (Builtin.prims nm fuel) (builtinRetry nm fuel free) where
  eq ρ κ s s' h v v' w w' hv hw := structEq_rel h fuel hv hw
  run gc hgc ρ κ s s' h R hr n args args' env env' ha la he le := by
    have key : Goes ρ κ s' R ((Builtin.prims nm fuel).run n args env s) ((builtinRetry nm fuel free).run gc R n args' env' s') := by
      cases hf : nm.fns n with
      | some f =>
        have e : args.map V.shape = args'.map V.shape := by
          clear la
          induction ha with
          | nil => rfl
          | cons hx _ ih => simp only [List.map_cons, hx.shape, ih]
        simp only [Builtin.prims, builtinRetry, hf, e]
        exact ⟨ρ, κ, fun _ _ h _ => h, cellRes_rg h (vr_flat _)⟩
      | none =>
        have e1 : (Builtin.prims nm fuel).run n args env s = exec fuel (Builtin.code nm) args fuel n (startRegs args) s := by
          simp only [Builtin.prims, hf]
          rfl
        rw [e1]
        rcases execGBs_tried (fuel := fuel) (D := []) hgc (Builtin.code_tidy nm) fuel ρ κ n (free R s') _ _ s s' h hr (vr_start ha) (live_start la) ha la with e | ⟨s1, e, hs⟩
        · have e2 : (builtinRetry nm fuel free).run gc R n args' env' s' = execGs gc R fuel (Builtin.code nm) args' fuel n [] (startRegs args') s' := by
            simp only [builtinRetry, hf, e]
          rw [e2]
          exact execGs_goes (D := []) hgc (Builtin.code_tidy nm) fuel ρ κ n _ _ s s' h hr (vr_start ha) (live_start la) ha la
        · have e2 : (builtinRetry nm fuel free).run gc R n args' env' s' = execGs gc R fuel (Builtin.code nm) args' fuel n [] (startRegs args') (gc.collect R s1) := by
            simp only [builtinRetry, hf, e]
          rw [e2]
          have hst : Still R s' (gc.collect R s1) := Still.trans hs ⟨hgc.keep R s1, hgc.atomic _ _, Nat.le_of_eq (hgc.next _ _).symm⟩ (fun _ h => h)
          have h2 := hst.rel h
          have hv : ∀ v v', VR ρ κ v v' → Live s' R v' → VR (only ρ fun b => Reach s' R (.cons b)) (only κ fun b => Reach s' R (.arr b)) v v' := fun v v' hv hl => hv.only hl
          have ha2 := ha.imp fun v v' hm hvr => hv v v' hvr (la v' hm)
          have la2 : ∀ v ∈ args', Live (gc.collect R s1) R v := fun v hm => hst.keep.live (fun _ h => h) (la v hm)
          have hr2 : Rooted (only ρ fun b => Reach s' R (.cons b)) (only κ fun b => Reach s' R (.arr b)) R := fun x hx => by
            obtain ⟨v, hvr⟩ := hr x hx
            exact ⟨v, hv v x hvr (.root hx)⟩
          obtain ⟨ρ3, κ3, h3, r3⟩ := execGs_goes (fuel := fuel) (D := []) hgc (Builtin.code_tidy nm) fuel _ _ n _ _ s _ h2 hr2 (vr_start ha2) (live_start la2) ha2 la2
          exact ⟨ρ3, κ3, fun v v' hvr hl => h3 v v' (hv v v' hvr hl) (hst.keep.live (fun _ h => h) hl), r3⟩
    obtain ⟨ρ1, κ1, h1, h2⟩ := key
    refine ⟨ρ1, κ1, h1, ?_⟩
    revert h2
    generalize (Builtin.prims nm fuel).run n args env s = r
    generalize (builtinRetry nm fuel free).run gc R n args' env' s' = r'
    intro h2
    cases r <;> cases r' <;> exact h2

/-- C125 for whole programs: however often the built-in functions run out of memory in the middle of a call, and whatever the collector and the allocator do, after any number of steps the machine is in a state that no
program can tell from that of a machine with unlimited memory. -/
theorem C125_program (nm : Nums) (fuel : Nat) (free : List V → St → Nat) (sz : Option Nat) {g : Nat → Gc} (hg : ∀ k, Sound (g k)) {m : M} (hm : WF m) (n : Nat)
    (hub : Eval.steps sz (Builtin.prims nm fuel) n (.next m) ≠ .ub) :
    SameOutcome (Eval.steps sz (Builtin.prims nm fuel) n (.next m)) (steps sz g (builtinRetry nm fuel free) n (.next m)) :=
  gc_invisible (retry_sim nm fuel free) sz hg hm n hub

/-- Example: in `(car (append (list 3 4) (list 5)))` each call finds one free cell only, so that `append` and the first `list` are called twice. -/
example : ∃ s', steps none (fun _ => hostile) (builtinRetry Builtin.noNums 20 fun _ _ => 1) 60 (.next demoListM) = .fin s' (.atom 3) true := by
  obtain ⟨s, hs⟩ := demoListM_ends
  exact gc_atom (retry_sim _ _ _) none (fun _ => hostile_sound) demoListM_wf 60 (.inl ⟨3, rfl⟩) hs

end Verif.Gc
