import Verif.Gc.Demo
import Verif.Eval.StoreProps

/-!
# Properties C73 and C74: garbage collection is invisible
-/

namespace Verif.Gc

open Verif.Eval

/-- Every value is related with itself, as far as it is reachable. -/
abbrev idc (s : St) (R : List V) (a b : Nat) : Prop := a = b ∧ Reach s R (.cons a)

abbrev idk (s : St) (R : List V) (a b : Nat) : Prop := a = b ∧ Reach s R (.arr a)

theorem VR.self {s : St} {R : List V} {v : V} (h : Live s R v) : VR (idc s R) (idk s R) v v := by
  cases v with
  | cons a => exact .cons ⟨rfl, h⟩
  | arr a => exact .arr ⟨rfl, h⟩
  | _ => constructor

theorem WR.self {s : St} {R : List V} {K : List W} (h : ∀ x, W.v x ∈ K → Live s R x) : KR (idc s R) (idk s R) K K := by
  induction K with
  | nil => exact .nil
  | cons w K ih =>
    refine .cons ?_ (ih fun x hx => h x (by simp [hx]))
    cases w with
    | v x => exact .v (.self (h x (by simp)))
    | k n => exact .k n
    | raw n => exact .raw n
    | junk => exact .junk

theorem Agree.self {s : St} {R : List V} (hc : ∀ a, Reach s R (.cons a) → a < s.next) (hk : ∀ n, Reach s R (.arr n) → n < s.nk) :
    Agree (idc s R) (idk s R) s s where
  rfun := by rintro a b b' ⟨rfl, -⟩ ⟨rfl, -⟩; rfl
  rinj := by rintro a a' b ⟨rfl, -⟩ ⟨rfl, -⟩; rfl
  kfun := by rintro a b b' ⟨rfl, -⟩ ⟨rfl, -⟩; rfl
  kinj := by rintro a a' b ⟨rfl, -⟩ ⟨rfl, -⟩; rfl
  cars := by rintro a b ⟨rfl, h⟩; exact .self (Reach.car h).live
  cdrs := by rintro a b ⟨rfl, h⟩; exact .self (Reach.cdr h).live
  kont := by rintro a b ⟨rfl, h⟩; exact WR.self fun x hx => (Reach.kont h hx).live
  glob i := .self (Reach.glob i).live
  atomic := rfl
  lt := by rintro a b ⟨rfl, h⟩; exact hc _ h
  klt := by rintro a b ⟨rfl, h⟩; exact hk _ h
  nle := Nat.le_refl _

theorem MR.self {m : M} (h : WF m) : MR (idc m.st (roots m)) (idk m.st (roots m)) m m where
  st := .self h.1 h.2
  r := .self (.root (by simp [roots]))
  exp := .self (.root (by simp [roots]))
  env := .self (.root (by simp [roots]))
  program := .self (.root (by simp [roots]))
  K := WR.self fun x hx => .root (by simp [roots, mem_vals.2 hx])
  flags := rfl
  app := rfl

theorem Same.of_rel {ρ κ : Nat → Nat → Prop} {s s' : St} (h : Agree ρ κ s s') {f f' : Nat → V} (hf : ∀ i, VR ρ κ (f i) (f' i)) : Same s f s' f' := by
  refine ⟨fun i p => map_label_rel (look_rel h (hf i) p), fun i p j q => ?_⟩
  have h1 := look_rel h (hf i) p
  have h2 := look_rel h (hf j) q
  generalize look s (f i) p = a, look s' (f' i) p = a' at h1 ⊢
  generalize look s (f j) q = b, look s' (f' j) q = b' at h2 ⊢
  cases h1 with
  | none =>
    cases h2 with
    | none => simp
    | some _ => simp
  | some h1 =>
    cases h2 with
    | none => simp
    | some h2 => simp [h1.eq_iff h h2]

theorem view_rel {ρ κ : Nat → Nat → Prop} {s s' : St} (h : Agree ρ κ s s') {v v' : V} (hv : VR ρ κ v v') (i : Nat) : VR ρ κ (view s v i) (view s' v' i) := by
  cases i with
  | zero => exact hv
  | succ i => exact h.glob i

theorem SameOutcome.of_rel {o o' : Out} (h : OutRel o o') (hn : o ≠ .ub) : SameOutcome o o' := by
  cases o with
  | ub => exact absurd rfl hn
  | next m =>
    cases o' with
    | next m' =>
      obtain ⟨ρ, κ, h⟩ := h
      exact Same.of_rel h.st (view_rel h.st h.r)
    | _ => exact h
  | fin s v ok =>
    cases o' with
    | fin s' v' ok' =>
      obtain ⟨h1, ρ, κ, h, hv⟩ := h
      exact ⟨h1, Same.of_rel h (view_rel h hv)⟩
    | _ => exact h
  | out =>
    cases o' with
    | out => trivial
    | _ => exact h

/-- **C73.** Garbage collection is invisible to evaluation. Whatever the collector does with cells that are not reachable from the registers, the stack and the
global environment, and whichever free cells the allocator takes, and however often it runs (before every step, and at every allocation within a step, with a collector that may be
a different one each time): after any number of steps the machine is in a state that no program can tell from that of a machine that never
frees a cell. It is still running with the same value in the register and the same global variables, or it has ended in the same way with the same value and the same global variables.
The fundamental operations and extensions are assumed to have the same property (`PSim`), which `listPrims_sim` shows for those of the examples. -/
theorem gc_invisible {P : Prims} {PG : PrimsG} (hP : PSim P PG) (sz : Option Nat) {g : Nat → Gc} (hg : ∀ k, Sound (g k)) {m : M} (hm : WF m) (n : Nat)
    (hub : Eval.steps sz P n (.next m) ≠ .ub) : SameOutcome (Eval.steps sz P n (.next m)) (steps sz g PG n (.next m)) :=
  .of_rel (steps_rel hP n hg ⟨_, _, .self hm⟩) hub

theorem Same.symm {s s' : St} {f f' : Nat → V} (h : Same s f s' f') : Same s' f' s f := ⟨fun i p => (h.1 i p).symm, fun i p j q => (h.2 i p j q).symm⟩

theorem Same.trans {s s' s2 : St} {f f' f2 : Nat → V} (h : Same s f s' f') (h' : Same s' f' s2 f2) : Same s f s2 f2 :=
  ⟨fun i p => (h.1 i p).trans (h'.1 i p), fun i p j q => (h.2 i p j q).trans (h'.2 i p j q)⟩

theorem SameOutcome.symm {o o' : Out} (h : SameOutcome o o') : SameOutcome o' o := by
  cases o <;> cases o' <;> first | exact h | exact Same.symm h | exact ⟨h.1.symm, h.2.symm⟩

theorem SameOutcome.trans {o o' o2 : Out} (h : SameOutcome o o') (h' : SameOutcome o' o2) : SameOutcome o o2 := by
  cases o <;> cases o' <;> cases o2 <;> first | exact h | exact h' | exact Same.trans h h' | exact ⟨h.1.trans h'.1, h.2.trans h'.2⟩ | trivial

/-- **C73**, comparing two machines with different collectors: when and how the collector runs makes no difference. -/
theorem gc_schedule_invisible {P : Prims} {PG : PrimsG} (hP : PSim P PG) (sz : Option Nat) {g g' : Nat → Gc} (hg : ∀ k, Sound (g k)) (hg' : ∀ k, Sound (g' k)) {m : M} (hm : WF m) (n : Nat)
    (hub : Eval.steps sz P n (.next m) ≠ .ub) : SameOutcome (steps sz g PG n (.next m)) (steps sz g' PG n (.next m)) :=
  (gc_invisible hP sz hg hm n hub).symm.trans (gc_invisible hP sz hg' hm n hub)

/-- **C73**, for programs that end with a number or a symbol: they end with the same one. -/
theorem gc_atom {P : Prims} {PG : PrimsG} (hP : PSim P PG) (sz : Option Nat) {g : Nat → Gc} (hg : ∀ k, Sound (g k)) {m : M} (hm : WF m) (n : Nat)
    {s : St} {v : V} {ok : Bool} (hv : (∃ k, v = .atom k) ∨ ∃ k, v = .sym k) (h : Eval.steps sz P n (.next m) = .fin s v ok) :
    ∃ s', steps sz g PG n (.next m) = .fin s' v ok := by
  have := gc_invisible hP sz hg hm n (by rw [h]; simp)
  rw [h] at this
  cases ho : steps sz g PG n (.next m) with
  | fin s' v' ok' =>
    rw [ho] at this
    obtain ⟨rfl, h1, -⟩ := this
    have := h1 0 []
    simp only [view, look, Option.map_some, Option.some.injEq] at this
    rcases hv with ⟨k, rfl⟩ | ⟨k, rfl⟩ <;> cases v' <;> simp [label] at this <;> subst this <;> exact ⟨_, rfl⟩
  | _ => rw [ho] at this; exact this.elim

/-! ## A program that is run with a collector that destroys all it may -/

/-- A value that is no cell, or an allocated one. -/
def okV (s : St) : V → Bool
  | .cons a => decide (a < s.next)
  | .arr _ => false
  | _ => true

theorem reach_okV {s : St} {R : List V} (hR : ∀ v ∈ R, okV s v = true) (hg : ∀ i, okV s (s.globals i) = true)
    (hs : ∀ a, a < s.next → okV s (s.car a) = true ∧ okV s (s.cdr a) = true) {v : V} (h : Reach s R v) : okV s v = true := by
  induction h with
  | root h => exact hR _ h
  | glob i => exact hg i
  | car _ ih => exact (hs _ (by simpa [okV] using ih)).1
  | cdr _ ih => exact (hs _ (by simpa [okV] using ih)).2
  | kont _ _ ih => simp [okV] at ih

theorem wf_of_okV {m : M} (hR : ∀ v ∈ roots m, okV m.st v = true) (hg : ∀ i, okV m.st (m.st.globals i) = true)
    (hs : ∀ a, a < m.st.next → okV m.st (m.st.car a) = true ∧ okV m.st (m.st.cdr a) = true) : WF m :=
  ⟨fun a h => by simpa [okV] using reach_okV hR hg hs h, fun n h => by simpa [okV] using reach_okV hR hg hs h⟩

/-- `(let ((l (list 1 2))) (progn (cons 3 4) (define x (lambda (y) (+ y (car l)))) (trap (x (car (cdr l))))))` -/
def demoProg : Sx :=
  .l [.s 0x105, .l [.l [.v 0, .l [.s 0x20014, .n 1, .n 2]]], .l [.s 0x102, .l [.s 0x20011, .n 3, .n 4],
    .l [.s 0x101, .v 1, .l [.s 0x103, .l [.v 2], .l [.s 0x20000, .v 2, .l [.s 0x20012, .v 0]]]],
    .l [.v 1, .l [.s 0x20012, .l [.s 0x20013, .v 0]]]]]

/-- The machine that evaluates `demoProg`. -/
def demoM : M := ⟨[.k 0], .nil, (load demoProg st0).2, .nil, false, 0, .nil, (load demoProg st0).1⟩

theorem demoM_wf : WF demoM := by
  refine wf_of_okV ?_ (fun _ => rfl) ?_
  · decide +kernel
  · decide +kernel

theorem demoM_ends : ∃ s, Eval.steps none listPrims 60 (.next demoM) = .fin s (.atom 3) true := by
  have h : (match Eval.steps none listPrims 60 (.next demoM) with | .fin _ v ok => decide (v = .atom 3 ∧ ok = true) | _ => false) = true := by decide +kernel
  revert h
  generalize Eval.steps none listPrims 60 (.next demoM) = o
  intro h
  cases o with
  | fin s v ok =>
    simp only [decide_eq_true_eq] at h
    obtain ⟨rfl, rfl⟩ := h
    exact ⟨s, rfl⟩
  | _ => cases h

/-- The hypotheses of `gc_invisible` and `gc_atom` can be met: the program ends with 3 although every cell that is not in use is destroyed at every step and at every allocation. -/
example : ∃ s', steps none (fun _ => hostile) listPrimsG 60 (.next demoM) = .fin s' (.atom 3) true := by
  obtain ⟨s, hs⟩ := demoM_ends
  exact gc_atom listPrims_sim none (fun _ => hostile_sound) demoM_wf 60 (.inl ⟨3, rfl⟩) hs

example : SameOutcome (Eval.steps none listPrims 20 (.next demoM)) (steps none (fun _ => hostile) listPrimsG 20 (.next demoM)) := by
  refine gc_invisible listPrims_sim none (fun _ => hostile_sound) demoM_wf 20 ?_
  have h : (match Eval.steps none listPrims 20 (.next demoM) with | .next _ => true | _ => false) = true := by decide +kernel
  intro h'
  rw [h'] at h
  cases h

/-- The collector of the example does destroy what is not reachable. -/
example : ((hostile.collect [] { st0 with car := fun _ => .atom 7, next := 1 }).car 0) = .sym 0x28 := by
  have h : ¬ Reach { st0 with car := fun _ => .atom 7, next := 1 } [] (.cons 0) := by
    have : ∀ v, Reach { st0 with car := fun _ => .atom 7, next := 1 } [] v → v = .nil := by
      intro v h
      induction h with
      | root h => cases h
      | glob i => rfl
      | car _ ih => cases ih
      | cdr _ ih => cases ih
      | kont _ _ ih => cases ih
    intro h
    exact absurd (this _ h) (by decide)
  simp [hostile, h]

/-! ## C74: definitions that arrive as events -/

/-- `handle_event_define`, `src/eval_cps.c:5266-5279`: the value comes from a flat value or is given by the host. If there is no free cell the collector runs,
with the roots `R` of the contexts (`WITH_GC`, not `WITH_GC_RMBR_1`): the value is not among them. -/
def handleEventDefine (g : Gc) (R : List V) (s : St) (n : Nat) (val : V) : Option St := define g R s n val

open Classical in
/-- `hostile`, but it runs only when there are no roots other than the global environment, and the allocator takes the next cell if it is free. -/
noncomputable def hostile2 : Gc where
  collect R s := if R = [] then hostile.collect R s else s
  pick R s := if Reach s R (.cons s.next) then hostile.pick R s else s.next
  pickArr := hostile.pickArr

theorem hostile2_sound : Sound hostile2 where
  car R s a h := by simp only [hostile2]; split <;> simp [hostile_sound.car, h]
  cdr R s a h := by simp only [hostile2]; split <;> simp [hostile_sound.cdr, h]
  konts R s n h := by simp only [hostile2]; split <;> simp [hostile_sound.konts, h]
  globals R s := by simp only [hostile2]; split <;> rfl
  atomic R s := by simp only [hostile2]; split <;> rfl
  next R s := by simp only [hostile2]; split <;> rfl
  fresh R s h := by
    by_cases hn : Reach s R (.cons s.next)
    · have e : hostile2.pick R s = hostile.pick R s := if_pos hn
      rw [e]
      exact hostile_sound.fresh R s h
    · have e : hostile2.pick R s = s.next := if_neg hn
      rw [e]
      exact hn
  freshArr := hostile_sound.freshArr

/-- A heap with the list `(7)` that was made by unflattening a value. -/
def evSt : St := { st0 with car := fun i => if i = 0 then .atom 7 else .nil, next := 1 }

theorem reach_nil {s : St} (h0 : ∀ i, s.globals i = .nil) {v : V} (h : Reach s [] v) : v = .nil := by
  induction h with
  | root h => cases h
  | glob i => exact h0 i
  | car _ ih => cases ih
  | cdr _ ih => cases ih
  | kont _ _ ih => cases ih

/-- The same heap after the collection: the list has been overwritten. -/
def evSt1 : St := { st0 with car := fun _ => .sym 0x28, next := 1 }

/-- The heap after the first of the two cells of the binding has been made. -/
def evSt2 : St := { st0 with car := fun i => if i = 1 then .sym 0x40000 else .sym 0x28, cdr := fun i => if i = 1 then .cons 0 else .nil, next := 2 }

/-- The heap after the second one. -/
def evSt3 : St := { evSt2 with car := fun i => if i = 2 then .cons 1 else evSt2.car i, cdr := fun i => if i = 2 then .nil else evSt2.cdr i, next := 3 }

/-- **C74, violated.** A list is defined through an event, there is no free cell, and the collector frees the list before it is stored: the variable is bound to a
freed cell. (Here the freed cell has been overwritten; it is as well possible that it is used again for something else.) -/
theorem event_define_violated : ∃ (g : Gc) (R : List V) (s : St) (n : Nat) (val : V) (s1 : St) (v : V), Sound g ∧
    handleEventDefine g R s n val = some s1 ∧ s1.glookup n = some (some v) ∧ ¬ Same s (fun _ => val) s1 (fun _ => v) := by
  refine ⟨hostile2, [], evSt, 0x40000, .cons 0, { evSt3 with globals := fun i => if i = 0 then .cons 2 else .nil }, .cons 0, hostile2_sound, ?_, by rfl, ?_⟩
  · have hc : hostile2.collect [] evSt = evSt1 := by
      have hk : ∀ n, ¬ Reach evSt [] (.arr n) := fun a h => absurd (reach_nil (fun _ => rfl) h) (by simp [V.nil])
      have hr0 : ∀ a, ¬ Reach evSt [] (.cons a) := fun a h => absurd (reach_nil (fun _ => rfl) h) (by simp [V.nil])
      simp only [hostile2, if_pos, hostile, hr0, hk, if_false]
      rfl
    have hp : hostile2.pick [] evSt1 = 1 :=
      if_neg fun h => absurd (reach_nil (fun _ => rfl) h) (by simp [V.nil])
    have h1 : hostile2.cons [] evSt (.sym 0x40000) (.cons 0) = (evSt2, .cons 1) := by
      simp only [Gc.cons, hc, hp]
      rfl
    have hc2 : hostile2.collect [.cons 1] evSt2 = evSt2 := by simp [hostile2]
    have hp2 : hostile2.pick [.cons 1] evSt2 = 2 := by
      refine if_neg fun h => ?_
      have := reach_okV (s := evSt2) (R := [.cons 1]) (by decide) (fun _ => rfl) (by decide) h
      revert this
      decide
    have h2 : hostile2.cons [.cons 1] evSt2 (.cons 1) .nil = (evSt3, .cons 2) := by
      simp only [Gc.cons, hc2, hp2]
      rfl
    have hf : evSt.findPair (.sym 0x40000) (evSt.next + 1) (evSt.globals (0x40000 % 32)) = some none := rfl
    simp only [handleEventDefine, define, envSet, hf, h1]
    have hg : evSt.globals (0x40000 % 32) = .nil := rfl
    rw [hg, h2]
    rfl
  · intro h
    have := h.1 0 [true]
    revert this
    decide

/-- The value of a variable after it has been defined for the first time. -/
theorem define_new {s s1 : St} {n : Nat} {val : V} {ps : List Nat} (h : EnvCells s (s.globals (n % 32)) ps) (hf : ps.length ≤ s.next)
    (hn : ∀ p, p ∈ ps → s.car p ≠ .sym n) (e : s.define n val = some s1) :
    s1.glookup n = some (some val) ∧ (∀ i, i < s.next → s1.car i = s.car i ∧ s1.cdr i = s.cdr i) := by
  obtain ⟨s', e', h1⟩ := define_spec (val := val) h hf
  rw [e] at e'
  cases e'
  rcases h1 with ⟨p, ⟨l, r, rfl, hp, -⟩, -⟩ | ⟨-, h1, hg⟩
  · exact absurd hp (hn p (by simp))
  · refine ⟨?_, fun i hi => ⟨h1.car i hi, h1.cdr i hi⟩⟩
    simp [St.glookup, hg, St.glookupLoop, h1.spine.1, h1.pair.1, h1.pair.2]

theorem look_frame {s s1 : St} {R : List V} (hc : ∀ a, Reach s R (.cons a) → a < s.next) (h1 : ∀ i, i < s.next → s1.car i = s.car i ∧ s1.cdr i = s.cdr i)
    {v : V} (hv : Live s R v) (p : List Bool) : look s1 v p = look s v p := by
  induction p generalizing v with
  | nil => cases v <;> rfl
  | cons b p ih =>
    cases v with
    | cons a =>
      have ha := h1 a (hc a hv)
      cases b with
      | true =>
        simp only [look, ha.1]
        exact ih (Reach.car hv).live
      | false =>
        simp only [look, ha.2]
        exact ih (Reach.cdr hv).live
    | _ => cases b <;> rfl

/-- **C74, in part.** A value that is defined through an event for the first time is found again unharmed, whatever the collector does meanwhile, provided that it is a number, a symbol or
something that a context or the global environment refers to.
Missing: the general case, which `event_define_violated` refutes, and redefinitions. -/
theorem event_define_partial {g : Gc} (hg : Sound g) {R : List V} {s : St} {n : Nat} {val : V}
    (hc : ∀ a, Reach s R (.cons a) → a < s.next) (hk : ∀ n, Reach s R (.arr n) → n < s.nk)
    {ps : List Nat} (he : EnvCells s (s.globals (n % 32)) ps) (hf : ps.length ≤ s.next) (hn : ∀ p, p ∈ ps → s.car p ≠ .sym n)
    (hval : (∃ k, val = .atom k) ∨ (∃ k, val = .sym k) ∨ Reach s R val) :
    ∃ s1 v, handleEventDefine g R s n val = some s1 ∧ s1.glookup n = some (some v) ∧ Same s (fun _ => val) s1 (fun _ => v) := by
  have hl : Live s R val := by
    rcases hval with ⟨k, rfl⟩ | ⟨k, rfl⟩ | h
    · trivial
    · trivial
    · exact h.live
  obtain ⟨s1, e, -⟩ := define_spec (val := val) he hf
  obtain ⟨h1, h2⟩ := define_new he hf hn e
  have hA := Agree.self hc hk
  obtain ⟨s1', e', ρ1, κ1, hA1, hv⟩ := define_rel hg hA (fun x hx => ⟨x, .self (.root hx)⟩) n (.self hl) hl e
  obtain ⟨r', e2, hr⟩ := glookup_rel hA1 n h1
  cases hr with
  | some hr =>
    refine ⟨s1', _, e', e2, ?_⟩
    have := Same.of_rel hA1 (f := fun _ => val) (f' := fun _ => _) (fun _ => hr)
    simp only [Same, look_frame hc h2 hl] at this ⊢
    exact this

/-- The hypotheses of `event_define_partial` can be met: a number, and a list that is bound to another variable. -/
example : ∃ s1 v, handleEventDefine hostile [] evSt 0x40000 (.atom 9) = some s1 ∧ s1.glookup 0x40000 = some (some v) ∧ Same evSt (fun _ => .atom 9) s1 (fun _ => v) := by
  refine event_define_partial hostile_sound ?_ ?_ (ps := []) (.nil (by intro a h; cases h)) (by simp) (by simp) (.inl ⟨9, rfl⟩)
  · intro a h
    exact absurd (reach_nil (fun _ => rfl) h) (by simp [V.nil])
  · intro a h
    exact absurd (reach_nil (fun _ => rfl) h) (by simp [V.nil])

end Verif.Gc
