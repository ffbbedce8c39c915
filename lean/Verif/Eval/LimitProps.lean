import Verif.Eval.Builtin
import Verif.Eval.AssocProps

/-!
# C125: a built-in function that runs out of memory is repeated after a collection

`call_fundamental` runs the function again after a collection if it reports `out_of_memory`. This is right only if the first attempt has changed nothing.
-/

namespace Verif.Eval

/-- `out_of_memory` (/repo/include/lbm_defines.h:156). -/
abbrev V.merror : V := .sym 0x23

/-- The execution of a program up to a jump, as `execP`, if there are only `b` free cells. A function that gets no cell ends with `out_of_memory`.
Simplified: `fundamental_append` goes on after a failed `lbm_cons`, but then the heap is full, all that follow fail too, and nothing is written. -/
def execB (fuel : Nat) (args : List V) (jump : Nat → Nat → (Nat → V) → St → PRes) : FProg → Nat → (Nat → V) → St → PRes
  | .ret r, _, g, s => cellRes s (g r)
  | .goto l, b, g, s => jump l b g s
  | .move d r k, b, g, s => execB fuel args jump k b (setReg g d (g r)) s
  | .car d r k, b, g, s => execB fuel args jump k b (setReg g d ((s.gcar (g r)).getD .terror)) s
  | .cdr d r k, b, g, s => execB fuel args jump k b (setReg g d ((s.gcdr (g r)).getD .terror)) s
  | .cons _ _ _ _, 0, _, s => .err s .merror
  | .cons d x y k, b + 1, g, s => execB fuel args jump k b (setReg g d (s.cons (g x) (g y)).2) (s.cons (g x) (g y)).1
  | .setCar r x k, b, g, s => execB fuel args jump k b g (s.setCar (g r) (g x))
  | .setCdr r x k, b, g, s => execB fuel args jump k b g (s.setCdr (g r) (g x))
  | .arg d r k, b, g, s => execB fuel args jump k b (setReg g d (match g r with | .u i => args[i]?.getD .nil | _ => .nil)) s
  | .comp d rs f k, b, g, s => execB fuel args jump k b (setReg g d (f (rs.map fun r => (g r).shape)).flat) s
  | .test rs t p q, b, g, s => if t (rs.map fun r => (g r).shape) then execB fuel args jump p b g s else execB fuel args jump q b g s
  | .same x y p q, b, g, s => if g x = g y then execB fuel args jump p b g s else execB fuel args jump q b g s
  | .eqv x y p q, b, g, s => if structEq fuel s (g x) (g y) then execB fuel args jump p b g s else execB fuel args jump q b g s

/-- At most `n` jumps, as `exec`. -/
def execBs (fuel : Nat) (code : Nat → FProg) (args : List V) : Nat → Nat → Nat → (Nat → V) → St → PRes
  | 0, _, _, _, s => .err s .fatal
  | n + 1, l, b, g, s => execB fuel args (execBs fuel code args n) (code l) b g s

/-- The store of a result. -/
def PRes.st : PRes → St
  | .ok s _ => s
  | .err s _ => s

/-- `s` is `s0` with more cells. -/
structure Grown (s0 s : St) : Prop where
  next : s0.next ≤ s.next
  cells : ∀ a, a < s0.next → s.car a = s0.car a ∧ s.cdr a = s0.cdr a
  globals : s.globals = s0.globals
  atomic : s.atomic = s0.atomic
  konts : s.konts = s0.konts
  nk : s.nk = s0.nk

theorem Grown.refl (s : St) : Grown s s := ⟨Nat.le_refl _, fun _ _ => ⟨rfl, rfl⟩, rfl, rfl, rfl, rfl⟩

theorem Grown.cons {s0 s : St} (h : Grown s0 s) (x y : V) : Grown s0 (s.cons x y).1 := by
  refine ⟨Nat.le_succ_of_le h.next, fun a ha => ?_, h.globals, h.atomic, h.konts, h.nk⟩
  have := Builtin.cons_old (x := x) (y := y) (show a < s.next from Nat.lt_of_lt_of_le ha h.next)
  rw [this.1, this.2]
  exact h.cells a ha

/-! ### Programs that write only when they need no more cells -/

/-- No cell is made, here and after jumps to labels in `W`. -/
def noCells (W : Nat → Bool) : FProg → Bool
  | .ret _ => true
  | .goto l => W l
  | .move _ _ k | .car _ _ k | .cdr _ _ k | .setCar _ _ k | .setCdr _ _ k | .arg _ _ k | .comp _ _ _ k => noCells W k
  | .cons _ _ _ _ => false
  | .test _ _ p q | .same _ _ p q | .eqv _ _ p q => noCells W p && noCells W q

/-- After a write no cell is made. -/
def lateWrites (W : Nat → Bool) : FProg → Bool
  | .ret _ => true
  | .goto _ => true
  | .move _ _ k | .car _ _ k | .cdr _ _ k | .arg _ _ k | .comp _ _ _ k | .cons _ _ _ k => lateWrites W k
  | .setCar _ _ k | .setCdr _ _ k => noCells W k
  | .test _ _ p q | .same _ _ p q | .eqv _ _ p q => lateWrites W p && lateWrites W q

/-- This holds at all labels. -/
structure TidyAt (W : Nat → Bool) (code : Nat → FProg) : Prop where
  tidy : ∀ l, Eval.lateWrites W (code l) = true
  noCells : ∀ l, W l = true → Eval.noCells W (code l) = true

theorem cellRes_st (s : St) (v : V) : (cellRes s v).st = s := by
  unfold cellRes
  split
  · split <;> rfl
  · rfl

theorem setCar_next (s : St) (v x : V) : (s.setCar v x).next = s.next := by cases v <;> rfl
theorem setCdr_next (s : St) (v x : V) : (s.setCdr v x).next = s.next := by cases v <;> rfl

theorem execP_next {fuel : Nat} {args : List V} {jump : Nat → (Nat → V) → St → PRes} (hj : ∀ l g s, s.next ≤ (jump l g s).st.next) :
    ∀ (p : FProg) (g : Nat → V) (s : St), s.next ≤ (execP fuel args jump p g s).st.next := by
  intro p
  induction p with
  | ret r => intro g s; simp only [execP, cellRes_st]; exact Nat.le_refl _
  | goto l => intro g s; exact hj l g s
  | cons d a b k ih => intro g s; exact Nat.le_trans (Nat.le_succ _) (ih (setReg g d (s.cons (g a) (g b)).2) (s.cons (g a) (g b)).1)
  | setCar r x k ih => intro g s; have := ih g (s.setCar (g r) (g x)); rw [setCar_next] at this; exact this
  | setCdr r x k ih => intro g s; have := ih g (s.setCdr (g r) (g x)); rw [setCdr_next] at this; exact this
  | move d r k ih | car d r k ih | cdr d r k ih | arg d r k ih | comp d rs f k ih => intro g s; exact ih _ s
  | test rs t p q ihp ihq | same a b p q ihp ihq | eqv a b p q ihp ihq =>
    intro g s
    unfold execP
    split
    · exact ihp g s
    · exact ihq g s

theorem exec_next {fuel : Nat} {code : Nat → FProg} {args : List V} : ∀ (n l : Nat) (g : Nat → V) (s : St), s.next ≤ (exec fuel code args n l g s).st.next
  | 0, _, _, _ => Nat.le_refl _
  | n + 1, l, g, s => execP_next (fun l g s => exec_next n l g s) (code l) g s

theorem execB_quiet {W : Nat → Bool} {fuel : Nat} {args : List V} {jump : Nat → (Nat → V) → St → PRes} {jumpB : Nat → Nat → (Nat → V) → St → PRes}
    (hj : ∀ l b g s, W l = true → jumpB l b g s = jump l g s) : ∀ (p : FProg) (b : Nat) (g : Nat → V) (s : St), noCells W p = true → execB fuel args jumpB p b g s = execP fuel args jump p g s := by
  intro p
  induction p with
  | ret r => intro b g s _; rfl
  | goto l => intro b g s h; exact hj l b g s h
  | cons d a b k ih => intro b g s h; simp [noCells] at h
  | move d r k ih | car d r k ih | cdr d r k ih | arg d r k ih | comp d rs f k ih | setCar r x k ih | setCdr r x k ih => intro b g s h; exact ih b _ _ h
  | test rs t p q ihp ihq | same x y p q ihp ihq | eqv x y p q ihp ihq =>
    intro b g s h
    simp only [noCells, Bool.and_eq_true] at h
    unfold execB execP
    rw [ihp b g s h.1, ihq b g s h.2]

theorem execBs_quiet {W : Nat → Bool} {fuel : Nat} {code : Nat → FProg} {args : List V} (hc : TidyAt W code) : ∀ (n l b : Nat) (g : Nat → V) (s : St), W l = true →
    execBs fuel code args n l b g s = exec fuel code args n l g s
  | 0, _, _, _, _, _ => rfl
  | n + 1, l, b, g, s, h => execB_quiet (fun l b g s h => execBs_quiet hc n l b g s h) (code l) b g s (hc.noCells l h)

/-- With `b` cells the result is the one with any number of cells, or `out_of_memory` with nothing changed; and the latter only if more than `b` cells are needed. -/
def Either (s0 s : St) (b : Nat) (r : PRes) (rB : PRes) : Prop := rB = r ∨ (∃ s', rB = .err s' .merror ∧ Grown s0 s') ∧ s.next + b < r.st.next

theorem execB_either {W : Nat → Bool} {fuel : Nat} {args : List V} {jump : Nat → (Nat → V) → St → PRes} {jumpB : Nat → Nat → (Nat → V) → St → PRes} {s0 : St}
    (hq : ∀ l b g s, W l = true → jumpB l b g s = jump l g s) (hn : ∀ l g s, s.next ≤ (jump l g s).st.next)
    (hj : ∀ l b g s, Grown s0 s → Either s0 s b (jump l g s) (jumpB l b g s)) :
    ∀ (p : FProg) (b : Nat) (g : Nat → V) (s : St), lateWrites W p = true → Grown s0 s → Either s0 s b (execP fuel args jump p g s) (execB fuel args jumpB p b g s) := by
  intro p
  induction p with
  | ret r => intro b g s _ _; exact .inl rfl
  | goto l => intro b g s _ h; exact hj l b g s h
  | cons d x y k ih =>
    intro b g s ht h
    cases b with
    | zero =>
      refine .inr ⟨⟨s, rfl, h⟩, ?_⟩
      exact Nat.lt_of_lt_of_le (Nat.lt_succ_self _) (execP_next (fuel := fuel) (args := args) hn k (setReg g d (s.cons (g x) (g y)).2) (s.cons (g x) (g y)).1)
    | succ b =>
      rcases ih b (setReg g d (s.cons (g x) (g y)).2) (s.cons (g x) (g y)).1 ht (h.cons _ _) with e | ⟨e, hlt⟩
      · exact .inl e
      · refine .inr ⟨e, ?_⟩
        have : (s.cons (g x) (g y)).1.next = s.next + 1 := rfl
        rw [this] at hlt
        show s.next + (b + 1) < (execP fuel args jump k (setReg g d (s.cons (g x) (g y)).2) (s.cons (g x) (g y)).1).st.next
        omega
  | setCar r x k ih => intro b g s ht h; exact .inl (execB_quiet hq k b g _ ht)
  | setCdr r x k ih => intro b g s ht h; exact .inl (execB_quiet hq k b g _ ht)
  | move d r k ih | car d r k ih | cdr d r k ih | arg d r k ih | comp d rs f k ih => intro b g s ht h; exact ih b _ s ht h
  | test rs t p q ihp ihq | same x y p q ihp ihq | eqv x y p q ihp ihq =>
    intro b g s ht h
    simp only [lateWrites, Bool.and_eq_true] at ht
    unfold execB execP
    split
    · exact ihp b g s ht.1 h
    · exact ihq b g s ht.2 h

theorem execBs_either {W : Nat → Bool} {fuel : Nat} {code : Nat → FProg} {args : List V} (hc : TidyAt W code) {s0 : St} : ∀ (n l b : Nat) (g : Nat → V) (s : St), Grown s0 s →
    Either s0 s b (exec fuel code args n l g s) (execBs fuel code args n l b g s)
  | 0, _, _, _, _, _ => .inl rfl
  | n + 1, l, b, g, s, h =>
    execB_either (fun l b g s h => execBs_quiet hc n l b g s h) (fun l g s => exec_next n l g s) (fun l b g s h => execBs_either hc n l b g s h) (code l) b g s (hc.tidy l) h

/-! ### A failed attempt leaves nothing behind -/

theorem inUse_grown {m : M} {s1 : St} (ha : Allocated m) (hg : Grown m.st s1) {v : V} (h : InUse { m with st := s1 } v) : InUse m v := by
  induction h with
  | root h =>
    refine .root ?_
    simp only [hg.globals] at h
    exact h
  | car _ ih => rw [show ({ m with st := s1 } : M).st.car = s1.car from rfl, (hg.cells _ (ha.1 _ ih)).1]; exact .car ih
  | cdr _ ih => rw [show ({ m with st := s1 } : M).st.cdr = s1.cdr from rfl, (hg.cells _ (ha.1 _ ih)).2]; exact .cdr ih
  | kont _ hv ih => simp only [hg.konts] at hv; exact .kont ih hv

theorem grown_inUse {m : M} {s1 : St} (ha : Allocated m) (hg : Grown m.st s1) {v : V} (h : InUse m v) : InUse { m with st := s1 } v := by
  induction h with
  | root h =>
    refine .root ?_
    simp only [hg.globals]
    exact h
  | car h0 ih => rw [← (hg.cells _ (ha.1 _ h0)).1]; exact .car ih
  | cdr h0 ih => rw [← (hg.cells _ (ha.1 _ h0)).2]; exact .cdr ih
  | kont _ hv ih => refine .kont ih ?_; simp only [hg.konts]; exact hv

/-- The collection after a failed attempt is a collection of the state before it. -/
theorem collected_grown {m m' : M} {s1 : St} {π κ : Nat → Nat} (ha : Allocated m) (hg : Grown m.st s1) (h : Collected { m with st := s1 } m' π κ) : Collected m m' π κ := by
  refine ⟨fun a b h1 h2 => h.cells_apart a b (grown_inUse ha hg h1) (grown_inUse ha hg h2), fun a b h1 h2 => h.stacks_apart a b (grown_inUse ha hg h1) (grown_inUse ha hg h2), fun a h1 => ?_,
    fun i h1 => ?_, fun n => ?_, ?_, h.K, h.r, h.exp, h.env, h.program, h.app, h.flags⟩
  · have := h.cells a (grown_inUse ha hg h1)
    simp only [(hg.cells a (ha.1 a h1)).1, (hg.cells a (ha.1 a h1)).2] at this
    exact this
  · have := h.stacks i (grown_inUse ha hg h1)
    simp only [hg.konts] at this
    exact this
  · have := h.globals n
    simp only [hg.globals] at this
    exact this
  · have := h.atomic
    simp only [hg.atomic] at this
    exact this

namespace Builtin

variable (nm : Nums)

/-- The label of the loop that writes to cells made before, the one of `lbm_list_copy` (/repo/src/heap.c:1138-1144): no cell is made from there on. -/
def late (l : Nat) : Bool := l = 17

theorem code_tidy : TidyAt late (code nm) := by
  constructor
  · intro l
    unfold code
    split <;> rfl
  · intro l h
    simp only [late, decide_eq_true_eq] at h
    subst h
    rfl

/-- The functions when `b` cells are free. -/
def primsB (fuel b : Nat) : Prims where
  run n args _ s :=
    match nm.fns n with
    | some f => cellRes s (f (args.map V.shape)).flat
    | none => execBs fuel (code nm) args fuel n b (startRegs args) s
  eq := (progPrims fuel (code nm)).eq

/-- C125: with `b` free cells a built-in function gives the result that it gives with any number of cells, or it reports `out_of_memory`; then every cell that there was is as it was, and nothing else has changed. The
latter happens only if the function needs more than `b` cells. -/
theorem C125_all_or_nothing (fuel b n : Nat) (args : List V) (env : V) (s : St) :
    (primsB nm fuel b).run n args env s = (prims nm fuel).run n args env s ∨
      (∃ s', (primsB nm fuel b).run n args env s = .err s' .merror ∧ Grown s s') ∧ s.next + b < ((prims nm fuel).run n args env s).st.next := by
  simp only [primsB, prims]
  cases nm.fns n with
  | some f => exact .inl rfl
  | none => exact execBs_either (code_tidy nm) fuel n b _ s (.refl s)

theorem RP.same {ρ : Ren} {s s' : St} {v v' : V} (h : RS ρ s s') (hv : RV ρ v v') : SameResult s v s' v' :=
  ⟨ρ, fun _ _ _ => h.fn, fun _ _ _ => h.inj, fun _ _ _ => h.kfn, fun _ _ _ => h.kinj, fun _ _ hc => (h.cells hc).2, fun _ _ hc => (h.konts hc).2, h.globals, h.atomic, hv⟩

/-- Results that are the same except for addresses. -/
def SameRes : PRes → PRes → Prop
  | .ok s v, .ok s' v' => SameResult s v s' v'
  | .err s v, .err s' v' => SameResult s v s' v'
  | _, _ => False

/-- C125: if a built-in function runs out of memory, the second attempt after a collection gives the result that the first one would have given with enough memory, or it runs out of memory again, which happens only if
the function needs more cells than the collection has left free. -/
theorem C125_retry (fuel b1 b2 n : Nat) {m m' : M} (ha : Allocated m) {args : List V} {env : V} (hargs : ∀ v ∈ args, InUse m v) (henv : InUse m env) {s1 : St}
    (h1 : (primsB nm fuel b1).run n args env m.st = .err s1 .merror) (hfail : (prims nm fuel).run n args env m.st ≠ .err s1 .merror)
    {π κ : Nat → Nat} (hc : Collected { m with st := s1 } m' π κ) (hn : m.st.next ≤ m'.st.next) :
    SameRes ((prims nm fuel).run n args env m.st) ((primsB nm fuel b2).run n (args.map (·.moved π κ)) (env.moved π κ) m'.st) ∨
      ((∃ s', (primsB nm fuel b2).run n (args.map (·.moved π κ)) (env.moved π κ) m'.st = .err s' .merror ∧ Grown m'.st s') ∧
        m'.st.next + b2 < ((prims nm fuel).run n (args.map (·.moved π κ)) (env.moved π κ) m'.st).st.next) := by
  have hg : Grown m.st s1 := by
    rcases C125_all_or_nothing nm fuel b1 n args env m.st with e | ⟨⟨s', e, hg⟩, _⟩
    · exact absurd (e.symm.trans h1) hfail
    · rw [h1] at e
      injection e with e
      rw [e]
      exact hg
  have hcol := collected_grown ha hg hc
  have hrm := (hcol.rel ha).rm hn
  have hl : ∀ l : List V, (∀ v ∈ l, InUse m v) → RL (renOf m π κ) l (l.map (·.moved π κ)) := by
    intro l
    induction l with
    | nil => intro _; exact .nil
    | cons x l ih => intro h; exact .cons (rv_moved (h x List.mem_cons_self)) (ih fun v hv => h v (List.mem_cons_of_mem _ hv))
  obtain ⟨ρ', _, hp⟩ := (C122_blind nm fuel).run (renOf m π κ) n args _ env _ m.st m'.st hrm.st (hl args hargs) (rv_moved henv)
  rcases C125_all_or_nothing nm fuel b2 n (args.map (·.moved π κ)) (env.moved π κ) m'.st with e | e
  · left
    rw [e]
    revert hp
    generalize (prims nm fuel).run n args env m.st = r1
    generalize (prims nm fuel).run n _ _ m'.st = r2
    intro hp
    cases hp with
    | ok h hv => exact RP.same h hv
    | err h hv => exact RP.same h hv
  · exact .inr e

/-- The call of a built-in function, `/repo/src/eval_cps.c:669-690`: a result that is not `out_of_memory` counts, else memory is collected and the function is called a second time with the same arguments, where the
collector has put them. There are `b1` free cells before and `b2` after the collection. The result is the machine state in which the call was made and what the call gave. -/
inductive Called (fuel b1 b2 n : Nat) (m : M) (args : List V) (env : V) : M → PRes → Prop
  | once {r} : (primsB nm fuel b1).run n args env m.st = r → (∀ s, r ≠ .err s .merror) → Called fuel b1 b2 n m args env m r
  | again {s1 m' π κ} : (primsB nm fuel b1).run n args env m.st = .err s1 .merror → Collected { m with st := s1 } m' π κ → m.st.next ≤ m'.st.next →
      Called fuel b1 b2 n m args env m' ((primsB nm fuel b2).run n (args.map (·.moved π κ)) (env.moved π κ) m'.st)

/-- C125: a call of a built-in function gives the result that the function gives when memory never runs out, or `out_of_memory`; in this case everything in use is as it was, or has only been moved. The condition is
that the function does not itself give `out_of_memory` as a value. -/
theorem C125_called (fuel b1 b2 n : Nat) {m : M} (ha : Allocated m) {args : List V} {env : V} (hargs : ∀ v ∈ args, InUse m v) (henv : InUse m env)
    (hfail : ∀ s, (prims nm fuel).run n args env m.st ≠ .err s .merror) {m' : M} {r : PRes} (h : Called nm fuel b1 b2 n m args env m' r) :
    r = (prims nm fuel).run n args env m.st ∨ SameRes ((prims nm fuel).run n args env m.st) r ∨
      ∃ s π κ, r = .err s .merror ∧ Grown m'.st s ∧ Collected m m' π κ := by
  cases h with
  | once h1 hne =>
    rcases C125_all_or_nothing nm fuel b1 n args env m.st with e | ⟨⟨s', e, _⟩, _⟩
    · exact .inl (h1.symm.trans e)
    · exact absurd (h1.symm.trans e) (hne s')
  | again h1 hc hn =>
    rcases C125_retry nm fuel b1 b2 n ha hargs henv h1 (hfail _) hc hn with e | ⟨⟨s', e, hg⟩, _⟩
    · exact .inr (.inl e)
    · refine .inr (.inr ⟨s', _, _, e, hg, collected_grown ha ?_ hc⟩)
      rcases C125_all_or_nothing nm fuel b1 n args env m.st with e | ⟨⟨s', e, hg⟩, _⟩
      · exact absurd (e.symm.trans h1) (hfail _)
      · rw [h1] at e
        injection e with e
        rw [e]
        exact hg

/-! ### Examples -/

/-- `append` of a list of two elements with two free cells and with one. -/
example : ∃ s' a, (primsB noNums 20 2).run 0x20015 [.cons 4, .cons 4] .nil twice = .ok s' (.cons a) := ⟨_, _, rfl⟩
example : ∃ s', (primsB noNums 20 1).run 0x20015 [.cons 4, .cons 4] .nil twice = .err s' .merror := ⟨_, rfl⟩

/-- A machine whose result register holds the list. -/
def full : M := { K := [], r := .cons 4, exp := .nil, env := .nil, app := true, flags := 0, program := .nil, st := twice }

theorem full_allocated : Allocated full := by
  refine allocated_of_check ?_ (by decide) (fun v hv => by simp [full] at hv) (fun _ => rfl)
  have : ∀ a, a < 6 → (full.st.car a).below full.st.next = true ∧ (full.st.cdr a).below full.st.next = true := by decide
  exact this

theorem allocated_grown {m : M} {s1 : St} (ha : Allocated m) (hg : Grown m.st s1) : Allocated { m with st := s1 } :=
  ⟨fun a h => Nat.lt_of_lt_of_le (ha.1 a (inUse_grown ha hg h)) hg.next, fun i h => by have := ha.2 i (inUse_grown ha hg h); rw [← hg.nk] at this; exact this⟩

/-- The store after the first attempt of `append` with one free cell. -/
def failed : St := ((primsB noNums 20 1).run 0x20015 [.cons 4, .cons 4] .nil full.st).st

/-- With one free cell the first attempt fails; the collection moves everything by three cells and makes two free; the second attempt succeeds. -/
example : ∃ m' s' a, Called noNums 20 1 2 0x20015 full [.cons 4, .cons 4] .nil m' (.ok s' (.cons a)) ∧ (∀ v ∈ [V.cons 4, .cons 4], InUse full v) ∧ InUse full .nil ∧
    ∀ s, (prims noNums 20).run 0x20015 [.cons 4, .cons 4] .nil full.st ≠ .err s .merror := by
  have hu : InUse full (.cons 4) := .root (.inl rfl)
  have e : (primsB noNums 20 1).run 0x20015 [.cons 4, .cons 4] .nil full.st = .err failed .merror := rfl
  obtain ⟨s2, a2, e2⟩ : ∃ s' a, (prims noNums 20).run 0x20015 [.cons 4, .cons 4] .nil full.st = .ok s' (.cons a) := ⟨_, _, rfl⟩
  have hg : Grown full.st failed := by
    rcases C125_all_or_nothing noNums 20 1 0x20015 [.cons 4, .cons 4] .nil full.st with h | ⟨⟨s', h, hg⟩, _⟩
    · rw [e, e2] at h; cases h
    · rw [e] at h; injection h with h; rw [h]; exact hg
  have hs : full.st.next ≤ failed.next + 3 := Nat.le_trans hg.next (Nat.le_add_right _ _)
  have hc := shift_collected 3 .tru (allocated_grown full_allocated hg)
  have hcall := Called.again (nm := noNums) (fuel := 20) (b1 := 1) (b2 := 2) (n := 0x20015) (m := full) (args := [.cons 4, .cons 4]) (env := .nil) e hc hs
  obtain ⟨s3, a3, e3⟩ : ∃ s' a, (primsB noNums 20 2).run 0x20015 [.cons 7, .cons 7] .nil (M.shift 3 .tru { full with st := failed }).st = .ok s' (.cons a) := ⟨_, _, rfl⟩
  exact ⟨_, s3, a3, e3 ▸ hcall, by simpa using hu, .root (.inr (.inl rfl)), fun s h => by rw [e2] at h; cases h⟩

end Builtin
end Verif.Eval
