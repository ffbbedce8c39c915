import Verif.Eval.RenProps

/-!
# Built-in functions as programs over the heap

The functions of `src/fundamental.c` that work on lists use the heap in a few ways only: they take the `car` and the `cdr` of a value, make cells, change cells,
ask what kind of value they have, compare values and compute with numbers. `FProg` are programs that do this. They have registers for values and can jump, so
that loops can be written; they cannot look at the address of a cell.
-/

namespace Verif.Eval

/-- What a program may see of a value without following references: everything of a value that is not a reference, and the kind of a reference. -/
def V.shape : V → V
  | .cons _ => .cons 0
  | .arr _ => .arr 0
  | v => v

/-- The results of computations are not references. -/
def V.flat : V → V
  | .cons _ => .nil
  | .arr _ => .nil
  | v => v

/-- Programs. Registers and labels are numbers. -/
inductive FProg
  /-- The result is the value of a register. -/
  | ret (r : Nat)
  | goto (l : Nat)
  | move (d r : Nat) (k : FProg)
  /-- `lbm_car`, `src/heap.c:956-968`. -/
  | car (d r : Nat) (k : FProg)
  /-- `lbm_cdr`, `src/heap.c:1005-1016`. -/
  | cdr (d r : Nat) (k : FProg)
  /-- `lbm_cons`, `src/heap.c:952-954`; there is always a free cell, see `Prims`. -/
  | cons (d a b : Nat) (k : FProg)
  /-- `lbm_set_car`, `src/heap.c:1029-1038`. -/
  | setCar (r x : Nat) (k : FProg)
  /-- `lbm_set_cdr`, `src/heap.c:1040-1049`. -/
  | setCdr (r x : Nat) (k : FProg)
  /-- `args[i]`, where `i` is the number in register `r`. -/
  | arg (d r : Nat) (k : FProg)
  /-- A computation with numbers and symbols. -/
  | comp (d : Nat) (rs : List Nat) (f : List V → V) (k : FProg)
  /-- A branch that depends on numbers, symbols and kinds of values. -/
  | test (rs : List Nat) (t : List V → Bool) (p q : FProg)
  /-- A branch that depends on whether two words are the same. -/
  | same (a b : Nat) (p q : FProg)
  /-- A branch that depends on `struct_eq`. -/
  | eqv (a b : Nat) (p q : FProg)

/-- `struct_eq`, `src/fundamental.c:241-279`, for cells and values without parts. `f` bounds the depth. Simplified: arrays (here only captured stacks) are the same
if they are the same array. -/
def structEq : Nat → St → V → V → Bool
  | 0, _, _, _ => false
  | f + 1, s, .cons a, .cons b => structEq f s (s.car a) (s.car b) && structEq f s (s.cdr a) (s.cdr b)
  | _ + 1, _, v, w => decide (v = w)

def setReg (g : Nat → V) (d : Nat) (v : V) : Nat → V := fun i => if i = d then v else g i

/-- The execution of a program up to a jump; `jump` says what happens then. -/
def execP (fuel : Nat) (args : List V) (jump : Nat → (Nat → V) → St → PRes) : FProg → (Nat → V) → St → PRes
  | .ret r, g, s => cellRes s (g r)
  | .goto l, g, s => jump l g s
  | .move d r k, g, s => execP fuel args jump k (setReg g d (g r)) s
  | .car d r k, g, s => execP fuel args jump k (setReg g d ((s.gcar (g r)).getD .terror)) s
  | .cdr d r k, g, s => execP fuel args jump k (setReg g d ((s.gcdr (g r)).getD .terror)) s
  | .cons d a b k, g, s => execP fuel args jump k (setReg g d (s.cons (g a) (g b)).2) (s.cons (g a) (g b)).1
  | .setCar r x k, g, s => execP fuel args jump k g (s.setCar (g r) (g x))
  | .setCdr r x k, g, s => execP fuel args jump k g (s.setCdr (g r) (g x))
  | .arg d r k, g, s => execP fuel args jump k (setReg g d (match g r with | .u i => args[i]?.getD .nil | _ => .nil)) s
  | .comp d rs f k, g, s => execP fuel args jump k (setReg g d (f (rs.map fun r => (g r).shape)).flat) s
  | .test rs t p q, g, s => if t (rs.map fun r => (g r).shape) then execP fuel args jump p g s else execP fuel args jump q g s
  | .same a b p q, g, s => if g a = g b then execP fuel args jump p g s else execP fuel args jump q g s
  | .eqv a b p q, g, s => if structEq fuel s (g a) (g b) then execP fuel args jump p g s else execP fuel args jump q g s

/-- At most `n` jumps; a program that needs more fails (the code would go on; the theorems are for every `n`). -/
def exec (fuel : Nat) (code : Nat → FProg) (args : List V) : Nat → Nat → (Nat → V) → St → PRes
  | 0, _, _, s => .err s .fatal
  | n + 1, l, g, s => execP fuel args (exec fuel code args n) (code l) g s

/-- Register 0 is the number of arguments, the arguments are in the registers from 1 on. -/
def startRegs (args : List V) : Nat → V
  | 0 => .u args.length
  | i + 1 => args[i]?.getD .nil

/-- Built-in functions given by programs: `code` are the programs, and the entry of function `n` is label `n`. -/
def progPrims (fuel : Nat) (code : Nat → FProg) : Prims where
  run n args _ s := exec fuel code args fuel n (startRegs args) s
  eq s a b := structEq fuel s a b

/-! ### They leave alone what they cannot reach -/

section
variable {N : Nat → Prop}

theorem PFine.from {s s1 : St} {r : PRes} (hk : Kept N s s1) (h : PFine N s1 r) : PFine N s r := by
  cases r with
  | ok s2 v => exact ⟨h.1, hk.trans h.2.1, h.2.2⟩
  | err s2 v => exact ⟨h.1, hk.trans h.2.1, h.2.2⟩

theorem away_flat {k : Nat} (v : V) : Away N k v.flat := by
  intro a h
  cases v <;> simp [V.flat] at h

theorem setReg_away {k : Nat} {g : Nat → V} {d : Nat} {v : V} (hg : ∀ i, Away N k (g i)) (hv : Away N k v) (i : Nat) : Away N k (setReg g d v i) := by
  unfold setReg
  split
  · exact hv
  · exact hg i

theorem execP_local {fuel : Nat} {args : List V} {jump : Nat → (Nat → V) → St → PRes}
    (hj : ∀ l g s, Apart N s → (∀ i, Away N s.next (g i)) → (∀ v ∈ args, Away N s.next v) → PFine N s (jump l g s)) :
    ∀ (p : FProg) (g : Nat → V) (s : St), Apart N s → (∀ i, Away N s.next (g i)) → (∀ v ∈ args, Away N s.next v) → PFine N s (execP fuel args jump p g s) := by
  intro p
  induction p with
  | ret r => intro g s h hg _; exact cellRes_local h (kept_refl _) (hg r)
  | goto l => intro g s h hg ha; exact hj l g s h hg ha
  | move d r k ih => intro g s h hg ha; exact ih _ s h (setReg_away hg (hg r)) ha
  | car d r k ih =>
    intro g s h hg ha
    refine ih _ s h (setReg_away hg ?_) ha
    cases e : s.gcar (g r) with
    | none => exact away_sym _
    | some x => exact h.gcar (hg r) e
  | cdr d r k ih =>
    intro g s h hg ha
    refine ih _ s h (setReg_away hg ?_) ha
    cases e : s.gcdr (g r) with
    | none => exact away_sym _
    | some x => exact h.gcdr (hg r) e
  | cons d a b k ih =>
    intro g s h hg ha
    obtain ⟨h1, h2, h3⟩ := h.cons (hg a) (hg b)
    exact (ih _ _ h1 (setReg_away (fun i => (hg i).up h3) h2) (fun v hv => (ha v hv).up h3)).from h3
  | setCar r x k ih =>
    intro g s h hg ha
    obtain ⟨h1, h3⟩ := h.setCar (hg r) (hg x)
    exact (ih _ _ h1 (fun i => (hg i).up h3) (fun v hv => (ha v hv).up h3)).from h3
  | setCdr r x k ih =>
    intro g s h hg ha
    obtain ⟨h1, h3⟩ := h.setCdr (hg r) (hg x)
    exact (ih _ _ h1 (fun i => (hg i).up h3) (fun v hv => (ha v hv).up h3)).from h3
  | arg d r k ih =>
    intro g s h hg ha
    refine ih _ s h (setReg_away hg ?_) ha
    split
    · rename_i i _
      cases e : args[i]? with
      | none => exact away_sym _
      | some v => exact ha v (List.mem_of_getElem? e)
    · exact away_sym _
  | comp d rs f k ih => intro g s h hg ha; exact ih _ s h (setReg_away hg (away_flat _)) ha
  | test rs t p q ihp ihq =>
    intro g s h hg ha
    unfold execP
    split
    · exact ihp g s h hg ha
    · exact ihq g s h hg ha
  | same a b p q ihp ihq =>
    intro g s h hg ha
    unfold execP
    split
    · exact ihp g s h hg ha
    · exact ihq g s h hg ha
  | eqv a b p q ihp ihq =>
    intro g s h hg ha
    unfold execP
    split
    · exact ihp g s h hg ha
    · exact ihq g s h hg ha

theorem exec_local {fuel : Nat} {code : Nat → FProg} {args : List V} : ∀ (n l : Nat) (g : Nat → V) (s : St), Apart N s → (∀ i, Away N s.next (g i)) →
    (∀ v ∈ args, Away N s.next v) → PFine N s (exec fuel code args n l g s)
  | 0, _, _, s, h, _, _ => ⟨h, kept_refl _, away_sym _⟩
  | n + 1, l, g, s, h, hg, ha => execP_local (fun l g s h hg ha => exec_local n l g s h hg ha) (code l) g s h hg ha

end

theorem progPrims_local (fuel : Nat) (code : Nat → FProg) : Local (progPrims fuel code) := by
  intro N n args env s h ha _
  refine exec_local fuel n _ s h (fun i => ?_) ha
  cases i with
  | zero => exact away_u _
  | succ i =>
    show Away N s.next (args[i]?.getD .nil)
    cases e : args[i]? with
    | none => exact away_sym _
    | some v => exact ha v (List.mem_of_getElem? e)

/-! ### They do not depend on addresses -/

theorem RL.get {ρ : Ren} {l l' : List V} (h : RL ρ l l') : ∀ i : Nat, RV ρ (l[i]?.getD .nil) (l'[i]?.getD .nil) := by
  induction h with
  | nil => intro i; exact .sym 0
  | cons hx _ ih =>
    intro i
    cases i with
    | zero => exact hx
    | succ i => exact ih i

theorem RL.len {ρ : Ren} {l l' : List V} (h : RL ρ l l') : l.length = l'.length := by
  induction h with
  | nil => rfl
  | cons _ _ ih => simp [ih]

theorem RV.shape {ρ : Ren} {v v' : V} (h : RV ρ v v') : v.shape = v'.shape := by cases h <;> rfl

theorem rv_flat {ρ : Ren} (v : V) : RV ρ v.flat v.flat := by
  cases v with
  | sym => exact .sym _
  | u => exact .u _
  | atom => exact .atom _
  | cons => exact .sym 0
  | arr => exact .sym 0

theorem setReg_rel {ρ : Ren} {g g' : Nat → V} {d : Nat} {v v' : V} (hg : ∀ i, RV ρ (g i) (g' i)) (hv : RV ρ v v') (i : Nat) : RV ρ (setReg g d v i) (setReg g' d v' i) := by
  unfold setReg
  split
  · exact hv
  · exact hg i

theorem structEq_blind {ρ : Ren} {s s' : St} (h : RS ρ s s') : ∀ (f : Nat) {a a' b b' : V}, RV ρ a a' → RV ρ b b' → structEq f s a b = structEq f s' a' b'
  | 0, _, _, _, _, _, _ => rfl
  | f + 1, _, _, _, _, ha, hb => by
    have hv := h.veq ha hb
    cases ha with
    | cons hc =>
      cases hb with
      | cons hd =>
        obtain ⟨-, h1, h2⟩ := h.cells hc
        obtain ⟨-, h3, h4⟩ := h.cells hd
        simp only [structEq, structEq_blind h f h1 h3, structEq_blind h f h2 h4]
      | _ => simp [structEq]
    | sym n => cases hb <;> simp_all [structEq]
    | u n => cases hb <;> simp_all [structEq]
    | atom n => cases hb <;> simp_all [structEq]
    | arr hk => cases hb <;> simp_all [structEq]

theorem execP_blind {fuel : Nat} {jump : Nat → (Nat → V) → St → PRes} {jump' : Nat → (Nat → V) → St → PRes} {args args' : List V}
    (hj : ∀ (ρ : Ren) l g g' s s', RS ρ s s' → (∀ i, RV ρ (g i) (g' i)) → RL ρ args args' → ∃ ρ', ρ.Le ρ' ∧ RP ρ' (jump l g s) (jump' l g' s')) :
    ∀ (p : FProg) (ρ : Ren) (g g' : Nat → V) (s s' : St), RS ρ s s' → (∀ i, RV ρ (g i) (g' i)) → RL ρ args args' →
      ∃ ρ', ρ.Le ρ' ∧ RP ρ' (execP fuel args jump p g s) (execP fuel args' jump' p g' s') := by
  intro p
  induction p with
  | ret r => intro ρ g g' s s' h hg _; exact ⟨ρ, .refl ρ, cellRes_blind h (hg r)⟩
  | goto l => intro ρ g g' s s' h hg ha; exact hj ρ l g g' s s' h hg ha
  | move d r k ih => intro ρ g g' s s' h hg ha; exact ih ρ _ _ s s' h (setReg_rel hg (hg r)) ha
  | car d r k ih => intro ρ g g' s s' h hg ha; exact ih ρ _ _ s s' h (setReg_rel hg (h.gcar (hg r)).getD) ha
  | cdr d r k ih => intro ρ g g' s s' h hg ha; exact ih ρ _ _ s s' h (setReg_rel hg (h.gcdr (hg r)).getD) ha
  | cons d a b k ih =>
    intro ρ g g' s s' h hg ha
    obtain ⟨ρ1, l1, a1, a2⟩ := h.cons (hg a) (hg b)
    obtain ⟨ρ2, l2, b⟩ := ih ρ1 _ _ _ _ a1 (setReg_rel (fun i => (hg i).le l1) a2) (ha.le l1)
    exact ⟨ρ2, l1.trans l2, b⟩
  | setCar r x k ih => intro ρ g g' s s' h hg ha; exact ih ρ _ _ _ _ (h.setCar (hg r) (hg x)) hg ha
  | setCdr r x k ih => intro ρ g g' s s' h hg ha; exact ih ρ _ _ _ _ (h.setCdr (hg r) (hg x)) hg ha
  | arg d r k ih =>
    intro ρ g g' s s' h hg ha
    refine ih ρ _ _ s s' h (setReg_rel hg ?_) ha
    have hr := hg r
    generalize g r = x at hr
    generalize g' r = x' at hr
    cases hr with
    | u i => exact ha.get i
    | sym => exact .sym 0
    | atom => exact .sym 0
    | cons => exact .sym 0
    | arr => exact .sym 0
  | comp d rs f k ih =>
    intro ρ g g' s s' h hg ha
    have e : rs.map (fun r => (g r).shape) = rs.map (fun r => (g' r).shape) := List.map_congr_left fun r _ => (hg r).shape
    unfold execP
    rw [e]
    exact ih ρ _ _ s s' h (setReg_rel hg (rv_flat _)) ha
  | test rs t p q ihp ihq =>
    intro ρ g g' s s' h hg ha
    have e : rs.map (fun r => (g r).shape) = rs.map (fun r => (g' r).shape) := List.map_congr_left fun r _ => (hg r).shape
    unfold execP
    rw [e]
    split
    · exact ihp ρ _ _ s s' h hg ha
    · exact ihq ρ _ _ s s' h hg ha
  | same a b p q ihp ihq =>
    intro ρ g g' s s' h hg ha
    have e := h.veq (hg a) (hg b)
    unfold execP
    by_cases hab : g a = g b
    · rw [if_pos hab, if_pos (e.1 hab)]
      exact ihp ρ _ _ s s' h hg ha
    · rw [if_neg hab, if_neg (fun h => hab (e.2 h))]
      exact ihq ρ _ _ s s' h hg ha
  | eqv a b p q ihp ihq =>
    intro ρ g g' s s' h hg ha
    unfold execP
    rw [structEq_blind h fuel (hg a) (hg b)]
    split
    · exact ihp ρ _ _ s s' h hg ha
    · exact ihq ρ _ _ s s' h hg ha

theorem exec_blind {fuel : Nat} {code : Nat → FProg} {args args' : List V} : ∀ (n : Nat) (ρ : Ren) (l : Nat) (g g' : Nat → V) (s s' : St), RS ρ s s' → (∀ i, RV ρ (g i) (g' i)) →
    RL ρ args args' → ∃ ρ', ρ.Le ρ' ∧ RP ρ' (exec fuel code args n l g s) (exec fuel code args' n l g' s')
  | 0, ρ, _, _, _, _, _, h, _, _ => ⟨ρ, .refl ρ, .err h (.sym _)⟩
  | n + 1, ρ, l, g, g', s, s', h, hg, ha => execP_blind (fun ρ l g g' s s' h hg ha => exec_blind n ρ l g g' s s' h hg ha) (code l) ρ g g' s s' h hg ha

theorem progPrims_blind (fuel : Nat) (code : Nat → FProg) : Blind (progPrims fuel code) := by
  refine ⟨fun ρ n args args' env env' s s' h ha _ => ?_, fun ρ s s' a a' b b' h ha hb => structEq_blind h fuel ha hb⟩
  refine exec_blind fuel ρ n _ _ s s' h (fun i => ?_) ha
  cases i with
  | zero => show RV ρ (.u _) (.u _); rw [ha.len]; exact .u _
  | succ i => exact ha.get i

end Verif.Eval
