import Verif.Eval.Ren2
import Verif.Eval.OwnProps

/-!
# Properties: the result of a program does not depend on when memory is collected or which cells are used

C90.
-/

namespace Verif.Eval

/-! ## Specification -/

/-- The values that the machine can still use. -/
inductive InUse (m : M) : V → Prop
  | root {v} : v = m.r ∨ v = m.exp ∨ v = m.env ∨ v = m.program ∨ .v v ∈ m.K ∨ (∃ n, m.st.globals n = v) → InUse m v
  | car {a} : InUse m (.cons a) → InUse m (m.st.car a)
  | cdr {a} : InUse m (.cons a) → InUse m (m.st.cdr a)
  | kont {i v} : InUse m (.arr i) → .v v ∈ m.st.konts i → InUse m v

/-- The cells and captured stacks that are in use were allocated. -/
def Allocated (m : M) : Prop := (∀ a, InUse m (.cons a) → a < m.st.next) ∧ ∀ i, InUse m (.arr i) → i < m.st.nk

/-- A value when the cells are moved by `π` and the captured stacks by `κ`. -/
def V.moved (π κ : Nat → Nat) : V → V
  | .cons a => .cons (π a)
  | .arr i => .arr (κ i)
  | v => v

/-- The same for words. -/
def W.moved (π κ : Nat → Nat) : W → W
  | .v x => .v (x.moved π κ)
  | w => w

/-- `m'` is `m` after a collection: whatever is in use is there, possibly at another address, and no two things are at the same address.
Everything else may have changed in any way. -/
structure Collected (m m' : M) (π κ : Nat → Nat) : Prop where
  cells_apart : ∀ a b, InUse m (.cons a) → InUse m (.cons b) → π a = π b → a = b
  stacks_apart : ∀ i j, InUse m (.arr i) → InUse m (.arr j) → κ i = κ j → i = j
  cells : ∀ a, InUse m (.cons a) → π a < m'.st.next ∧ m'.st.car (π a) = (m.st.car a).moved π κ ∧ m'.st.cdr (π a) = (m.st.cdr a).moved π κ
  stacks : ∀ i, InUse m (.arr i) → κ i < m'.st.nk ∧ m'.st.konts (κ i) = (m.st.konts i).map (·.moved π κ)
  globals : ∀ n, m'.st.globals n = (m.st.globals n).moved π κ
  atomic : m'.st.atomic = m.st.atomic
  K : m'.K = m.K.map (·.moved π κ)
  r : m'.r = m.r.moved π κ
  exp : m'.exp = m.exp.moved π κ
  env : m'.env = m.env.moved π κ
  program : m'.program = m.program.moved π κ
  app : m'.app = m.app
  flags : m'.flags = m.flags

/-- `n` steps of the machine, with any number of collections before, between and after the steps; `ok` says which collections there are. -/
inductive Interrupted (sz : Option Nat) (P : Prims) (ok : M → M → Prop) (o0 : Out) : Nat → Out → Prop
  | refl : Interrupted sz P ok o0 0 o0
  | step {n m} : Interrupted sz P ok o0 n (.next m) → Interrupted sz P ok o0 (n + 1) (step sz P m)
  | collect {n m m' π κ} : Interrupted sz P ok o0 n (.next m) → Collected m m' π κ → ok m m' → Interrupted sz P ok o0 n (.next m')

/-- The value `v` in the store `s` and the value `v'` in the store `s'` are the same except for the addresses of cells, with all that can be reached from
them and from global variables: some correspondence between cells, one to one, relates them, and the fields of corresponding cells. -/
def SameResult (s : St) (v : V) (s' : St) (v' : V) : Prop :=
  ∃ ρ : Ren, (∀ a b b', ρ.c a b → ρ.c a b' → b = b') ∧ (∀ a a' b, ρ.c a b → ρ.c a' b → a = a') ∧
    (∀ a b b', ρ.k a b → ρ.k a b' → b = b') ∧ (∀ a a' b, ρ.k a b → ρ.k a' b → a = a') ∧
    (∀ a b, ρ.c a b → RV ρ (s.car a) (s'.car b) ∧ RV ρ (s.cdr a) (s'.cdr b)) ∧ (∀ a b, ρ.k a b → RK ρ (s.konts a) (s'.konts b)) ∧
    (∀ n, RV ρ (s.globals n) (s'.globals n)) ∧ s.atomic = s'.atomic ∧ RV ρ v v'

/-- `v` is a list of the values `l`. -/
def ListOf (s : St) : V → List V → Prop
  | v, [] => v = .nil
  | v, x :: l => ∃ a, v = .cons a ∧ s.car a = x ∧ ListOf s (s.cdr a) l

/-! ## Proofs -/

/-- The correspondence of a collection. -/
def renOf (m : M) (π κ : Nat → Nat) : Ren := ⟨fun a b => InUse m (.cons a) ∧ b = π a, fun i j => InUse m (.arr i) ∧ j = κ i⟩

/-- The same, backwards. -/
def Ren.flip (ρ : Ren) : Ren := ⟨fun a b => ρ.c b a, fun a b => ρ.k b a⟩

theorem RV.flip {ρ : Ren} {v v' : V} (h : RV ρ v v') : RV ρ.flip v' v := by
  cases h with
  | sym => exact .sym _
  | u => exact .u _
  | atom => exact .atom _
  | cons h => exact .cons h
  | arr h => exact .arr h

theorem RK.flip {ρ : Ren} {K K' : List W} (h : RK ρ K K') : RK ρ.flip K' K := by
  induction h with
  | nil => exact .nil
  | cons hw _ ih =>
    refine .cons ?_ ih
    cases hw with
    | v h => exact .v h.flip
    | k => exact .k _
    | raw => exact .raw _
    | junk => exact .junk

theorem rv_moved {m : M} {π κ : Nat → Nat} {v : V} (h : InUse m v) : RV (renOf m π κ) v (v.moved π κ) := by
  cases v with
  | sym => exact .sym _
  | u => exact .u _
  | atom => exact .atom _
  | cons a => exact .cons ⟨h, rfl⟩
  | arr a => exact .arr ⟨h, rfl⟩

theorem rk_moved {m : M} {π κ : Nat → Nat} : ∀ {K : List W}, (∀ x, .v x ∈ K → InUse m x) → RK (renOf m π κ) K (K.map (·.moved π κ))
  | [], _ => .nil
  | w :: K, h => by
    refine .cons ?_ (rk_moved fun x hx => h x (List.mem_cons_of_mem _ hx))
    cases w with
    | v x => exact .v (rv_moved (h x List.mem_cons_self))
    | k => exact .k _
    | raw => exact .raw _
    | junk => exact .junk

/-- All but the bound on the number of cells. -/
structure RelM (ρ : Ren) (m m' : M) : Prop where
  fn : ∀ {a b b'}, ρ.c a b → ρ.c a b' → b = b'
  inj : ∀ {a a' b}, ρ.c a b → ρ.c a' b → a = a'
  kfn : ∀ {a b b'}, ρ.k a b → ρ.k a b' → b = b'
  kinj : ∀ {a a' b}, ρ.k a b → ρ.k a' b → a = a'
  cells : ∀ {a b}, ρ.c a b → (a < m.st.next ∧ b < m'.st.next) ∧ RV ρ (m.st.car a) (m'.st.car b) ∧ RV ρ (m.st.cdr a) (m'.st.cdr b)
  konts : ∀ {a b}, ρ.k a b → (a < m.st.nk ∧ b < m'.st.nk) ∧ RK ρ (m.st.konts a) (m'.st.konts b)
  globals : ∀ n, RV ρ (m.st.globals n) (m'.st.globals n)
  atomic : m.st.atomic = m'.st.atomic
  K : RK ρ m.K m'.K
  r : RV ρ m.r m'.r
  exp : RV ρ m.exp m'.exp
  env : RV ρ m.env m'.env
  program : RV ρ m.program m'.program
  app : m.app = m'.app
  flags : m.flags = m'.flags

theorem RelM.rm {ρ : Ren} {m m' : M} (h : RelM ρ m m') (hn : m.st.next ≤ m'.st.next) : RM ρ m m' :=
  ⟨⟨h.fn, h.inj, h.kfn, h.kinj, h.cells, h.konts, h.globals, h.atomic, hn⟩, h.K, h.r, h.exp, h.env, h.program, h.app, h.flags⟩

theorem RM.rel {ρ : Ren} {m m' : M} (h : RM ρ m m') : RelM ρ m m' :=
  ⟨h.st.fn, h.st.inj, h.st.kfn, h.st.kinj, h.st.cells, h.st.konts, h.st.globals, h.st.atomic, h.K, h.r, h.exp, h.env, h.program, h.app, h.flags⟩

theorem RelM.flip {ρ : Ren} {m m' : M} (h : RelM ρ m m') : RelM ρ.flip m' m :=
  ⟨fun a b => h.inj a b, fun a b => h.fn a b, fun a b => h.kinj a b, fun a b => h.kfn a b,
   fun hc => ⟨(h.cells hc).1.symm, (h.cells hc).2.1.flip, (h.cells hc).2.2.flip⟩, fun hk => ⟨(h.konts hk).1.symm, (h.konts hk).2.flip⟩,
   fun n => (h.globals n).flip, h.atomic.symm, h.K.flip, h.r.flip, h.exp.flip, h.env.flip, h.program.flip, h.app.symm, h.flags.symm⟩

/-- One correspondence after the other. -/
def Ren.comp (ρ σ : Ren) : Ren := ⟨fun a c => ∃ b, ρ.c a b ∧ σ.c b c, fun a c => ∃ b, ρ.k a b ∧ σ.k b c⟩

theorem RV.comp {ρ σ : Ren} {a b c : V} (h : RV ρ a b) (h' : RV σ b c) : RV (ρ.comp σ) a c := by
  cases h with
  | sym => cases h'; exact .sym _
  | u => cases h'; exact .u _
  | atom => cases h'; exact .atom _
  | cons h => cases h' with | cons h' => exact .cons ⟨_, h, h'⟩
  | arr h => cases h' with | arr h' => exact .arr ⟨_, h, h'⟩

theorem RW.comp {ρ σ : Ren} {a b c : W} (h : RW ρ a b) (h' : RW σ b c) : RW (ρ.comp σ) a c := by
  cases h with
  | v h => cases h' with | v h' => exact .v (h.comp h')
  | k => cases h'; exact .k _
  | raw => cases h'; exact .raw _
  | junk => cases h'; exact .junk

theorem RK.comp {ρ σ : Ren} {a b c : List W} (h : RK ρ a b) (h' : RK σ b c) : RK (ρ.comp σ) a c := by
  induction h generalizing c with
  | nil => cases h'; exact .nil
  | cons hw _ ih => cases h' with | cons hw' h' => exact .cons (hw.comp hw') (ih h')

theorem RelM.comp {ρ σ : Ren} {a b c : M} (h : RelM ρ a b) (h' : RelM σ b c) : RelM (ρ.comp σ) a c := by
  refine ⟨?_, ?_, ?_, ?_, ?_, ?_, fun n => (h.globals n).comp (h'.globals n), h.atomic.trans h'.atomic, h.K.comp h'.K, h.r.comp h'.r, h.exp.comp h'.exp,
    h.env.comp h'.env, h.program.comp h'.program, h.app.trans h'.app, h.flags.trans h'.flags⟩
  · rintro x y y' ⟨z, h1, h2⟩ ⟨z', h3, h4⟩
    obtain rfl := h.fn h1 h3
    exact h'.fn h2 h4
  · rintro x x' y ⟨z, h1, h2⟩ ⟨z', h3, h4⟩
    obtain rfl := h'.inj h2 h4
    exact h.inj h1 h3
  · rintro x y y' ⟨z, h1, h2⟩ ⟨z', h3, h4⟩
    obtain rfl := h.kfn h1 h3
    exact h'.kfn h2 h4
  · rintro x x' y ⟨z, h1, h2⟩ ⟨z', h3, h4⟩
    obtain rfl := h'.kinj h2 h4
    exact h.kinj h1 h3
  · rintro x y ⟨z, h1, h2⟩
    exact ⟨⟨(h.cells h1).1.1, (h'.cells h2).1.2⟩, (h.cells h1).2.1.comp (h'.cells h2).2.1, (h.cells h1).2.2.comp (h'.cells h2).2.2⟩
  · rintro x y ⟨z, h1, h2⟩
    exact ⟨⟨(h.konts h1).1.1, (h'.konts h2).1.2⟩, (h.konts h1).2.comp (h'.konts h2).2⟩

theorem Collected.rel {m m' : M} {π κ : Nat → Nat} (h : Collected m m' π κ) (ha : Allocated m) : RelM (renOf m π κ) m m' := by
  refine ⟨?_, ?_, ?_, ?_, ?_, ?_, ?_, h.atomic.symm, ?_, ?_, ?_, ?_, ?_, h.app.symm, h.flags.symm⟩
  · rintro a b b' ⟨_, rfl⟩ ⟨_, rfl⟩; rfl
  · rintro a b c ⟨h1, rfl⟩ ⟨h2, e⟩; exact h.cells_apart _ _ h1 h2 e
  · rintro a b b' ⟨_, rfl⟩ ⟨_, rfl⟩; rfl
  · rintro a b c ⟨h1, rfl⟩ ⟨h2, e⟩; exact h.stacks_apart _ _ h1 h2 e
  · rintro a b ⟨h1, rfl⟩
    obtain ⟨h2, h3, h4⟩ := h.cells a h1
    rw [h3, h4]
    exact ⟨⟨ha.1 a h1, h2⟩, rv_moved (.car h1), rv_moved (.cdr h1)⟩
  · rintro a b ⟨h1, rfl⟩
    obtain ⟨h2, h3⟩ := h.stacks a h1
    rw [h3]
    exact ⟨⟨ha.2 a h1, h2⟩, rk_moved fun x hx => .kont h1 hx⟩
  · intro n; rw [h.globals]; exact rv_moved (.root (by simp))
  · rw [h.K]; exact rk_moved fun x hx => .root (by simp [hx])
  · rw [h.r]; exact rv_moved (.root (by simp))
  · rw [h.exp]; exact rv_moved (.root (by simp))
  · rw [h.env]; exact rv_moved (.root (by simp))
  · rw [h.program]; exact rv_moved (.root (by simp))

theorem Allocated.rel {m : M} (ha : Allocated m) : RelM (renOf m id id) m m := by
  have hv : ∀ v : V, v.moved id id = v := fun v => by cases v <;> rfl
  have hw : ∀ w : W, w.moved id id = w := fun w => by cases w <;> simp [W.moved, hv]
  have hK : ∀ K : List W, K.map (·.moved id id) = K := fun K => by simp [hw]
  refine Collected.rel ⟨fun _ _ _ _ e => e, fun _ _ _ _ e => e, fun a h => ⟨ha.1 a h, ?_, ?_⟩, fun i h => ⟨ha.2 i h, ?_⟩, fun n => ?_, rfl, ?_, ?_, ?_, ?_, ?_, rfl, rfl⟩ ha
  · exact (hv _).symm
  · exact (hv _).symm
  · exact (hK _).symm
  · exact (hv _).symm
  · exact (hK _).symm
  all_goals exact (hv _).symm

/-- What is in use has a counterpart, so it was allocated. -/
theorem RelM.allocated {ρ : Ren} {m m' : M} (h : RelM ρ m m') : Allocated m := by
  have key : ∀ v, InUse m v → ∃ v', RV ρ v v' := by
    intro v hv
    induction hv with
    | root hr =>
      rcases hr with rfl | rfl | rfl | rfl | hk | ⟨n, rfl⟩
      · exact ⟨_, h.r⟩
      · exact ⟨_, h.exp⟩
      · exact ⟨_, h.env⟩
      · exact ⟨_, h.program⟩
      · have hK := h.K
        generalize m.K = K at hK hk
        generalize m'.K = K' at hK
        induction hK with
        | nil => cases hk
        | cons hw _ ih =>
          rcases List.mem_cons.1 hk with rfl | hk
          · cases hw with | v hx => exact ⟨_, hx⟩
          · exact ih hk
      · exact ⟨_, h.globals n⟩
    | car _ ih => obtain ⟨v', hv'⟩ := ih; cases hv' with | cons hc => exact ⟨_, (h.cells hc).2.1⟩
    | cdr _ ih => obtain ⟨v', hv'⟩ := ih; cases hv' with | cons hc => exact ⟨_, (h.cells hc).2.2⟩
    | @kont i v _ hk ih =>
      obtain ⟨v', hv'⟩ := ih
      cases hv' with
      | arr hc =>
        have hK := (h.konts hc).2
        generalize m.st.konts i = K at hK hk
        generalize m'.st.konts _ = K' at hK
        induction hK with
        | nil => cases hk
        | cons hw _ ih =>
          rcases List.mem_cons.1 hk with rfl | hk
          · cases hw with | v hx => exact ⟨_, hx⟩
          · exact ih hk
  refine ⟨fun a ha => ?_, fun i hi => ?_⟩
  · obtain ⟨v', hv'⟩ := key _ ha
    cases hv' with | cons hc => exact (h.cells hc).1.1
  · obtain ⟨v', hv'⟩ := key _ hi
    cases hv' with | arr hc => exact (h.konts hc).1.1

theorem steps_out {sz : Option Nat} {P : Prims} : ∀ (n : Nat) (o : Out), (∀ m, o ≠ .next m) → steps sz P n o = o
  | 0, _, _ => rfl
  | n + 1, o, h => by
    cases o with
    | next m => exact absurd rfl (h m)
    | _ => rfl

theorem steps_succ {sz : Option Nat} {P : Prims} : ∀ (n : Nat) (o : Out), steps sz P (n + 1) o = steps sz P 1 (steps sz P n o)
  | 0, _ => rfl
  | n + 1, o => by
    cases o with
    | next m => exact steps_succ n _
    | _ => rfl

theorem ROut.same {ρ : Ren} {s : St} {v : V} {b : Bool} {o : Out} (h : ROut ρ (.fin s v b) o) : ∃ s' v', o = .fin s' v' b ∧ SameResult s v s' v' := by
  cases h with
  | fin hs hv => exact ⟨_, _, rfl, ρ, fun _ _ _ => hs.fn, fun _ _ _ => hs.inj, fun _ _ _ => hs.kfn, fun _ _ _ => hs.kinj, fun _ _ h => (hs.cells h).2, fun _ _ h => (hs.konts h).2, hs.globals, hs.atomic, hv⟩

/-! ## Properties -/

variable {P : Prims}

theorem interrupted_growing (hP : Blind P) (sz : Option Nat) {m0 : M} (h0 : Allocated m0) {n : Nat} {o : Out}
    (h : Interrupted sz P (fun m m' => m.st.next ≤ m'.st.next) (.next m0) n o) : ∃ ρ, ROut ρ (steps sz P n (.next m0)) o := by
  induction h with
  | refl => exact ⟨_, .next (h0.rel.rm (Nat.le_refl _))⟩
  | step _ ih =>
    obtain ⟨ρ, ih⟩ := ih
    rw [steps_succ]
    generalize steps sz P _ (.next m0) = o at ih
    cases ih with
    | next hm =>
      obtain ⟨ρ', _, h'⟩ := ro_step hm hP sz
      exact ⟨ρ', h'⟩
    | ub => exact ⟨ρ, .ub⟩
  | collect _ hc hn ih =>
    obtain ⟨ρ, ih⟩ := ih
    generalize steps sz P _ (.next m0) = o at ih
    cases ih with
    | next hm => exact ⟨_, .next ((hm.rel.comp (hc.rel hm.rel.flip.allocated)).rm (Nat.le_trans hm.st.next hn))⟩
    | ub => exact ⟨ρ, .ub⟩

theorem interrupted_shrinking (hP : Blind P) (sz : Option Nat) {m0 : M} (h0 : Allocated m0) {n : Nat} {o : Out}
    (h : Interrupted sz P (fun m m' => m'.st.next ≤ m.st.next) (.next m0) n o) : ∃ ρ, ROut ρ o (steps sz P n (.next m0)) := by
  induction h with
  | refl => exact ⟨_, .next (h0.rel.rm (Nat.le_refl _))⟩
  | step _ ih =>
    obtain ⟨ρ, ih⟩ := ih
    rw [steps_succ]
    generalize steps sz P _ (.next m0) = o at ih
    cases ih with
    | next hm =>
      obtain ⟨ρ', _, h'⟩ := ro_step hm hP sz
      exact ⟨ρ', h'⟩
  | collect _ hc hn ih =>
    obtain ⟨ρ, ih⟩ := ih
    generalize steps sz P _ (.next m0) = o at ih
    cases ih with
    | next hm => exact ⟨_, .next (((hc.rel hm.rel.allocated).flip.comp hm.rel).rm (Nat.le_trans hn hm.st.next))⟩

/-- C90: whatever a program does, the result is the same whether or not memory is collected while it runs, and how often, and where the collector and
the allocator put the cells: if the program ends after `n` steps with a value or an error, it also does so when it is interrupted by collections that move
what is in use and overwrite everything else, and the results are the same except for addresses. -/
theorem C90_collections (hP : Blind P) (sz : Option Nat) {m0 : M} (h0 : Allocated m0) {n : Nat} {o : Out}
    (h : Interrupted sz P (fun m m' => m.st.next ≤ m'.st.next) (.next m0) n o) {s : St} {v : V} {b : Bool} (hf : steps sz P n (.next m0) = .fin s v b) :
    ∃ s' v', o = .fin s' v' b ∧ SameResult s v s' v' := by
  obtain ⟨ρ, h⟩ := interrupted_growing hP sz h0 h
  rw [hf] at h
  exact h.same

/-- C90, with collections that also give back cells: if the program with collections ends, it ends with the same result without them. -/
theorem C90_reuse (hP : Blind P) (sz : Option Nat) {m0 : M} (h0 : Allocated m0) {n : Nat} {s : St} {v : V} {b : Bool}
    (h : Interrupted sz P (fun m m' => m'.st.next ≤ m.st.next) (.next m0) n (.fin s v b)) :
    ∃ s' v', steps sz P n (.next m0) = .fin s' v' b ∧ SameResult s v s' v' := by
  obtain ⟨ρ, h⟩ := interrupted_shrinking hP sz h0 h
  exact h.same

/-- C90: collections do not stop a program: as long as the uninterrupted program goes on, so does the interrupted one. -/
theorem C90_goes_on (hP : Blind P) (sz : Option Nat) {m0 : M} (h0 : Allocated m0) {n N : Nat} {o : Out}
    (h : Interrupted sz P (fun m m' => m.st.next ≤ m'.st.next) (.next m0) n o) (hn : n ≤ N) {m' : M} (hN : steps sz P N (.next m0) = .next m') :
    ∃ m, Interrupted sz P (fun m m' => m.st.next ≤ m'.st.next) (.next m0) N (.next m) := by
  have hnext : ∀ k, k ≤ N → ∃ m, steps sz P k (.next m0) = .next m := by
    clear hn
    intro k hk
    obtain ⟨d, rfl⟩ : ∃ d, N = k + d := ⟨N - k, by omega⟩
    induction d generalizing m' with
    | zero => exact ⟨_, hN⟩
    | succ d ih =>
      rw [show k + (d + 1) = (k + d) + 1 from rfl, steps_succ] at hN
      cases e : steps sz P (k + d) (.next m0) with
      | next m1 => exact ih e (by omega)
      | _ => rw [e] at hN; cases hN
  have hout : ∀ {k : Nat} {o : Out}, k ≤ N → Interrupted sz P (fun m m' => m.st.next ≤ m'.st.next) (.next m0) k o → ∃ m, o = .next m := by
    intro k o hk h
    obtain ⟨ρ, hr⟩ := interrupted_growing hP sz h0 h
    obtain ⟨m, e⟩ := hnext k hk
    rw [e] at hr
    cases hr with
    | next _ => exact ⟨_, rfl⟩
  obtain ⟨d, rfl⟩ : ∃ d, N = n + d := ⟨N - n, by omega⟩
  clear hnext hN
  induction d with
  | zero => obtain ⟨m, rfl⟩ := hout hn h; exact ⟨m, h⟩
  | succ d ih =>
    obtain ⟨m, h1⟩ := ih (by omega) (fun hk => hout (by omega))
    obtain ⟨m1, e⟩ := hout (by omega) h1.step
    exact ⟨m1, e ▸ h1.step⟩

/-- C90: results that are the same are equal numbers or symbols. -/
theorem C90_atomic_result {s s' : St} {v v' : V} (h : SameResult s v s' v') : ((∃ n, v = .sym n ∨ v = .u n ∨ v = .atom n) → v' = v) := by
  obtain ⟨ρ, _, _, _, _, _, _, _, _, hv⟩ := h
  rintro ⟨n, rfl | rfl | rfl⟩ <;> cases hv <;> rfl

/-- C90: results that are the same are lists of the same numbers and symbols. -/
theorem C90_list_result {s s' : St} {v v' : V} (h : SameResult s v s' v') {l : List V} (hl : ListOf s v l) (ha : ∀ x ∈ l, ∃ n, x = .sym n ∨ x = .u n ∨ x = .atom n) :
    ListOf s' v' l := by
  obtain ⟨ρ, _, _, _, _, hc, _, _, _, hv⟩ := h
  induction l generalizing v v' with
  | nil => cases (show v = .nil from hl); cases hv; rfl
  | cons x l ih =>
    obtain ⟨a, rfl, e, hl⟩ := hl
    cases hv with
    | cons hab =>
      obtain ⟨h1, h2⟩ := hc _ _ hab
      refine ⟨_, rfl, ?_, ih hl (fun y hy => ha y (List.mem_cons_of_mem _ hy)) h2⟩
      rw [e] at h1
      generalize s'.car _ = y at h1
      obtain ⟨n, rfl | rfl | rfl⟩ := ha x List.mem_cons_self <;> cases h1 <;> rfl

/-! ## Examples -/

theorem cellRes_blind {ρ : Ren} {s s' : St} {v v' : V} (h : RS ρ s s') (hv : RV ρ v v') : RP ρ (cellRes s v) (cellRes s' v') := by
  unfold cellRes
  cases hv with
  | sym n =>
    dsimp only
    split
    · exact .err h (.sym n)
    · exact .ok h (.sym n)
  | u n => exact .ok h (.u n)
  | atom n => exact .ok h (.atom n)
  | cons hc => exact .ok h (.cons hc)
  | arr hk => exact .ok h (.arr hk)

theorem cellList_blind {ρ : Ren} {s s' : St} (h : RS ρ s s') {l l' : List V} (hl : RL ρ l l') :
    ∃ ρ', ρ.Le ρ' ∧ RS ρ' (cellList s l).1 (cellList s' l').1 ∧ RV ρ' (cellList s l).2 (cellList s' l').2 := by
  induction hl with
  | nil => exact ⟨ρ, .refl ρ, h, .sym 0⟩
  | cons hx _ ih =>
    obtain ⟨ρ1, l1, a1, a2⟩ := ih
    obtain ⟨ρ2, l2, b1, b2⟩ := a1.cons (hx.le l1) a2
    exact ⟨ρ2, l1.trans l2, b1, b2⟩

theorem ROpt.getD {ρ : Ren} {o o' : Option V} (h : ROpt ρ o o') : RV ρ (o.getD .terror) (o'.getD .terror) := by
  cases h with
  | none => exact .sym _
  | some h => exact h

/-- The operations on cells do not depend on addresses. -/
theorem cellPrims_blind : Blind cellPrims := by
  refine ⟨?_, fun ρ s s' a a' b b' h ha hb => by simp only [cellPrims, h.veq ha hb]⟩
  intro ρ n args args' env env' s s' h ha _
  simp only [cellPrims]
  split
  · rcases ha with _ | ⟨⟨⟩, _ | ⟨⟨⟩, ⟨⟩⟩⟩
    exact ⟨ρ, .refl ρ, .ok h (.atom _)⟩
  · rcases ha with _ | ⟨h1, _ | ⟨h2, ⟨⟩⟩⟩
    obtain ⟨ρ1, l1, a1, a2⟩ := h.cons h1 h2
    exact ⟨ρ1, l1, cellRes_blind a1 a2⟩
  · rcases ha with _ | ⟨h1, ⟨⟩⟩
    exact ⟨ρ, .refl ρ, cellRes_blind h (h.gcar h1).getD⟩
  · rcases ha with _ | ⟨h1, ⟨⟩⟩
    exact ⟨ρ, .refl ρ, cellRes_blind h (h.gcdr h1).getD⟩
  · obtain ⟨ρ1, l1, a1, a2⟩ := cellList_blind h ha
    exact ⟨ρ1, l1, cellRes_blind a1 a2⟩
  · rcases ha with _ | ⟨h1, _ | ⟨h2, ⟨⟩⟩⟩
    refine ⟨ρ, .refl ρ, cellRes_blind (h.setCar h1 h2) ?_⟩
    rw [h1.isCons]
    split <;> exact .sym _
  · rcases ha with _ | ⟨h1, _ | ⟨h2, ⟨⟩⟩⟩
    refine ⟨ρ, .refl ρ, cellRes_blind (h.setCdr h1 h2) ?_⟩
    rw [h1.isCons]
    split <;> exact .sym _
  · split
    · rcases ha with _ | ⟨⟨⟩, _ | ⟨⟨⟩, ⟨⟩⟩⟩
      exfalso; simp_all
    · rcases ha with _ | ⟨_, _ | ⟨_, ⟨⟩⟩⟩
      exfalso; simp_all
    · rcases ha with _ | ⟨_, ⟨⟩⟩
      exfalso; simp_all
    · rcases ha with _ | ⟨_, ⟨⟩⟩
      exfalso; simp_all
    · exfalso; simp_all
    · rcases ha with _ | ⟨_, _ | ⟨_, ⟨⟩⟩⟩
      exfalso; simp_all
    · rcases ha with _ | ⟨_, _ | ⟨_, ⟨⟩⟩⟩
      exfalso; simp_all
    · exact ⟨ρ, .refl ρ, .err h (.sym _)⟩

/-- All cells `k` places further on, and garbage in the first `k` places. -/
def M.shift (k : Nat) (junk : V) (m : M) : M :=
  let f := V.moved (· + k) id
  let g := W.moved (· + k) id
  { K := m.K.map g, r := f m.r, exp := f m.exp, env := f m.env, app := m.app, flags := m.flags, program := f m.program,
    st := { car := fun i => if i < k then junk else f (m.st.car (i - k)), cdr := fun i => if i < k then junk else f (m.st.cdr (i - k)), next := m.st.next + k,
            globals := fun n => f (m.st.globals n), atomic := m.st.atomic, konts := fun i => (m.st.konts i).map g, nk := m.st.nk } }

/-- Example: such a move is a collection. -/
theorem shift_collected (k : Nat) (junk : V) {m : M} (h : Allocated m) : Collected m (m.shift k junk) (· + k) id := by
  refine ⟨fun a b _ _ e => by simpa using e, fun _ _ _ _ e => e, fun a ha => ⟨Nat.add_lt_add_right (h.1 a ha) k, ?_, ?_⟩, fun i hi => ⟨h.2 i hi, rfl⟩,
    fun _ => rfl, rfl, rfl, rfl, rfl, rfl, rfl, rfl, rfl⟩
  · simp [M.shift, show ¬ a + k < k by omega]
  · simp [M.shift, show ¬ a + k < k by omega]

open Classical in
/-- Everything that is not in use is overwritten. -/
noncomputable def M.wipe (junk : V) (m : M) : M :=
  { m with st := { m.st with car := fun i => if InUse m (.cons i) then m.st.car i else junk, cdr := fun i => if InUse m (.cons i) then m.st.cdr i else junk } }

/-- Example: so is a collection that moves nothing. -/
theorem wipe_collected (junk : V) {m : M} (h : Allocated m) : Collected m (m.wipe junk) id id := by
  have hv : ∀ v : V, v.moved id id = v := fun v => by cases v <;> rfl
  have hw : ∀ w : W, w.moved id id = w := fun w => by cases w <;> simp [W.moved, hv]
  refine ⟨fun a b _ _ e => e, fun _ _ _ _ e => e, fun a ha => ⟨h.1 a ha, ?_, ?_⟩, fun i hi => ⟨h.2 i hi, ?_⟩, fun n => (hv _).symm, rfl, ?_, (hv _).symm, (hv _).symm, (hv _).symm, (hv _).symm, rfl, rfl⟩
  · simp [M.wipe, ha, hv]
  · simp [M.wipe, ha, hv]
  · simp [M.wipe, hw]
  · simp [M.wipe, hw]

/-- A reference below a bound, or no reference. -/
def V.below (n : Nat) : V → Bool
  | .cons a => decide (a < n)
  | .arr _ => false
  | _ => true

/-- A condition that can be checked. -/
theorem allocated_of_check {m : M} (hc : ∀ a, a < m.st.next → (m.st.car a).below m.st.next = true ∧ (m.st.cdr a).below m.st.next = true)
    (hr : (m.r.below m.st.next && m.exp.below m.st.next && m.env.below m.st.next && m.program.below m.st.next) = true)
    (hK : ∀ v, .v v ∈ m.K → v.below m.st.next = true) (hg : ∀ n, (m.st.globals n).below m.st.next = true) : Allocated m := by
  simp only [Bool.and_eq_true] at hr
  have key : ∀ v, InUse m v → v.below m.st.next = true := by
    intro v hu
    induction hu with
    | root h =>
      rcases h with rfl | rfl | rfl | rfl | h | ⟨n, rfl⟩
      · exact hr.1.1.1
      · exact hr.1.1.2
      · exact hr.1.2
      · exact hr.2
      · exact hK _ h
      · exact hg n
    | car _ ih => exact (hc _ (by simpa [V.below] using ih)).1
    | cdr _ ih => exact (hc _ (by simpa [V.below] using ih)).2
    | kont _ _ ih => simp [V.below] at ih
  exact ⟨fun a ha => by simpa [V.below] using key _ ha, fun i hi => by simpa [V.below] using key _ hi⟩

/-- The program of the examples of C86 and C87. -/
def demoRen : M := ready (load demoCells otherSt).1 (load demoCells otherSt).2

theorem demoRen_allocated : Allocated demoRen := by
  refine allocated_of_check ?_ (by decide +kernel) (fun v hv => by simp [demoRen, ready] at hv) ?_
  · have : ∀ a, a < 34 → (demoRen.st.car a).below demoRen.st.next = true ∧ (demoRen.st.cdr a).below demoRen.st.next = true := by decide +kernel
    exact fun a ha => this a (by rw [show (34 : Nat) = demoRen.st.next by decide +kernel]; exact ha)
  · have : ∀ (x : Sx) (s : St), (load x s).1.globals = s.globals := by
      intro x
      induction x with
      | a v => exact fun s => rfl
      | c x y ihx ihy => exact fun s => by simp only [load, St.cons]; rw [ihy, ihx]
    intro n
    rw [show demoRen.st.globals = (load demoCells otherSt).1.globals from rfl, this, show otherSt.globals = (load demoOther st0).1.globals from rfl, this]
    rfl

/-- Example: a program that makes and changes cells, and ends after 58 steps with a list. Before the first step all cells are moved, and after any number of
steps what is not in use is wiped out; the program goes on and ends with a list. -/
example (k : Nat) (hk : k ≤ 57) : (∃ s a, steps none cellPrims 58 (.next demoRen) = .fin s (.cons a) true) ∧
    ∃ m, Interrupted none cellPrims (fun m m' => m.st.next ≤ m'.st.next) (.next demoRen) 0 (.next (demoRen.shift 3 .tru)) ∧
      Interrupted none cellPrims (fun m m' => m.st.next ≤ m'.st.next) (.next demoRen) k (.next (M.wipe .tru m)) ∧
      ∃ s a, Interrupted none cellPrims (fun m m' => m.st.next ≤ m'.st.next) (.next demoRen) 58 (.fin s (.cons a) true) := by
  have h57 : ∃ m, steps none cellPrims 57 (.next demoRen) = .next m := by
    have : (match steps none cellPrims 57 (.next demoRen) with | .next _ => true | _ => false) = true := by decide +kernel
    revert this
    cases steps none cellPrims 57 (.next demoRen) with
    | next m => exact fun _ => ⟨m, rfl⟩
    | _ => exact fun h => nomatch h
  have h58 : ∃ s a, steps none cellPrims 58 (.next demoRen) = .fin s (.cons a) true := by
    have : (match steps none cellPrims 58 (.next demoRen) with | .fin _ (.cons _) true => true | _ => false) = true := by decide +kernel
    revert this
    generalize steps none cellPrims 58 (.next demoRen) = o
    intro h
    split at h
    · exact ⟨_, _, rfl⟩
    · cases h
  obtain ⟨m57, h57⟩ := h57
  obtain ⟨s, a, h58⟩ := h58
  have h0 : Interrupted none cellPrims (fun m m' => m.st.next ≤ m'.st.next) (.next demoRen) 0 (.next (demoRen.shift 3 .tru)) :=
    .collect .refl (shift_collected 3 .tru demoRen_allocated) (Nat.le_add_right _ _)
  have hk1 : ∃ m, steps none cellPrims k (.next demoRen) = .next m := by
    cases e : steps none cellPrims k (.next demoRen) with
    | next m => exact ⟨m, rfl⟩
    | _ =>
      have : ∀ d, steps none cellPrims (k + d) (.next demoRen) = steps none cellPrims k (.next demoRen) := by
        intro d
        induction d with
        | zero => rfl
        | succ d ih => rw [show k + (d + 1) = (k + d) + 1 from rfl, steps_succ, ih, e]; rfl
      have h := this (57 - k)
      rw [show k + (57 - k) = 57 by omega, h57, e] at h
      cases h
  obtain ⟨mk, hk1⟩ := hk1
  obtain ⟨m, h1⟩ := C90_goes_on cellPrims_blind none demoRen_allocated h0 (Nat.zero_le k) hk1
  have ha : Allocated m := by
    obtain ⟨ρ, hr⟩ := interrupted_growing cellPrims_blind none demoRen_allocated h1
    rw [hk1] at hr
    cases hr with
    | next hm => exact hm.rel.flip.allocated
  have h2 := Interrupted.collect h1 (wipe_collected .tru ha) (Nat.le_refl _)
  obtain ⟨m', h3⟩ := C90_goes_on cellPrims_blind none demoRen_allocated h2 hk h57
  have h4 := h3.step
  obtain ⟨s', v', e, ρ, _, _, _, _, _, _, _, _, hv⟩ := C90_collections cellPrims_blind none demoRen_allocated h4 h58
  cases hv with
  | cons _ => exact ⟨⟨s, a, h58⟩, m, h0, h2, s', _, e ▸ h4⟩

end Verif.Eval
