import Verif.Eval.RenProps

/-!
# Several processes

The contexts of `src/eval_cps.c` with one common store: the running context takes evaluation steps (`src/eval_cps.c:5382-5385`), and when its quota is used up,
unless it is in an atomic block, any other one that is not blocked goes on (5390-5397).

Simplifications: the scheduler may choose any context after any step (which context it chooses, and when, is modelled in `Verif.Sched`); messages and
blocking operations are not modelled, a context that is not chosen is as good as blocked. Collections are those of C90.
-/

namespace Verif.Eval

/-- The registers and the stack of a context (`eval_context_t`, `include/eval_cps.h:57-90`). -/
structure Ctx where
  K : List W
  r : V
  exp : V
  env : V
  app : Bool
  flags : Nat
  program : V

/-- The context in a store. -/
def Ctx.mach (c : Ctx) (s : St) : M := ⟨c.K, c.r, c.exp, c.env, c.app, c.flags, c.program, s⟩

/-- The context of a machine. -/
def M.ctx (m : M) : Ctx := ⟨m.K, m.r, m.exp, m.env, m.app, m.flags, m.program⟩

/-- A place for a process: nothing yet, a process, or the result that it ended with and the store at that time. -/
inductive Slot where
  | free
  | run (c : Ctx)
  | ended (s : St) (v : V) (ok : Bool)

/-- The store, the processes, and the process that ran last (`ctx_running`). -/
structure Pool where
  st : St
  slot : Nat → Slot
  cur : Nat

/-- Write a slot. -/
def Pool.put (p : Pool) (i : Nat) (x : Slot) (s : St) : Pool := { st := s, slot := fun j => if j = i then x else p.slot j, cur := i }

/-- What process `i` sees of the store: all but whether another process is in an atomic block. -/
def Pool.seen (p : Pool) (i : Nat) : St := { p.st with atomic := p.st.atomic && decide (p.cur = i) }

/-- One step of the whole: process `i` takes a step (`some i`), or something else happens (`none`). `sz` are the sizes of the stacks. -/
inductive PStep (sz : Nat → Option Nat) (P : Prims) : Pool → Option Nat → Pool → Prop
  /-- the process goes on; in an atomic block no other one can be chosen (`is_atomic`, line 5390) -/
  | go {p i c m} : p.slot i = .run c → (p.st.atomic = true → p.cur = i) → step (sz i) P (c.mach p.st) = .next m → PStep sz P p (some i) (p.put i (.run m.ctx) m.st)
  /-- the process ends -/
  | fin {p i c s v ok} : p.slot i = .run c → (p.st.atomic = true → p.cur = i) → step (sz i) P (c.mach p.st) = .fin s v ok → PStep sz P p (some i) (p.put i (.ended s v ok) s)
  /-- a new process -/
  | new {p i c} : p.slot i = .free → PStep sz P p none { p with slot := fun j => if j = i then .run c else p.slot j }
  /-- a collection that keeps what each process can use -/
  | collect {p p' π κ} : p'.cur = p.cur → p'.st.atomic = p.st.atomic → p.st.next ≤ p'.st.next → (∀ i, p.slot i = .free → p'.slot i = .free) →
      (∀ i s v ok, p.slot i = .ended s v ok → p'.slot i = .ended s v ok) →
      (∀ i c, p.slot i = .run c → ∃ c', p'.slot i = .run c' ∧ Collected (c.mach p.st) (c'.mach p'.st) π κ) → PStep sz P p none p'

/-- Any number of steps, each of which satisfies `Q`; `ls` says who took them. -/
inductive Runs (sz : Nat → Option Nat) (P : Prims) (Q : Pool → Option Nat → Pool → Prop) (p0 : Pool) : List (Option Nat) → Pool → Prop
  | nil : Runs sz P Q p0 [] p0
  | snoc {ls p l p'} : Runs sz P Q p0 ls p → PStep sz P p l p' → Q p l p' → Runs sz P Q p0 (ls ++ [l]) p'

/-- A step of another process does not change what process `i` can use: no cell and no captured stack that it can reach from its registers, its stack and the
global variables, and no global variable. (Cells are not given back without a collection.) -/
def Polite (i : Nat) (p : Pool) (l : Option Nat) (p' : Pool) : Prop :=
  ∀ j c, l = some j → j ≠ i → p.slot i = .run c →
    (∀ a, InUse (c.mach p.st) (.cons a) → a < p'.st.next ∧ p'.st.car a = p.st.car a ∧ p'.st.cdr a = p.st.cdr a) ∧
    (∀ k, InUse (c.mach p.st) (.arr k) → k < p'.st.nk ∧ p'.st.konts k = p.st.konts k) ∧
    (∀ n, p'.st.globals n = p.st.globals n) ∧ p.st.next ≤ p'.st.next

/-! ## Proofs -/

theorem moved_id (v : V) : v.moved id id = v := by cases v <;> rfl
theorem movedW_id (w : W) : w.moved id id = w := by cases w <;> simp [W.moved, moved_id]
theorem movedK_id (K : List W) : K.map (·.moved id id) = K := by simp [movedW_id]

/-- What a machine can use does not depend on the flag for atomic blocks. -/
theorem inUse_atomic {c : Ctx} {s : St} {b : Bool} {v : V} : InUse (c.mach { s with atomic := b }) v ↔ InUse (c.mach s) v := by
  constructor
  · intro h
    induction h with
    | root h => exact .root h
    | car _ ih => exact .car ih
    | cdr _ ih => exact .cdr ih
    | kont _ hk ih => exact .kont ih hk
  · intro h
    induction h with
    | root h => exact .root h
    | car _ ih => exact .car ih
    | cdr _ ih => exact .cdr ih
    | kont _ hk ih => exact .kont ih hk

/-- What there is in slot `i`, as a state of the machine. -/
def Pool.out (p : Pool) (i : Nat) : Option Out :=
  match p.slot i with
  | .free => none
  | .run c => some (.next (c.mach (p.seen i)))
  | .ended s v ok => some (.fin s v ok)

theorem mach_ctx (m : M) : m.ctx.mach m.st = m := rfl

/-- The steps of process `i` among those of the others are steps of its machine with interruptions. -/
theorem interrupted_of_runs {sz : Nat → Option Nat} {P : Prims} {p0 p : Pool} {i : Nat} {ls : List (Option Nat)} (h : Runs sz P (Polite i) p0 ls p) {o0 : Out}
    (h0 : p0.out i = some o0) :
    ∃ o, p.out i = some o ∧ Interrupted (sz i) P (fun m m' => m.st.next ≤ m'.st.next) o0 (ls.count (some i)) o := by
  induction h with
  | nil => exact ⟨o0, h0, .refl⟩
  | @snoc ls p l p' _ hs hq ih =>
    obtain ⟨o, ho, hi⟩ := ih
    rw [List.count_append]
    -- what another process does
    have other : ∀ j, l = some j → j ≠ i → p'.cur = j → p'.slot i = p.slot i → (p.st.atomic = true → p.cur = j) →
        ∃ o, p'.out i = some o ∧ Interrupted (sz i) P (fun m m' => m.st.next ≤ m'.st.next) o0 (ls.count (some i) + [l].count (some i)) o := by
      intro j hl hj hc hsl hat
      rw [show [l].count (some i) = 0 by rw [hl]; simp [hj], Nat.add_zero]
      simp only [Pool.out] at ho ⊢
      rw [hsl]
      cases hsi : p.slot i with
      | free => rw [hsi] at ho; cases ho
      | ended s v ok => rw [hsi] at ho; exact ⟨o, ho, hi⟩
      | run c =>
        rw [hsi] at ho
        cases ho
        refine ⟨_, rfl, ?_⟩
        obtain ⟨q1, q2, q3, q4⟩ := hq j c hl hj hsi
        have e1 : (p.seen i).atomic = false := by
          simp only [Pool.seen]
          cases ha : p.st.atomic with
          | false => rfl
          | true => simp [hat ha, hj]
        have e2 : (p'.seen i).atomic = false := by simp [Pool.seen, hc, hj]
        refine .collect (π := id) (κ := id) hi ⟨fun _ _ _ _ e => e, fun _ _ _ _ e => e, fun a ha => ?_, fun k hk => ?_, fun n => ?_, ?_, (movedK_id _).symm, (moved_id _).symm,
          (moved_id _).symm, (moved_id _).symm, (moved_id _).symm, rfl, rfl⟩ q4
        · obtain ⟨b1, b2, b3⟩ := q1 a (inUse_atomic.1 ha)
          exact ⟨b1, by rw [moved_id]; exact b2, by rw [moved_id]; exact b3⟩
        · obtain ⟨b1, b2⟩ := q2 k (inUse_atomic.1 hk)
          exact ⟨b1, by rw [movedK_id]; exact b2⟩
        · rw [moved_id]; exact q3 n
        · exact e2.trans e1.symm
    -- what the process itself does
    have own : ∀ c, p.slot i = .run c → (p.st.atomic = true → p.cur = i) → Interrupted (sz i) P (fun m m' => m.st.next ≤ m'.st.next) o0 (ls.count (some i) + 1)
        (step (sz i) P (c.mach p.st)) := by
      intro c hsl hat
      have e : c.mach p.st = c.mach (p.seen i) := by
        have : p.seen i = p.st := by
          simp only [Pool.seen]
          cases ha : p.st.atomic with
          | false => simp only [Bool.false_and]; rw [← ha]
          | true => simp only [hat ha, decide_true, Bool.and_true]; rw [← ha]
        rw [this]
      simp only [Pool.out, hsl] at ho
      cases ho
      rw [e]
      exact hi.step
    cases hs with
    | @go j c m hsl hat hst =>
      by_cases hj : j = i
      · subst hj
        have := own c hsl hat
        rw [hst] at this
        rw [show [some j].count (some j) = 1 by simp]
        refine ⟨_, ?_, this⟩
        simp only [Pool.out, Pool.put, Pool.seen, if_true, decide_true, Bool.and_true]
        rfl
      · exact other j rfl hj rfl (by simp [Pool.put, Ne.symm hj]) hat
    | @fin j c s v ok hsl hat hst =>
      by_cases hj : j = i
      · subst hj
        have := own c hsl hat
        rw [hst] at this
        rw [show [some j].count (some j) = 1 by simp]
        refine ⟨_, ?_, this⟩
        simp [Pool.out, Pool.put]
      · exact other j rfl hj rfl (by simp [Pool.put, Ne.symm hj]) hat
    | @new j c hsl =>
      have hj : i ≠ j := by
        rintro rfl
        rw [Pool.out, hsl] at ho
        cases ho
      refine ⟨o, ?_, hi⟩
      simp only [Pool.out, hj, if_false] at ho ⊢
      exact ho
    | collect hc ha hn hf he hr =>
      rename_i π κ
      simp only [Pool.out] at ho ⊢
      cases hsi : p.slot i with
      | free => rw [hsi] at ho; cases ho
      | ended s v ok => rw [hsi] at ho; rw [he i s v ok hsi]; exact ⟨o, ho, hi⟩
      | run c =>
        rw [hsi] at ho
        cases ho
        obtain ⟨c', hc', hcol⟩ := hr i c hsi
        rw [hc']
        refine ⟨_, rfl, .collect (π := π) (κ := κ) hi ?_ hn⟩
        exact ⟨fun a b h1 h2 => hcol.cells_apart a b (inUse_atomic.1 h1) (inUse_atomic.1 h2), fun a b h1 h2 => hcol.stacks_apart a b (inUse_atomic.1 h1) (inUse_atomic.1 h2),
          fun a h1 => hcol.cells a (inUse_atomic.1 h1), fun a h1 => hcol.stacks a (inUse_atomic.1 h1), hcol.globals, by simp [Ctx.mach, Pool.seen, hc, ha], hcol.K, hcol.r,
          hcol.exp, hcol.env, hcol.program, hcol.app, hcol.flags⟩

end Verif.Eval
