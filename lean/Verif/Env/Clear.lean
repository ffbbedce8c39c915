import Verif.Env.Props

/-!
# Property C143: the host clears the environment

`lbm_clear_env`, `src/lbm_c_interop.c:260-267`, over the heap of C07 and the global environment of C20. The evaluator is paused, as its comment asks for.
-/

namespace Verif.Env
open Verif.Heap

/-- `GLOBAL_ENV_ROOTS`, `include/env.h:28`. -/
def numRoots : Nat := 32

/-- The loop of `lbm_clear_env`, `src/lbm_c_interop.c:263-265`: from index `i` on, `k` more times. -/
def clearRoots : Nat → Nat → Glob → Glob
  | _, 0, g => g
  | i, k + 1, g => clearRoots (i + 1) k (fun n => if n = i then nil else g n)

/-- The roots of the global environment as `gc` sees them, `src/eval_cps.c:1618-1621`. -/
def globRoots (g : Glob) : List Val := (List.range numRoots).map g

/-- `lbm_clear_env`, `src/lbm_c_interop.c:260-267`. The result is the heap, the environment and the memory that was handed back. -/
def clearEnv (fuel : Nat) (h : Heap) (g : Glob) (ctxs : List CtxRoots) : Option (Out (Heap × Glob × List Release)) :=
  let g' := clearRoots 0 numRoots g
  match gc fuel h [] (globRoots g') ctxs with
  | some (.ok (h', rel)) => some (.ok (h', g', rel))
  | some .ub => some .ub
  | some .critical => some .critical
  | none => none

/-- What the processes hold. -/
def heldBy (h : Heap) (ctxs : List CtxRoots) (i : Nat) : Prop := Reachable h (rootsOf h [] [] ctxs) i

theorem clearRoots_get : ∀ (k i : Nat) (g : Glob) (n : Nat), clearRoots i k g n = if i ≤ n ∧ n < i + k then nil else g n := by
  intro k
  induction k with
  | zero => intro i g n; rw [if_neg (by omega)]; rfl
  | succ k ih =>
    intro i g n
    simp only [clearRoots]
    rw [ih]
    by_cases h1 : i + 1 ≤ n ∧ n < i + 1 + k
    · rw [if_pos h1, if_pos (by omega)]
    · rw [if_neg h1]
      by_cases h2 : n = i
      · rw [if_pos h2, if_pos (by omega)]
      · rw [if_neg h2, if_neg (by omega)]

theorem globRoots_clear (g : Glob) : ∀ v ∈ globRoots (clearRoots 0 numRoots g), v = nil := by
  intro v hv
  simp only [globRoots, List.mem_map, List.mem_range] at hv
  obtain ⟨n, hn, rfl⟩ := hv
  rw [clearRoots_get, if_pos (by omega)]

theorem reachable_clear (h : Heap) (g : Glob) (ctxs : List CtxRoots) (i : Nat) :
    Reachable h (rootsOf h [] (globRoots (clearRoots 0 numRoots g)) ctxs) i ↔ heldBy h ctxs i := by
  have hm : ∀ t j, Val.ptr t false j ∈ rootsOf h [] (globRoots (clearRoots 0 numRoots g)) ctxs ↔ Val.ptr t false j ∈ rootsOf h [] [] ctxs := by
    intro t j
    simp only [rootsOf, List.nil_append, List.mem_append]
    constructor
    · rintro (hc | hc)
      · exact absurd (globRoots_clear g _ hc) (by simp [nil])
      · exact hc
    · exact .inr
  constructor
  · intro hr
    induction hr with
    | root hc => exact .root ((hm _ _).mp hc)
    | step _ hj ih => exact .step ih hj
  · intro hr
    unfold heldBy at hr
    induction hr with
    | root hc => exact .root ((hm _ _).mpr hc)
    | step _ hj ih => exact .step ih hj

open Classical in
/-- **C143.**  Clearing the environment ends. After it no symbol is bound; every value that a process holds is as it was, and all other cells are free, whatever was bound to
them, and their memory has been handed back, once each. -/
theorem C143_clear {h : Heap} {g : Glob} {ctxs : List CtxRoots} (hw : WF h) (hcap : 0 < h.gcCap) (ho : RootsOK h [] (globRoots g) ctxs) (hfit : StackFits h)
    (hd : h.dropped = false) (hplain : ∀ i < h.size, ¬ heldBy h ctxs i → PlainContent (h.cells i).content) :
    ∃ n0 h' g' rel, (∀ n, n0 ≤ n → clearEnv n h g ctxs = some (.ok (h', g', rel))) ∧
      (∀ s f, 0 < f → globalLookup f h' g' s = some none) ∧
      (∀ i, heldBy h ctxs i → h'.cells i = h.cells i) ∧
      (∃ l, FreeOK h' l ∧ (∀ i, i ∈ l ↔ i < h.size ∧ ¬ heldBy h ctxs i) ∧ numFree h' = l.length) ∧
      rel = ((List.range h.size).filter (fun i => ¬ heldBy h ctxs i)).flatMap (fun i => (h.cells i).content.owned) := by
  have hr := reachable_clear h g ctxs
  have ho' : RootsOK h [] (globRoots (clearRoots 0 numRoots g)) ctxs :=
    ⟨ho.pre, fun v hv => by rw [globRoots_clear g v hv]; exact .done rfl, ho.env, ho.regs, ho.mail, ho.stack⟩
  have hp' : ∀ i < h.size, ¬ Reachable h (rootsOf h [] (globRoots (clearRoots 0 numRoots g)) ctxs) i → PlainContent (h.cells i).content :=
    fun i hi hn => hplain i hi (fun hh => hn ((hr i).mpr hh))
  obtain ⟨n0, h1, r1, e1, p1⟩ := C07_gc_preserves hw hcap ho' hfit hd hp'
  obtain ⟨n1, h2, r2, e2, l, hl, hm, hn, _, hrel⟩ := C08_gc_reclaims hw hcap ho' hfit hd hp'
  have he : h1 = h2 ∧ r1 = r2 := by
    have a := e1 (n0 + n1) (by omega)
    rw [e2 (n0 + n1) (by omega)] at a
    simp only [Option.some.injEq, Out.ok.injEq, Prod.mk.injEq] at a
    exact ⟨a.1.symm, a.2.symm⟩
  obtain ⟨rfl, rfl⟩ := he
  refine ⟨n0, h1, clearRoots 0 numRoots g, r1, fun n hn => ?_, fun s f hf => ?_, fun i hi => p1.1 i ((hr i).mpr hi), ⟨l, hl, fun i => ?_, hn⟩, ?_⟩
  · simp only [clearEnv, e1 n hn]
  · obtain ⟨f, rfl⟩ : ∃ k, f = k + 1 := ⟨f - 1, by omega⟩
    have hb := bucket_lt s
    have hg : clearRoots 0 numRoots g (bucket s) = nil := by
      rw [clearRoots_get]
      exact if_pos ⟨Nat.zero_le _, by simp only [numRoots]; omega⟩
    simp only [globalLookup, globalLoop, hg]
    simp [nil, Val.isPtr]
  · rw [hm i, hr i]
  · rw [hrel]
    congr 1
    apply List.filter_congr
    intro i _
    simp only [hr i]

/-- An environment of `demo` with a binding of the symbol 0x40001 to a channel in cell 7. -/
def demoClear : Glob := fun n => if n = 1 then .ptr .cons false 5 else nil

theorem demoClear_roots : RootsOK demo [] (globRoots demoClear) demoCtx :=
  ⟨by simp, fun v hv => by
      simp only [globRoots, List.mem_map, List.mem_range] at hv
      obtain ⟨n, _, rfl⟩ := hv
      unfold demoClear
      by_cases h : n = 1
      · rw [if_pos h]; exact demo_roots.glob _ (by simp [demoGlob])
      · rw [if_neg h]; exact .done rfl, demo_roots.env, demo_roots.regs, demo_roots.mail, demo_roots.stack⟩

/-- In `demo`, nobody but the environment holds the channel in cell 7: it is freed. -/
example : ∃ n h' g' rel l, clearEnv n demo demoClear demoCtx = some (.ok (h', g', rel)) ∧ FreeOK h' l ∧ 7 ∈ l := by
  have key : ∀ i, heldBy demo demoCtx i → i < 3 := by
    intro i hi
    unfold heldBy at hi
    induction hi with
    | root hm => simp [rootsOf, demoCtx, nil, inHeap, demo] at hm; omega
    | @step i t j _ hj ih =>
      have := below8 (P := fun i => i < 3 → ∀ t j, Val.ptr t false j ∈ (demo.cells i).content.refs → j < 3)
        (by simp only [demo, Content.refs, nil]; simp; grind) i (by omega) ih t j hj
      exact this
  obtain ⟨n0, h', g', rel, e, _, _, ⟨l, hl, hm, _⟩, _⟩ := C143_clear demo_wf (by decide) demoClear_roots demo_fits rfl (fun i hi _ => demo_plain i hi)
  exact ⟨n0, h', g', rel, l, e n0 (Nat.le_refl _), hl, (hm 7).2 ⟨by decide, fun h => absurd (key 7 h) (by decide)⟩⟩

end Verif.Env
