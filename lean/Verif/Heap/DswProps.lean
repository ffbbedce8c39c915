import Verif.Heap.DswGc
import Verif.Heap.Props

/-
Property theorems about the pointer reversal collector (C89), with the vocabulary of `Verif.Heap.Spec`.
-/

namespace Verif.Heap

/-- A well-formed heap for this collector: pointers are typed, no internal continuation markers, no mark bits, and the dependency of an open channel is not in
the heap. Lisp arrays may be empty, and may contain themselves. -/
structure RevWF (h : Heap) : Prop where
  pair : ∀ i < h.size, ∀ a d, (h.cells i).content = .pair a d → OkRef h a ∧ OkRef h d
  arr : ∀ i < h.size, ∀ hd da es, (h.cells i).content = .lispArr hd da es → ∀ e ∈ es, OkRef h e
  chan : ∀ i < h.size, ∀ c dep, (h.cells i).content = .channel (some c) dep → ∀ t j, dep ≠ .ptr t false j
  clean : ∀ i, (h.cells i).mark = false ∧ (h.cells i).index = 0

/-- C89 for one mark phase: it ends, whatever the shape of the graph; every field of the heap and every cell is as before except for the mark bits; and the marked
cells are exactly those that can be reached from the root. No GC stack is used. -/
theorem C89_mark_phase_partial {null : Nat} {h : Heap} {root : Val} (hw : RevWF h) (hnull : h.size ≤ null) (ho : OkRef h root) :
    ∃ n0 h', (∀ n, n0 ≤ n → dswPhase null n h root = some (.ok h')) ∧ h' = { h with cells := h'.cells } ∧
      (∀ i, h'.cells i = { h.cells i with mark := (h'.cells i).mark }) ∧ ∀ i, (h'.cells i).mark = true ↔ Reachable h [root] i := by
  have hd : DTyped h := ⟨hw.pair, hw.arr⟩
  have hroots : ∀ v ∈ [root], OkRef h v := fun v hv => by
    simp only [List.mem_cons, List.not_mem_nil, or_false] at hv
    subst hv; exact ho
  by_cases hp : root.isPtr = true
  · obtain ⟨h', f', ⟨k, hk⟩, p⟩ := dsw_good hd hnull (unmarked h + 1) h (fun _ => false) root (nullPtr null) [] (Nat.lt_succ_self _)
      ⟨rfl, fun i _ => rfl, fun _ _ => rfl⟩ ho
    refine ⟨k + 1, h', fun n hn => ?_, p.eq, p.cell, fun i => ⟨fun hi => ?_, fun hi => ?_⟩⟩
    · obtain ⟨m, rfl⟩ : ∃ m, n = (m + 1) + k := ⟨n - 1 - k, by omega⟩
      unfold dswPhase
      rw [if_pos hp, hk]
      simp only [dswRun, dswStep, dswRet, nullPtr, if_true]
    · refine p.path (Reachable h [root]) (fun v hv t j e _ => .root (t := t) (e ▸ hv)) (fun j hj v hv t l e _ => ?_) i (hw.clean i).1 hi
      subst e
      exact .step hj (refs_refsD hv)
    · induction hi with
      | root hm => exact p.reached _ hm _ _ rfl
      | step hi hj ih => exact p.closed _ (hw.clean _).1 ih _ (refsD_refs hw.chan (rev_reachable_lt hd hw.chan hroots hi) hj) _ _ rfl
  · refine ⟨0, h, fun n _ => by unfold dswPhase; rw [if_neg hp], rfl, fun _ => rfl, fun i => ⟨fun hi => ?_, fun hi => ?_⟩⟩
    · rw [(hw.clean i).1] at hi; cases hi
    · exfalso
      induction hi with
      | root hm =>
        simp only [List.mem_cons, List.not_mem_nil, or_false] at hm
        subst hm
        exact hp rfl
      | step _ _ ih => exact ih

open Classical in
/-- C89 for a whole collection: it finishes normally, for every GC stack size and every shape of the graph, with a heap that is like the one before in every reachable
cell and in the constant heap; exactly the unreachable cells are on the free list and counted, and the memory owned by exactly the unreachable objects has been handed
back, once each, in the order of their cells. -/
theorem C89_gc_partial {null : Nat} {h : Heap} {pre glob : List Val} {ctxs : List CtxRoots} (hw : RevWF h) (hnull : h.size ≤ null) (ho : RootsOK h pre glob ctxs)
    (hplain : ∀ i < h.size, ¬ Reachable h (rootsOf h pre glob ctxs) i → PlainContent (h.cells i).content) :
    ∃ n0 h' rel, (∀ n, n0 ≤ n → gcRev null n h pre glob ctxs = some (.ok (h', rel))) ∧
      (∀ i, Reachable h (rootsOf h pre glob ctxs) i → h'.cells i = h.cells i) ∧ h'.consts = h.consts ∧ h'.size = h.size ∧ (∀ i, (h'.cells i).mark = false) ∧
      ∃ l, FreeOK h' l ∧ (∀ i, i ∈ l ↔ i < h.size ∧ ¬ Reachable h (rootsOf h pre glob ctxs) i) ∧
        numFree h' = l.length ∧ h'.gcRecovered = l.length ∧
        rel = ((List.range h.size).filter (fun i => ¬ Reachable h (rootsOf h pre glob ctxs) i)).flatMap (fun i => (h.cells i).content.owned) := by
  have hd : DTyped h := ⟨hw.pair, hw.arr⟩
  obtain ⟨n0, hm, e0, same, hidx, hrec, hmark⟩ := rev_markAll hd hw.clean hw.chan hnull ho
  have e1 : hm.size = h.size := same.size
  have e3 : ∀ i, (hm.cells i).content = (h.cells i).content := same.content
  obtain ⟨h1, rel, hs, inv⟩ := sweep_spec (h := hm) same.freelist (by rw [same.numAlloc, e1]; rfl) (by
    intro i hi hmi
    rw [e3]
    refine hplain i (by rw [← e1]; exact hi) ?_
    rw [← hmark]; simp [hmi])
  refine ⟨n0, newFreelistLength h1, rel, fun n hn => ?_, fun i hi => ?_, ?_, ?_, fun i => ?_, _, freeOK_gc inv, fun i => ?_, freeOK_len (freeOK_gc inv), ?_, ?_⟩
  · have e0' := e0 n hn
    rw [gcRev_eq, e0']
    simp only [hs]
  · show h1.cells i = h.cells i
    have hi' := rev_reachable_lt hd hw.chan (roots_okRef ho) hi
    rw [inv.kept i (by rw [e1]; exact hi') ((hmark i).2 hi)]
    have hc := hw.clean i
    have h3 := e3 i
    have h4 := hidx i
    cases hx : hm.cells i with
    | mk c m ix =>
      cases hy : h.cells i with
      | mk c' m' ix' =>
        rw [hx] at h3 h4; rw [hy] at hc h3
        simp_all
  · show h1.consts = _
    rw [inv.consts]; exact same.consts
  · show h1.size = _
    rw [inv.size, e1]
  · show (h1.cells i).mark = false
    rcases Nat.lt_or_ge i hm.size with hi | hi
    · cases hx : (hm.cells i).mark with
      | true => rw [inv.kept i hi hx]
      | false =>
        obtain ⟨d, hd⟩ := inv.freed i hi hx
        rw [hd]
    · rw [inv.above i hi, same.outside i (by rw [← same.size]; exact hi)]
      exact (hw.clean i).1
  · rw [mem_unmarkedTo, e1, ← hmark]; simp
  · show h1.gcRecovered = _
    rw [inv.recov, hrec, Nat.zero_add]
  · rw [inv.rels, e1]; exact releasesTo_eq e3 hmark _

/-! ### The hypotheses can be met -/

theorem demo_rev : RevWF demo := by
  refine ⟨demo_wf.pair, ?_, ?_, demo_wf.clean⟩
  · exact below8 (P := fun i => ∀ hd da es, (demo.cells i).content = .lispArr hd da es → ∀ e ∈ es, OkRef demo e) (by simp [demo, OkRef, kindOK, nil])
  · exact below8 (P := fun i => ∀ c dep, (demo.cells i).content = .channel (some c) dep → ∀ t j, dep ≠ .ptr t false j) (by simp [demo, nil])

/-- In `demo`, the unreachable pair 4 is recovered. -/
example : ∃ n h' rel l, gcRev 1000 n demo demoPre demoGlob demoCtx = some (.ok (h', rel)) ∧ FreeOK h' l ∧ 4 ∈ l ∧ h'.cells 0 = demo.cells 0 := by
  obtain ⟨n0, h', rel, hgc, hk, _, _, _, l, hf, hm, _⟩ := C89_gc_partial (null := 1000) demo_rev (by decide) demo_roots (fun i hi _ => demo_plain i hi)
  exact ⟨n0, h', rel, l, hgc n0 (Nat.le_refl _), hf, (hm 4).2 ⟨by decide, demo_unreachable⟩, hk 0 (.root (t := .cons) (by unfold rootsOf demoPre; simp))⟩

/-- The array that contains itself, on which the collector with a stack does not end (`C09_self_array_violated`). -/
example : ∃ n h', dswPhase 1000 n selfArray (.ptr .lispArray false 0) = some (.ok h') ∧ (h'.cells 0).mark = true := by
  have hw : RevWF selfArray := by
    refine ⟨?_, ?_, ?_, ?_⟩
    · intro i _ a d h; simp [selfArray] at h
    · intro i _ hd da es h; simp [selfArray] at h; obtain ⟨_, _, rfl⟩ := h
      simp [OkRef, kindOK, selfArray]
    · intro i _ c dep h; simp [selfArray] at h
    · intro i; simp [selfArray]
  obtain ⟨n0, h', h1, _, _, h2⟩ := C89_mark_phase_partial (null := 1000) (root := .ptr .lispArray false 0) hw (by decide) (by simp [OkRef, kindOK, selfArray])
  exact ⟨n0, h', h1 n0 (Nat.le_refl _), (h2 0).2 (.root (t := .lispArray) (by simp))⟩

/-- The empty array, on which the collector with a stack reads outside the array (`C07_empty_array_violated`). -/
example : ∃ h', dswPhase 1000 10 emptyArray (.ptr .lispArray false 0) = some (.ok h') ∧ (h'.cells 0).mark = true := by
  have hv : (match dswPhase 1000 10 emptyArray (.ptr .lispArray false 0) with
      | some (.ok h') => (h'.cells 0).mark | _ => false) = true := by decide +kernel
  split at hv
  · next h' hg => exact ⟨h', hg, hv⟩
  · cases hv

/-! ### Where it fails -/

/-- A channel that depends on a pair. -/
def depChan : Heap :=
  { size := 2,
    cells := fun i => match i with
      | 0 => { content := .channel (some (60, 61)) (.ptr .cons false 1) }
      | _ => { content := .pair (.imm 8 5) nil },
    consts := fun _ => { content := .pair nil nil },
    freelist := nil, numAlloc := 2, gcCap := 20 }

/-- C89 fails for a channel with a dependency in the heap: the marker does not look at the dependency, so that it is reclaimed although the channel is in use. The collector
with a stack keeps it. -/
theorem C89_channel_violated : Reachable depChan (rootsOf depChan [.ptr .channel false 0] [] []) 1 ∧
    (∃ h' rel, gcRev 1000 20 depChan [.ptr .channel false 0] [] [] = some (.ok (h', rel)) ∧ (h'.cells 1).content = .pair recovered nil) ∧
    ∃ h' rel, gc 20 depChan [.ptr .channel false 0] [] [] = some (.ok (h', rel)) ∧ (h'.cells 1).content = .pair (.imm 8 5) nil := by
  refine ⟨.step (i := 0) (t := .cons) (.root (t := .channel) (by simp [rootsOf])) (by simp [depChan, Content.refs]), ?_, ?_⟩
  · have hv : (match gcRev 1000 20 depChan [.ptr .channel false 0] [] [] with
        | some (.ok (h', _)) => decide ((h'.cells 1).content = .pair recovered nil)
        | _ => false) = true := by decide +kernel
    split at hv
    · next h' rel hg => exact ⟨h', rel, hg, of_decide_eq_true hv⟩
    · cases hv
  · have hv : (match gc 20 depChan [.ptr .channel false 0] [] [] with
        | some (.ok (h', _)) => decide ((h'.cells 1).content = .pair (.imm 8 5) nil)
        | _ => false) = true := by decide +kernel
    split at hv
    · next h' rel hg => exact ⟨h', rel, hg, of_decide_eq_true hv⟩
    · cases hv

/-- A saved stack with one continuation marker, number 1, and a list that is used elsewhere and starts in cell 1. -/
def savedStack : Heap :=
  { size := 3,
    cells := fun i => match i with
      | 0 => { content := .lispArr 100 101 [.cont 1] }
      | 1 => { content := .pair (.imm 8 5) (.ptr .cons false 2) }
      | _ => { content := .pair (.imm 8 6) nil },
    consts := fun _ => { content := .pair nil nil },
    freelist := nil, numAlloc := 3, gcCap := 20 }

/-- C89 fails with a saved continuation: a continuation marker on the saved stack counts as a pointer to the cell with its number; that cell is marked, but what it refers to is
not, and later references to it find the mark. Here the rest of the list is reclaimed although the list is in use. The collector with a stack keeps it. -/
theorem C89_continuation_violated : WF savedStack ∧ RootsOK savedStack [.ptr .lispArray false 0, .ptr .cons false 1] [] [] ∧
    Reachable savedStack (rootsOf savedStack [.ptr .lispArray false 0, .ptr .cons false 1] [] []) 2 ∧
    (∃ h' rel, gcRev 1000 30 savedStack [.ptr .lispArray false 0, .ptr .cons false 1] [] [] = some (.ok (h', rel)) ∧ (h'.cells 2).content = .pair recovered nil) ∧
    ∃ h' rel, gc 30 savedStack [.ptr .lispArray false 0, .ptr .cons false 1] [] [] = some (.ok (h', rel)) ∧ (h'.cells 2).content = .pair (.imm 8 6) nil := by
  refine ⟨⟨?_, ?_, ?_, ?_⟩, ⟨?_, by simp, by simp, by simp, by simp, by simp⟩, ?_, ?_, ?_⟩
  · intro i _ a d
    unfold savedStack; simp only; split <;> intro h <;> cases h <;> simp [OkRef, kindOK, nil]
  · intro i _ c dep; unfold savedStack; simp only; split <;> simp
  · intro i _ hd da es; unfold savedStack; simp only
    split <;> intro h <;> cases h
    simp [OkElem]
  · intro i; unfold savedStack; simp only; split <;> simp
  · intro v hv
    simp only [List.mem_cons, List.not_mem_nil, or_false] at hv
    rcases hv with rfl | rfl
    · exact ⟨by decide, _, _, _, rfl⟩
    · exact ⟨by decide, _, _, rfl⟩
  · exact .step (i := 1) (t := .cons) (.root (t := .cons) (by simp [rootsOf])) (by simp [savedStack, Content.refs])
  · have hv : (match gcRev 1000 30 savedStack [.ptr .lispArray false 0, .ptr .cons false 1] [] [] with
        | some (.ok (h', _)) => decide ((h'.cells 2).content = .pair recovered nil)
        | _ => false) = true := by decide +kernel
    split at hv
    · next h' rel hg => exact ⟨h', rel, hg, of_decide_eq_true hv⟩
    · cases hv
  · have hv : (match gc 30 savedStack [.ptr .lispArray false 0, .ptr .cons false 1] [] [] with
        | some (.ok (h', _)) => decide ((h'.cells 2).content = .pair (.imm 8 6) nil)
        | _ => false) = true := by decide +kernel
    split at hv
    · next h' rel hg => exact ⟨h', rel, hg, of_decide_eq_true hv⟩
    · cases hv

end Verif.Heap
