import Verif.Heap.Alloc

/-
Property theorems about the cons heap and the garbage collector (C07 to C10). Statements use
the heap's functions (`Verif.Heap.Model`) and the vocabulary of `Verif.Heap.Spec`.
-/

namespace Verif.Heap

/-! ### A concrete heap -/

/-- A pair of a list and an array that points back to the pair (reachable from a root), an
environment binding a channel, and an unreachable pair that holds the only pointer to an
unreachable boxed number. -/
def demo : Heap :=
  { size := 8,
    cells := fun i => match i with
      | 0 => { content := .pair (.ptr .cons false 1) (.ptr .lispArray false 2) }
      | 1 => { content := .pair (.imm 8 5) nil }
      | 2 => { content := .lispArr 100 101 [.ptr .cons false 1, .ptr .cons false 0, .imm 8 7] }
      | 3 => { content := .boxed 55 }
      | 4 => { content := .pair (.ptr .i32 false 3) nil }
      | 5 => { content := .pair (.ptr .cons false 6) nil }
      | 6 => { content := .pair (.sym 0x40000) (.ptr .channel false 7) }
      | 7 => { content := .channel (some (60, 61)) nil }
      | _ => { content := .pair nil nil },
    consts := fun _ => { content := .pair nil nil },
    freelist := nil, numAlloc := 8, gcCap := 30 }

def demoPre : List Val := [.ptr .cons false 0]
def demoGlob : List Val := [nil, .ptr .cons false 5]
def demoCtx : List CtxRoots :=
  [{ env := nil, exp := .imm 8 1, program := nil, r := nil, mailbox := [.ptr .cons false 1],
     stack := [.imm 8 3, .ptr .cons false 0] }]

theorem below8 {P : Nat → Prop} (h : P 0 ∧ P 1 ∧ P 2 ∧ P 3 ∧ P 4 ∧ P 5 ∧ P 6 ∧ P 7) : ∀ i < 8, P i := by
  intro i hi
  have : i = 0 ∨ i = 1 ∨ i = 2 ∨ i = 3 ∨ i = 4 ∨ i = 5 ∨ i = 6 ∨ i = 7 := by omega
  obtain ⟨h0, h1, h2, h3, h4, h5, h6, h7⟩ := h
  rcases this with rfl | rfl | rfl | rfl | rfl | rfl | rfl | rfl <;> assumption

theorem demo_wf : WF demo := by
  refine ⟨?_, ?_, ?_, ?_⟩
  · exact below8 (P := fun i => ∀ a d, (demo.cells i).content = .pair a d → OkRef demo a ∧ OkRef demo d)
      (by simp [demo, OkRef, kindOK, nil, Content.refs])
  · exact below8 (P := fun i => ∀ c dep, (demo.cells i).content = .channel (some c) dep → OkRef demo dep)
      (by simp [demo, OkRef, kindOK, nil])
  · exact below8 (P := fun i => ∀ hd da es, (demo.cells i).content = .lispArr hd da es →
        es ≠ [] ∧ ∀ e ∈ es, OkElem demo e)
      (by simp [demo, OkElem, OkRef, kindOK, nil])
  · intro i; unfold demo; simp only; split <;> simp

theorem demo_roots : RootsOK demo demoPre demoGlob demoCtx := by
  refine ⟨?_, ?_, ?_, ?_, ?_, ?_⟩
  · simp [demoPre, OkRef, kindOK, demo]
  · intro v hv
    simp only [demoGlob, List.mem_cons, List.not_mem_nil, or_false] at hv
    rcases hv with rfl | rfl
    · exact .done rfl
    · exact .bind (key := .sym 0x40000) (val := .ptr .channel false 7) (rest := nil) (by decide) (by decide) rfl rfl rfl
        (.done rfl)
  · simp [demoCtx]; exact .done rfl
  · simp [demoCtx, OkRef, nil]
  · simp [demoCtx, OkRef, kindOK, demo]
  · simp [demoCtx, OkRef, kindOK, demo]

theorem demo_plain : ∀ i < 8, PlainContent (demo.cells i).content :=
  below8 (by simp [demo, PlainContent, nil, symIndI, symIndU, symIndF, symDefragArray, symArray,
    symLispArray, symChannel, symCustom, symDefragMem])

theorem demo_fits : StackFits demo := by
  refine ⟨fun _ => 0, 1, ?_, by decide⟩
  exact below8 (P := fun i => ∀ hd da es, (demo.cells i).content = .lispArr hd da es → (0 < 1 ∧
      ∀ j, Val.ptr .lispArray false j ∈ es → 0 < 0)) (by simp [demo])

theorem demo_unreachable : ¬ Reachable demo (rootsOf demo demoPre demoGlob demoCtx) 4 := by
  have key : ∀ i, Reachable demo (rootsOf demo demoPre demoGlob demoCtx) i → i ≠ 3 ∧ i ≠ 4 ∧ i < 8 := by
    intro i hi
    induction hi with
    | root hm => simp [rootsOf, demoPre, demoGlob, demoCtx, nil, inHeap, demo] at hm; omega
    | @step i t j _ hj ih =>
      have := below8 (P := fun i => i ≠ 3 → i ≠ 4 → ∀ t j, Val.ptr t false j ∈ (demo.cells i).content.refs →
        j ≠ 3 ∧ j ≠ 4 ∧ j < 8)
        (by simp only [demo, Content.refs, nil]; simp; grind) i ih.2.2 ih.1 ih.2.1 t j hj
      exact this
  intro h; exact (key 4 h).2.1 rfl

/-! ### C07 -/

/-- The conclusion of C07: what a reference can reach is untouched, the constant heap is
untouched, and nothing reachable is handed out again. The heap stays well formed. -/
def Preserves (h h' : Heap) (roots : List Val) : Prop :=
  (∀ i, Reachable h roots i → h'.cells i = h.cells i) ∧ h'.consts = h.consts ∧ h'.size = h.size ∧
  (∃ l, FreeOK h' l ∧ ∀ i, Reachable h roots i → i ∉ l) ∧ WF h'

theorem gc_preserves {h h' : Heap} {n : Nat} {pre glob : List Val} {ctxs : List CtxRoots} {rel : List Release}
    (hw : WF h) (hcap : 0 < h.gcCap) (ho : RootsOK h pre glob ctxs)
    (hplain : ∀ i < h.size, ¬ Reachable h (rootsOf h pre glob ctxs) i → PlainContent (h.cells i).content)
    (hgc : gc n h pre glob ctxs = some (.ok (h', rel))) (hd : h'.dropped = false) :
    Preserves h h' (rootsOf h pre glob ctxs) := by
  obtain ⟨hm, h1, _, e1, e2, e3, e4, e5, e6, e7, e8, inv, rfl⟩ := gc_ok hw hcap ho hplain hgc hd
  have hlt : ∀ i, Reachable h (rootsOf h pre glob ctxs) i → i < h.size := fun i hi =>
    reachable_lt hw.typed (fun t i hm => (roots_okRef ho _ hm).1) hi
  have hkeep : ∀ i, Reachable h (rootsOf h pre glob ctxs) i → h1.cells i = h.cells i := by
    intro i hi
    have hi' := hlt i hi
    rw [inv.kept i (by rw [e1]; exact hi') ((e6 i).2 hi)]
    have hc := hw.clean i
    have h3 := e3 i
    have h4 := e4 i hi'
    cases hx : hm.cells i with
    | mk c m ix =>
      cases hy : h.cells i with
      | mk c' m' ix' =>
        rw [hx] at h3 h4; rw [hy] at hc h3
        simp_all
  have hfree : ∀ i < h.size, ¬ Reachable h (rootsOf h pre glob ctxs) i →
      ∃ d, h1.cells i = { content := .pair recovered d } := by
    intro i hi hn
    refine inv.freed i (by rw [e1]; exact hi) ?_
    rw [← e6] at hn
    simpa using hn
  have hchain := freeOK_gc inv
  have hsz : h1.size = h.size := by rw [inv.size, e1]
  refine ⟨hkeep, by show h1.consts = _; rw [inv.consts, e2], hsz, ⟨_, hchain, ?_⟩, ?_⟩
  · intro i hi hmem
    rw [mem_unmarkedTo] at hmem
    rw [(e6 i).2 hi] at hmem
    simp at hmem
  · -- links of freed cells stay in the free list
    have hlink : ∀ (l : List Nat) (v : Val), FreeChain (newFreelistLength h1) v l → ∀ i ∈ l,
        ∃ a d, ((newFreelistLength h1).cells i).content = .pair a d ∧ OkRef (newFreelistLength h1) d := by
      intro l
      induction l with
      | nil => intro v _ i hi; cases hi
      | cons x xs ih =>
        rintro v ⟨_, hx, a, d, hc, hr⟩ i hi
        rcases List.mem_cons.1 hi with rfl | hi
        · refine ⟨a, d, hc, ?_⟩
          cases xs with
          | nil => rw [show d = nil from hr]; simp [OkRef, nil]
          | cons y ys =>
            obtain ⟨rfl, hy, a2, d2, hc2, _⟩ := hr
            exact ⟨hy, a2, d2, hc2⟩
        · exact ih d hr i hi
    -- references from reachable cells
    have hok : ∀ v, OkRef h v → (∀ t j, v = .ptr t false j → Reachable h (rootsOf h pre glob ctxs) j) →
        OkRef (newFreelistLength h1) v := by
      intro v hv hr
      cases v with
      | ptr t k j =>
        cases k with
        | false =>
          refine ⟨by show j < h1.size; rw [hsz]; exact hv.1, ?_⟩
          show kindOK t (h1.cells j).content
          rw [hkeep j (hr t j rfl)]; exact hv.2
        | true => trivial
      | cont c => exact hv
      | _ => trivial
    have hcases : ∀ i < h.size, Reachable h (rootsOf h pre glob ctxs) i ∨
        ∃ d, h1.cells i = { content := .pair recovered d } := by
      intro i hi
      by_cases hr : Reachable h (rootsOf h pre glob ctxs) i
      · exact Or.inl hr
      · exact Or.inr (hfree i hi hr)
    refine ⟨?_, ?_, ?_, ?_⟩
    · intro i hi a d hc
      replace hi : i < h.size := by rw [← hsz]; exact hi
      replace hc : (h1.cells i).content = .pair a d := hc
      by_cases hr : Reachable h (rootsOf h pre glob ctxs) i
      · rw [hkeep i hr] at hc
        have := hw.pair i hi a d hc
        exact ⟨hok a this.1 (fun t j hj => .step hr (by rw [hc, ← hj]; simp [Content.refs])),
          hok d this.2 (fun t j hj => .step hr (by rw [hc, ← hj]; simp [Content.refs]))⟩
      · obtain ⟨a', d', hc', hok'⟩ := hlink _ _ hchain.1 i (by
          rw [mem_unmarkedTo, e1]; rw [← e6] at hr; exact ⟨hi, by simpa using hr⟩)
        replace hc' : (h1.cells i).content = .pair a' d' := hc'
        obtain ⟨d2, hd2⟩ := hfree i hi hr
        rw [hd2] at hc hc'
        cases hc; cases hc'
        exact ⟨trivial, hok'⟩
    · intro i hi c dep hc
      replace hi : i < h.size := by rw [← hsz]; exact hi
      replace hc : (h1.cells i).content = _ := hc
      rcases hcases i hi with hr | ⟨d, hd⟩
      · rw [hkeep i hr] at hc
        exact hok dep (hw.chan i hi c dep hc) (fun t j hj => .step hr (by rw [hc, ← hj]; simp [Content.refs]))
      · rw [hd] at hc; cases hc
    · intro i hi hd' da es hc
      replace hi : i < h.size := by rw [← hsz]; exact hi
      replace hc : (h1.cells i).content = _ := hc
      rcases hcases i hi with hr | ⟨d, hd⟩
      · rw [hkeep i hr] at hc
        have := hw.arr i hi hd' da es hc
        refine ⟨this.1, fun e he => ?_⟩
        have h2 := this.2 e he
        cases e with
        | ptr t k j =>
          exact hok _ h2 (fun t j hj => .step hr (by rw [hc, ← hj]; simpa [Content.refs] using he))
        | _ => trivial
      · rw [hd] at hc; cases hc
    · intro i
      show (h1.cells i).mark = false ∧ (h1.cells i).index = 0
      rcases Nat.lt_or_ge i h.size with hi | hi
      · rcases hcases i hi with hr | ⟨d, hd⟩
        · rw [hkeep i hr]; exact hw.clean i
        · rw [hd]; exact ⟨rfl, rfl⟩
      · rw [inv.above i (by rw [e1]; exact hi), e5 i hi]; exact hw.clean i

/-- C07: with a GC stack that is large enough for the heap (`StackFits`), a collection finishes
normally, and leaves every cell that is reachable from the global environment, from any
context or from the caller's own roots exactly as it was, off the free list. -/
theorem C07_gc_preserves {h : Heap} {pre glob : List Val} {ctxs : List CtxRoots}
    (hw : WF h) (hcap : 0 < h.gcCap) (ho : RootsOK h pre glob ctxs) (hfit : StackFits h)
    (hd : h.dropped = false)
    (hplain : ∀ i < h.size, ¬ Reachable h (rootsOf h pre glob ctxs) i → PlainContent (h.cells i).content) :
    ∃ n0 h' rel, (∀ n, n0 ≤ n → gc n h pre glob ctxs = some (.ok (h', rel))) ∧
      Preserves h h' (rootsOf h pre glob ctxs) := by
  have hr : ArraysRanked h := by
    obtain ⟨rank, K, hr, _⟩ := hfit
    exact ⟨rank, fun i hi hd da es j hc hj => (hr i hi hd da es hc).2 j hj⟩
  obtain ⟨n0, r, hn⟩ := (markAll_spec hw hcap ho).2.1 hr
  have hn' := hn n0 (Nat.le_refl _)
  obtain ⟨r1, r2⟩ := (markAll_spec hw hcap ho).2.2 true (Or.inl hfit) hd n0
  obtain ⟨s1, s2⟩ := (markAll_spec hw hcap ho).1 n0
  cases r with
  | ub => exact absurd hn' s1
  | critical => exact absurd hn' (r1 rfl)
  | ok hm =>
    obtain ⟨_, g⟩ := s2 hm hn'
    have hdm := r2 hm hn'
    have hmark := marked_iff_reachable hw ho g hdm
    obtain ⟨h1, rel, hs, inv⟩ := sweep_spec (h := hm) g.same.freelist
      (by rw [g.same.numAlloc]; exact g.same.size.symm) (by
        intro i hi hmi
        rw [g.same.content]
        refine hplain i (by rw [← show hm.size = h.size from g.same.size]; exact hi) ?_
        rw [← hmark]; simp [hmi])
    have hgc : ∀ n, n0 ≤ n → gc n h pre glob ctxs = some (.ok (newFreelistLength h1, rel)) := by
      intro n hle
      have := hn n hle
      rw [gc_eq]
      simp only at this
      rw [this]; simp only [hs]
    refine ⟨n0, _, rel, hgc, gc_preserves hw hcap ho hplain (hgc n0 (Nat.le_refl _)) ?_⟩
    show h1.dropped = false
    rw [inv.drop]; exact hdm

example : ∃ n0 h' rel, (∀ n, n0 ≤ n → gc n demo demoPre demoGlob demoCtx = some (.ok (h', rel))) ∧
    Preserves demo h' (rootsOf demo demoPre demoGlob demoCtx) :=
  C07_gc_preserves demo_wf (by decide) demo_roots demo_fits rfl (fun i hi _ => demo_plain i hi)

/-- C07 for any GC stack size, in a heap without lisp arrays: a collection that returns has
preserved everything reachable (one that runs out of stack stops the program instead). -/
theorem C07_gc_preserves_no_arrays {h h' : Heap} {n : Nat} {pre glob : List Val} {ctxs : List CtxRoots}
    {rel : List Release} (hw : WF h) (hcap : 0 < h.gcCap) (ho : RootsOK h pre glob ctxs)
    (hna : NoArrays h) (hd : h.dropped = false)
    (hplain : ∀ i < h.size, ¬ Reachable h (rootsOf h pre glob ctxs) i → PlainContent (h.cells i).content)
    (hgc : gc n h pre glob ctxs = some (.ok (h', rel))) :
    Preserves h h' (rootsOf h pre glob ctxs) :=
  gc_preserves hw hcap ho hplain hgc (gc_nodrop (b := false) hw hcap ho (Or.inr ⟨rfl, hna⟩) hd hgc)

/-- A heap of three pairs, with a GC stack of one word. -/
def demoPairs : Heap :=
  { size := 3,
    cells := fun i => match i with
      | 0 => { content := .pair (.imm 8 1) (.ptr .cons false 1) }
      | 1 => { content := .pair (.imm 8 2) (.ptr .cons false 0) }
      | _ => { content := .pair nil nil },
    consts := fun _ => { content := .pair nil nil },
    freelist := nil, numAlloc := 3, gcCap := 1 }

theorem demoPairs_wf : WF demoPairs := by
  refine ⟨?_, ?_, ?_, ?_⟩
  · intro i _ a d
    unfold demoPairs; simp only; split <;> (intro h; cases h; simp [OkRef, kindOK, nil])
  · intro i _ c dep; unfold demoPairs; simp only; split <;> simp
  · intro i _ hd da es; unfold demoPairs; simp only; split <;> simp
  · intro i; unfold demoPairs; simp only; split <;> simp

example : ∃ h' rel, gc 20 demoPairs [.ptr .cons false 0] [] [] = some (.ok (h', rel)) ∧
    Preserves demoPairs h' (rootsOf demoPairs [.ptr .cons false 0] [] []) := by
  have hv : (match gc 20 demoPairs [.ptr .cons false 0] [] [] with
      | some (.ok _) => true | _ => false) = true := by decide +kernel
  cases hg : gc 20 demoPairs [.ptr .cons false 0] [] [] with
  | none => rw [hg] at hv; cases hv
  | some o =>
    cases o with
    | ub => rw [hg] at hv; cases hv
    | critical => rw [hg] at hv; cases hv
    | ok p =>
      refine ⟨p.1, p.2, rfl, C07_gc_preserves_no_arrays demoPairs_wf (by decide) ?_ ?_ rfl ?_ hg⟩
      · refine ⟨?_, by simp, by simp, by simp, by simp, by simp⟩
        simp [OkRef, kindOK, demoPairs]
      · intro i _ hd da es; unfold demoPairs; simp only; split <;> simp
      · intro i _ _; unfold demoPairs; simp only; split <;> simp [PlainContent, nil, symIndI, symIndU, symIndF, symDefragArray, symArray,
          symLispArray, symChannel, symCustom, symDefragMem]

/-- C07 without a bound on the GC stack and with lisp arrays: only part of the property. What is
missing is that `h'.dropped = false`, i.e. that no push of an array was ignored; that can fail,
see `C07_full_stack_violated`. -/
theorem C07_gc_preserves_partial {h h' : Heap} {n : Nat} {pre glob : List Val} {ctxs : List CtxRoots}
    {rel : List Release} (hw : WF h) (hcap : 0 < h.gcCap) (ho : RootsOK h pre glob ctxs)
    (hplain : ∀ i < h.size, ¬ Reachable h (rootsOf h pre glob ctxs) i → PlainContent (h.cells i).content)
    (hgc : gc n h pre glob ctxs = some (.ok (h', rel))) (hd : h'.dropped = false) :
    Preserves h h' (rootsOf h pre glob ctxs) := gc_preserves hw hcap ho hplain hgc hd

/-- A pair of an array and a list, the array holding a list cell. -/
def fullStack : Heap :=
  { size := 4,
    cells := fun i => match i with
      | 0 => { content := .pair (.ptr .lispArray false 1) (.ptr .cons false 2) }
      | 1 => { content := .lispArr 100 101 [.ptr .cons false 3] }
      | _ => { content := .pair nil nil },
    consts := fun _ => { content := .pair nil nil },
    freelist := nil, numAlloc := 4, gcCap := 1 }

/-- C07 fails when the GC stack runs full at a lisp array: `lbm_gc_mark_phase` ignores the result
of that push (`src/heap.c:797`), the array is not marked although it is reachable, and the
sweep frees its memory. The collection reports success. -/
theorem C07_full_stack_violated :
    WF fullStack ∧ RootsOK fullStack [.ptr .cons false 0] [] [] ∧
    Reachable fullStack (rootsOf fullStack [.ptr .cons false 0] [] []) 1 ∧
    ∃ h' rel, gc 30 fullStack [.ptr .cons false 0] [] [] = some (.ok (h', rel)) ∧
      (h'.cells 1).content = .pair recovered nil ∧ rel = [.mem 101, .mem 100] := by
  refine ⟨⟨?_, ?_, ?_, ?_⟩, ⟨?_, by simp, by simp, by simp, by simp, by simp⟩, ?_, ?_⟩
  · intro i _ a d
    unfold fullStack; simp only; split <;> intro h <;> cases h <;> simp [OkRef, kindOK, nil]
  · intro i _ c dep; unfold fullStack; simp only; split <;> simp
  · intro i _ hd da es; unfold fullStack; simp only
    split <;> intro h <;> cases h
    simp [OkElem, OkRef, kindOK]
  · intro i; unfold fullStack; simp only; split <;> simp
  · simp [OkRef, kindOK, fullStack]
  · exact .step (.root (t := .cons) (i := 0) (by simp [rootsOf])) (t := .lispArray)
      (by simp [fullStack, Content.refs])
  · have hv : (match gc 30 fullStack [.ptr .cons false 0] [] [] with
        | some (.ok (h', rel)) => decide ((h'.cells 1).content = .pair recovered nil ∧
            rel = [.mem 101, .mem 100])
        | _ => false) = true := by decide +kernel
    split at hv
    · next h' rel hg => exact ⟨h', rel, hg, of_decide_eq_true hv⟩
    · cases hv

/-- An empty lisp array (`(mkarray 0)`) in the program register. -/
def emptyArray : Heap :=
  { size := 1, cells := fun _ => { content := .lispArr 100 101 [] },
    consts := fun _ => { content := .pair nil nil }, freelist := nil, numAlloc := 1, gcCap := 20 }

/-- Marking an empty lisp array reads an element that does not exist (`src/heap.c:803`). -/
theorem C07_empty_array_violated : ∀ n, 2 < n → gc n emptyArray [.ptr .lispArray false 0] [] [] = some .ub := by
  intro n hn
  obtain ⟨k, rfl⟩ : ∃ k, n = k + 3 := ⟨n - 3, by omega⟩
  simp [gc, markRoots, markPhase, emptyArray, markRun, markStep, markArray, andThen, push]

/-- An environment whose spine is in the constant heap. -/
def constEnv : Heap :=
  { size := 1, cells := fun _ => { content := .pair nil nil },
    consts := fun i => match i with
      | 0 => { content := .pair (.ptr .cons true 1) nil }
      | _ => { content := .pair (.sym 0x40000) (.imm 8 1) },
    freelist := nil, numAlloc := 1, gcCap := 20 }

/-- `lbm_gc_mark_env` sets mark bits in the constant (flash) heap when an environment lies there
(`src/heap.c:851-857` do not look at the constant bit), and nothing clears them again. -/
theorem C07_const_env_violated :
    ∃ h' rel, gc 10 constEnv [] [.ptr .cons true 0] [] = some (.ok (h', rel)) ∧
      (h'.consts 0).mark = true ∧ (h'.consts 1).mark = true ∧ (constEnv.consts 0).mark = false := by
  have hv : (match gc 10 constEnv [] [.ptr .cons true 0] [] with
        | some (.ok (h', _)) => decide ((h'.consts 0).mark = true ∧ (h'.consts 1).mark = true ∧
            (constEnv.consts 0).mark = false)
        | _ => false) = true := by decide +kernel
  split at hv
  · next h' rel hg => exact ⟨h', rel, hg, of_decide_eq_true hv⟩
  · cases hv

/-! ### C08 -/

open Classical in
theorem releasesTo_eq {h hm : Heap} {P : Nat → Prop} (hc : ∀ i, (hm.cells i).content = (h.cells i).content)
    (hm' : ∀ i, (hm.cells i).mark = true ↔ P i) : ∀ n,
    releasesTo hm n = ((List.range n).filter (fun i => ¬ P i)).flatMap (fun i => (h.cells i).content.owned) := by
  intro n
  induction n with
  | zero => rfl
  | succ n ih =>
    rw [List.range_succ, List.filter_append, List.flatMap_append, ← ih, releasesTo]
    by_cases hp : P n
    · rw [if_pos ((hm' n).2 hp)]; simp [hp]
    · have : ¬ (hm.cells n).mark = true := fun h => hp ((hm' n).1 h)
      rw [if_neg this]; simp [hp, hc]

open Classical in
/-- A collection that drops no push puts exactly the unreachable cells on the free list, counts
them, and returns the memory owned by exactly the unreachable objects, once each, in
order of their cells. -/
theorem gc_reclaims {h h' : Heap} {n : Nat} {pre glob : List Val} {ctxs : List CtxRoots} {rel : List Release}
    (hw : WF h) (hcap : 0 < h.gcCap) (ho : RootsOK h pre glob ctxs)
    (hplain : ∀ i < h.size, ¬ Reachable h (rootsOf h pre glob ctxs) i → PlainContent (h.cells i).content)
    (hgc : gc n h pre glob ctxs = some (.ok (h', rel))) (hd : h'.dropped = false) :
    ∃ l, FreeOK h' l ∧ (∀ i, i ∈ l ↔ i < h.size ∧ ¬ Reachable h (rootsOf h pre glob ctxs) i) ∧
      numFree h' = l.length ∧ h'.gcRecovered = l.length ∧
      rel = ((List.range h.size).filter (fun i => ¬ Reachable h (rootsOf h pre glob ctxs) i)).flatMap
        (fun i => (h.cells i).content.owned) := by
  obtain ⟨hm, h1, e0, e1, e2, e3, e4, e5, e6, e7, e8, inv, rfl⟩ := gc_ok hw hcap ho hplain hgc hd
  refine ⟨_, freeOK_gc inv, ?_, freeOK_len (freeOK_gc inv), ?_, ?_⟩
  · intro i
    rw [mem_unmarkedTo, e1, ← e6]; simp
  · show h1.gcRecovered = _
    rw [inv.recov, markAll_rec e0, Nat.zero_add]
  · rw [inv.rels, e1]; exact releasesTo_eq e3 e6 _

open Classical in
/-- C08: a collection with a large enough GC stack finishes, and then exactly the unreachable cells
are on the free list; they are counted in `numFree` and `gcRecovered`; and the memory owned by
exactly the unreachable objects has been handed back, once each, in order of their cells. -/
theorem C08_gc_reclaims {h : Heap} {pre glob : List Val} {ctxs : List CtxRoots}
    (hw : WF h) (hcap : 0 < h.gcCap) (ho : RootsOK h pre glob ctxs) (hfit : StackFits h)
    (hd : h.dropped = false)
    (hplain : ∀ i < h.size, ¬ Reachable h (rootsOf h pre glob ctxs) i → PlainContent (h.cells i).content) :
    ∃ n0 h' rel, (∀ n, n0 ≤ n → gc n h pre glob ctxs = some (.ok (h', rel))) ∧
    ∃ l, FreeOK h' l ∧ (∀ i, i ∈ l ↔ i < h.size ∧ ¬ Reachable h (rootsOf h pre glob ctxs) i) ∧
      numFree h' = l.length ∧ h'.gcRecovered = l.length ∧
      rel = ((List.range h.size).filter (fun i => ¬ Reachable h (rootsOf h pre glob ctxs) i)).flatMap
        (fun i => (h.cells i).content.owned) := by
  obtain ⟨n0, h', rel, hgc, _⟩ := C07_gc_preserves hw hcap ho hfit hd hplain
  have hgc0 := hgc n0 (Nat.le_refl _)
  exact ⟨n0, h', rel, hgc, gc_reclaims hw hcap ho hplain hgc0
    (gc_nodrop (b := true) hw hcap ho (Or.inl hfit) hd hgc0)⟩

/-- In `demo`, the unreachable pair 4 is recovered. -/
example : ∃ n h' rel l, gc n demo demoPre demoGlob demoCtx = some (.ok (h', rel)) ∧ FreeOK h' l ∧ 4 ∈ l := by
  obtain ⟨n0, h', rel, hgc, l, hf, hm, _⟩ := C08_gc_reclaims demo_wf (by decide) demo_roots demo_fits rfl
    (fun i hi _ => demo_plain i hi)
  exact ⟨n0, h', rel, l, hgc n0 (Nat.le_refl _), hf, (hm 4).2 ⟨by decide, demo_unreachable⟩⟩

open Classical in
/-- C08 for any GC stack size in a heap without lisp arrays. -/
theorem C08_gc_reclaims_no_arrays {h h' : Heap} {n : Nat} {pre glob : List Val} {ctxs : List CtxRoots}
    {rel : List Release} (hw : WF h) (hcap : 0 < h.gcCap) (ho : RootsOK h pre glob ctxs)
    (hna : NoArrays h) (hd : h.dropped = false)
    (hplain : ∀ i < h.size, ¬ Reachable h (rootsOf h pre glob ctxs) i → PlainContent (h.cells i).content)
    (hgc : gc n h pre glob ctxs = some (.ok (h', rel))) :
    ∃ l, FreeOK h' l ∧ (∀ i, i ∈ l ↔ i < h.size ∧ ¬ Reachable h (rootsOf h pre glob ctxs) i) ∧
      numFree h' = l.length ∧ h'.gcRecovered = l.length ∧
      rel = ((List.range h.size).filter (fun i => ¬ Reachable h (rootsOf h pre glob ctxs) i)).flatMap
        (fun i => (h.cells i).content.owned) :=
  gc_reclaims hw hcap ho hplain hgc (gc_nodrop (b := false) hw hcap ho (Or.inr ⟨rfl, hna⟩) hd hgc)

/-- One unreachable pair whose `cdr` is a type symbol. -/
def typeSymbol (car : Val) (s : Nat) : Heap :=
  { size := 1, cells := fun _ => { content := .pair car (.sym s) },
    consts := fun _ => { content := .pair nil nil }, freelist := nil, numAlloc := 1, gcCap := 20 }

/-- C08 fails for an unreachable pair whose `cdr` is the symbol `$ind_i` (a symbol that programs
can write, `src/symrepr.c:101-115`): the sweep calls `lbm_memory_free` on the word in the `car`, which is
not memory the pair owns. For `$barray` it follows the `car` word as an address. -/
theorem C08_type_symbol_violated (car : Val) (n : Nat) :
    (∃ h', gc n (typeSymbol car symIndI) [] [] [] = some (.ok (h', [.word car]))) ∧
    gc n (typeSymbol car symArray) [] [] [] = some .ub := by
  constructor
  · simp [gc, markRoots, markGlobals, markContexts, andThen, sweep, sweepTo, sweepStep, typeSymbol, releaseOf]
  · simp [gc, markRoots, markGlobals, markContexts, andThen, sweep, sweepTo, sweepStep, typeSymbol, releaseOf,
      symArray, symIndI, symIndU, symIndF, symDefragArray]

/-! ### C09 -/

/-- C09: if no chain of directly nested lisp arrays is infinite (cycles through pairs are
allowed), a collection finishes, whatever the GC stack size, and it does not run into
undefined behaviour. -/
theorem C09_gc_terminates_partial {h : Heap} {pre glob : List Val} {ctxs : List CtxRoots}
    (hw : WF h) (hcap : 0 < h.gcCap) (ho : RootsOK h pre glob ctxs) (hr : ArraysRanked h)
    (hplain : ∀ i < h.size, PlainContent (h.cells i).content) :
    ∃ n0 r, (∀ n, n0 ≤ n → gc n h pre glob ctxs = some r) ∧ r ≠ .ub := by
  obtain ⟨n0, r, hn⟩ := gc_settles hw hcap ho hr
  refine ⟨n0, r, hn, ?_⟩
  rintro rfl
  exact gc_no_ub hw hcap ho hplain (hn n0 (Nat.le_refl _))

example : ∃ n0 r, (∀ n, n0 ≤ n → gc n demo demoPre demoGlob demoCtx = some r) ∧ r ≠ .ub := by
  refine C09_gc_terminates_partial demo_wf (by decide) demo_roots ?_ demo_plain
  obtain ⟨rank, K, hr, _⟩ := demo_fits
  exact ⟨rank, fun i hi hd da es j hc hj => (hr i hi hd da es hc).2 j hj⟩

/-- An array whose only element is the array itself. -/
def selfArray : Heap :=
  { size := 1, cells := fun _ => { content := .lispArr 100 101 [.ptr .lispArray false 0] },
    consts := fun _ => { content := .pair nil nil }, freelist := nil, numAlloc := 1, gcCap := 20 }

/-- C09 fails for an array that contains itself, e.g. after `(setix a 0 a)`: the mark phase never
returns. -/
theorem C09_self_array_violated : WF selfArray ∧
    ∀ n, gc n selfArray [.ptr .lispArray false 0] [] [] = none := by
  constructor
  · refine ⟨?_, ?_, ?_, ?_⟩
    · intro i _ a d h; simp [selfArray] at h
    · intro i _ c dep h; simp [selfArray] at h
    · intro i _ hd da es h; simp [selfArray] at h; obtain ⟨_, _, rfl⟩ := h
      simp [OkElem, OkRef, kindOK, selfArray]
    · intro i; simp [selfArray]
  · intro n
    have key : ∀ n (h : Heap) s, h.size = 1 → h.cells = selfArray.cells →
        markRun n { h := h, stack := s, ctl := some (.ptr .lispArray false 0) } = none := by
      intro n
      induction n with
      | zero => intros; rfl
      | succ n ih =>
        intro h s hs hc
        have h0 : (h.cells 0).content = .lispArr 100 101 [.ptr .lispArray false 0] := by rw [hc]; rfl
        have h1 : (h.cells 0).mark = false := by rw [hc]; rfl
        have h2 : (h.cells 0).index = 0 := by rw [hc]; rfl
        unfold markRun markStep
        by_cases hl : s.length < h.gcCap
        · simp [hs, h1, h0, markArray, push, h2, hl]
          exact ih h _ hs hc
        · simp [hs, h1, h0, markArray, push, h2, hl]
          exact ih _ _ rfl hc
    cases n with
    | zero => simp [gc, markRoots, markPhase, markRun, selfArray, andThen]
    | succ n =>
      have hp : markPhase (n + 1) selfArray (.ptr .lispArray false 0) = none := by
        unfold markPhase
        rw [if_neg (by decide)]
        unfold markRun markStep
        simp only
        exact key n selfArray [] rfl rfl
      simp [gc, markRoots, hp, andThen]

/-! ### C10 -/

/-- A history with two allocations, a write, and a collection that keeps cell 0 and drops
cell 1. -/
def hist1 : Heap := (allocateCell (init 3 20) .cons (.pair (.imm 8 1) nil)).1
def hist2 : Heap := (allocateCell hist1 .i32 (.boxed 7)).1
def hist3 : Heap := hist2.setCell 0 { hist2.cells 0 with content := .pair (.imm 8 2) (.ptr .cons false 0) }

theorem hist3_wf : WF hist3 := by
  have hc : ∀ i, hist3.cells i = if i = 0 then { content := .pair (.imm 8 2) (.ptr .cons false 0) }
      else if i = 1 then { content := .boxed 7 } else { content := .pair nil nil } := by
    intro i
    simp only [hist3, hist2, hist1, Heap.setCell, allocateCell, init, link]
    simp
    split <;> (try split) <;> simp_all <;> omega
  have h0 : hist3.size = 3 := rfl
  refine ⟨?_, ?_, ?_, ?_⟩
  · intro i _ a d h
    rw [hc] at h
    (repeat' split at h) <;> cases h <;> simp [OkRef, kindOK, nil, hc, h0]
  · intro i _ c dep h
    rw [hc] at h
    (repeat' split at h) <;> cases h
  · intro i _ hd da es h
    rw [hc] at h
    (repeat' split at h) <;> cases h
  · intro i; rw [hc]; (repeat' split) <;> simp

theorem hist3_hist : Hist 3 20 hist3 (fun j => (False ∨ j = 0) ∨ j = 1) := by
  refine .write (.alloc (h := hist1) (t := .i32) (c := .boxed 7) (i := 1)
    (.alloc (h := init 3 20) (t := .cons) (c := .pair (.imm 8 1) nil) (i := 0) (.init (by decide)) rfl) rfl) ?_
  simp

theorem hist4_hist : ∃ h live, Hist 3 20 h live ∧ live 0 ∧ ¬ live 1 ∧ numFree h = 2 := by
  have hro : RootsOK hist3 [.ptr .cons false 0] [] [] := by
    refine ⟨?_, by simp, by simp, by simp, by simp, by simp⟩
    intro v hv; simp at hv; subst hv; exact ⟨by decide, _, _, rfl⟩
  have hna : NoArrays hist3 := by
    intro i hi hd da es
    have : i = 0 ∨ i = 1 ∨ i = 2 := by have : hist3.size = 3 := rfl; omega
    rcases this with rfl | rfl | rfl <;> simp [hist3, hist2, hist1, Heap.setCell, allocateCell, init, link]
  have hpl : ∀ i < hist3.size, PlainContent (hist3.cells i).content := by
    intro i hi
    have : i = 0 ∨ i = 1 ∨ i = 2 := by have : hist3.size = 3 := rfl; omega
    rcases this with rfl | rfl | rfl <;> simp [hist3, hist2, hist1, Heap.setCell, allocateCell, init, link,
      PlainContent, nil, symIndI, symIndU, symIndF, symDefragArray, symArray,
      symLispArray, symChannel, symCustom, symDefragMem]
  have hv : (match gc 20 hist3 [.ptr .cons false 0] [] [] with
      | some (.ok (h', _)) => decide (numFree h' = 2) | _ => false) = true := by decide +kernel
  split at hv
  · next h' rel hg =>
    refine ⟨h', _, .gc hist3_hist hist3_wf hro (fun i hi _ => hpl i hi) hg
      (gc_nodrop (b := false) hist3_wf (by decide) hro (Or.inr ⟨rfl, hna⟩) rfl hg), ?_, ?_, of_decide_eq_true hv⟩
    · exact .root (t := .cons) (by simp [rootsOf])
    · have key : ∀ i, Reachable hist3 (rootsOf hist3 [.ptr .cons false 0] [] []) i → i = 0 := by
        intro i hi
        induction hi with
        | root hm => simp [rootsOf] at hm; exact hm.2
        | step _ hj ih =>
          subst ih
          simp [hist3, hist2, hist1, Heap.setCell, allocateCell, init, link, Content.refs] at hj
          exact hj.2
      intro h; have := key 1 h; omega
  · cases hv

/-- C10: after any history of allocations, writes and collections, allocation fails exactly when no
cell is free, and changes nothing then; otherwise it returns a cell that was not allocated, holding the
content asked for, leaves every other cell alone, and the free count drops by one. -/
theorem C10_allocate_cell {n cap : Nat} (hcap : 0 < cap) {h : Heap} {live : Nat → Prop} (hh : Hist n cap h live)
    (t : PTy) (c : Content) :
    (numFree h = 0 ∧ allocateCell h t c = (h, merror)) ∨
    (0 < numFree h ∧ ∃ h' i, allocateCell h t c = (h', .ptr t false i) ∧ i < n ∧ ¬ live i ∧
      h'.cells i = { content := c } ∧ (∀ j, j ≠ i → h'.cells j = h.cells j) ∧ h'.consts = h.consts ∧
      numFree h' + 1 = numFree h) := by
  obtain ⟨l, hf, hl, hlt, hs, hc⟩ := hist_inv hcap hh
  have hlen := freeOK_len hf
  cases l with
  | nil => exact Or.inl ⟨hlen, allocateCell_full hf t c⟩
  | cons k l =>
    obtain ⟨h2, e1, e2, e3, e4, e5, e6, e7, e8, e9⟩ := allocateCell_spec hf t c
    have hk := freeOK_cons hf
    refine Or.inr ⟨by rw [hlen]; simp, h2, k, e1, by rw [← hs]; exact hk.2.1, ?_, e8, e9, e4, ?_⟩
    · exact (hl k hk.2.1).1 (by simp)
    · rw [freeOK_len e2, hlen]; rfl

/-- C10 for lists: `lbm_heap_allocate_list_init` fails exactly when there are fewer free cells than
elements; otherwise it builds a proper list of exactly the given values out of distinct cells that
were not allocated, and leaves every other cell alone. -/
theorem C10_allocate_list {n cap : Nat} (hcap : 0 < cap) {h : Heap} {live : Nat → Prop} (hh : Hist n cap h live)
    (vs : List Val) :
    (numFree h < vs.length ∧ allocateListInit h vs = some (h, merror)) ∨
    (vs.length ≤ numFree h ∧ ∃ h' v is, allocateListInit h vs = some (h', v) ∧ ListAt h' v is vs ∧
      is.Nodup ∧ (∀ i ∈ is, i < n ∧ ¬ live i) ∧ (∀ j, j ∉ is → h'.cells j = h.cells j) ∧
      numFree h' + vs.length = numFree h) := by
  obtain ⟨l, hf, hl, hlt, hs, hc⟩ := hist_inv hcap hh
  have hlen := freeOK_len hf
  rcases allocateListInit_cases hf vs with ⟨rfl, e⟩ | ⟨hv, h1, e⟩ | ⟨hv, hle⟩
  · exact Or.inr ⟨by simp, h, nil, [], e, rfl, by simp, by simp, fun _ _ => rfl, by simp⟩
  · exact Or.inl ⟨by rw [hlen]; exact h1, e⟩
  · obtain ⟨h2, e1, e2, e3, e4, e5, e6, e7, e8, e9, e10⟩ := allocateListInit_spec hf vs hle hv
    refine Or.inr ⟨by rw [hlen]; exact hle, h2, _, l.take vs.length, e1, e2, ?_, ?_, ?_, ?_⟩
    · exact hf.2.1.sublist (List.take_sublist _ _)
    · intro i hi
      have hil := List.mem_of_mem_take hi
      have := freeChain_lt hf.1 i hil
      exact ⟨by rw [← hs]; exact this, (hl i this).1 hil⟩
    · exact e10
    · rw [freeOK_len e3, hlen, List.length_drop]; omega

/-- C10, accounting: after any history the number of free cells reported is the number of cells not
allocated. -/
theorem C10_num_free {n cap : Nat} (hcap : 0 < cap) {h : Heap} {live : Nat → Prop} (hh : Hist n cap h live) :
    ∃ l : List Nat, l.Nodup ∧ (∀ i, i ∈ l ↔ i < n ∧ ¬ live i) ∧ numFree h = l.length := by
  obtain ⟨l, hf, hl, hlt, hs, hc⟩ := hist_inv hcap hh
  refine ⟨l, hf.2.1, ?_, freeOK_len hf⟩
  intro i
  constructor
  · intro hi
    have := freeChain_lt hf.1 i hi
    exact ⟨by rw [← hs]; exact this, (hl i this).1 hi⟩
  · rintro ⟨h1, h2⟩
    exact (hl i (by rw [hs]; exact h1)).2 h2

example : ∃ h live, Hist 3 20 h live ∧ live 0 ∧ ∃ l : List Nat, l.Nodup ∧ (∀ i, i ∈ l ↔ i < 3 ∧ ¬ live i) ∧
    l.length = 2 := by
  obtain ⟨h, live, hh, h0, h1, hn⟩ := hist4_hist
  obtain ⟨l, h3, h4, h5⟩ := C10_num_free (by decide) hh
  exact ⟨h, live, hh, h0, l, h3, h4, by omega⟩

end Verif.Heap
