import Verif.Custom.Lemmas

/-
Property theorems about values of custom types (C98). Statements use the functions of `Verif.Custom.Model` and the vocabulary of
`Verif.Custom.Spec` and `Verif.Heap.Spec`.
-/

namespace Verif.Custom

open Verif.Heap

/-! ### A concrete history -/

/-- A heap of three cells with a custom value 7 in cell 0. -/
def demo1 : World := (create { heap := init 3 20, words := fun _ => ⟨0, 0, 0⟩, inUse := [] } (some 100) 7 1 2).1

/-- Also a custom value 8 in cell 1. -/
def demo2 : World := (create demo1 (some 200) 8 1 2).1

theorem demo2_hist : Hist 3 20 demo2 [(1, 8), (1, 7)] (fun j => (False ∨ j = 0) ∨ j = 1) (fun j => (False ∨ j = 0) ∨ j = 1) := by
  refine .make (w := demo1) (t := 200) (desc := 2) (.make (t := 100) (desc := 2) (.init (words := fun _ => ⟨0, 0, 0⟩) (by decide)) (by simp) rfl) ?_ rfl
  simp [demo1, create, allocateCell, init, merror]

theorem below3 {P : Nat → Prop} (h : P 0 ∧ P 1 ∧ P 2) : ∀ i < 3, P i := by
  intro i hi
  have : i = 0 ∨ i = 1 ∨ i = 2 := by omega
  obtain ⟨h0, h1, h2⟩ := h
  rcases this with rfl | rfl | rfl <;> assumption

theorem demo2_wf : WF demo2.heap := by
  refine ⟨?_, ?_, ?_, ?_⟩
  · exact below3 (P := fun i => ∀ a d, (demo2.heap.cells i).content = .pair a d → OkRef demo2.heap a ∧ OkRef demo2.heap d)
      ⟨fun a d h => by simp [demo2, demo1, create, allocateCell, init, link, Heap.setCell, merror] at h,
       fun a d h => by simp [demo2, demo1, create, allocateCell, init, link, Heap.setCell, merror] at h,
       fun a d h => by
        simp [demo2, demo1, create, allocateCell, init, link, Heap.setCell, merror] at h
        obtain ⟨rfl, rfl⟩ := h; simp [OkRef, nil]⟩
  · exact below3 (P := fun i => ∀ c dep, (demo2.heap.cells i).content = .channel (some c) dep → OkRef demo2.heap dep)
      (by simp [demo2, demo1, create, allocateCell, init, link, Heap.setCell, merror])
  · exact below3 (P := fun i => ∀ hd da es, (demo2.heap.cells i).content = .lispArr hd da es →
        es ≠ [] ∧ ∀ e ∈ es, OkElem demo2.heap e)
      (by simp [demo2, demo1, create, allocateCell, init, link, Heap.setCell, merror])
  · intro i
    have : ∀ i, demo2.heap.cells i = if i = 1 then { content := .custom 200 } else if i = 0 then { content := .custom 100 } else (init 3 20).cells i := by
      intro i; simp [demo2, demo1, create, allocateCell, init, link, Heap.setCell, merror]
    rw [this]
    split
    · exact ⟨rfl, rfl⟩
    · split
      · exact ⟨rfl, rfl⟩
      · simp only [init]; split <;> exact ⟨rfl, rfl⟩

theorem demo2_roots : RootsOK demo2.heap [.ptr .custom false 1] [] [] := by
  refine ⟨?_, by simp, by simp, by simp, by simp, by simp⟩
  intro v hv
  simp at hv
  subst hv
  refine ⟨by decide, ?_⟩
  simp [kindOK, demo2, demo1, create, allocateCell, init, link, Heap.setCell, merror, Content.refs]

theorem demo2_plain : ∀ i < 3, PlainContent (demo2.heap.cells i).content :=
  below3 (by simp [demo2, demo1, create, allocateCell, init, link, Heap.setCell, merror, PlainContent, nil, symIndI, symIndU, symIndF,
    symDefragArray, symArray, symLispArray, symChannel, symCustom, symDefragMem])

theorem demo2_fits : StackFits demo2.heap := by
  refine ⟨fun _ => 0, 1, ?_, by decide⟩
  exact below3 (P := fun i => ∀ hd da es, (demo2.heap.cells i).content = .lispArr hd da es → (0 < 1 ∧
      ∀ j, Val.ptr .lispArray false j ∈ es → 0 < 0)) (by simp [demo2, demo1, create, allocateCell, init, link, Heap.setCell, merror])

/-! ### C98 -/

/-- C98, over whole histories: each custom value ever created either still exists or has had its destructor called with it, exactly
once. (For a destructor and a value that several creations were given, the numbers agree.) -/
theorem C98_destructor_once {n cap : Nat} {w : World} {made : List (Nat × Nat)} {live cust : Nat → Prop} (hcap : 0 < cap)
    (hh : Hist n cap w made live cust) (dtor value : Nat) :
    made.count (dtor, value) = w.log.count (dtor, value) + (existing w).count (dtor, value) :=
  (hist_inv hcap hh).once _

/-- In `demo2` both values exist and no destructor was called. -/
example : (existing demo2).count (1, 7) = 1 := by
  have := C98_destructor_once (by decide) demo2_hist 1 7
  have h : demo2.log = [] := rfl
  rw [h] at this
  simpa using this.symm

open Classical in
/-- C98 for a collection: it ends normally; it calls the destructors of exactly the custom values that cannot be reached, in order of their cells;
custom values that can be reached keep their cell, their words and their block; the blocks of the others are given back. -/
theorem C98_collect {n cap : Nat} {w : World} {made : List (Nat × Nat)} {live cust : Nat → Prop} (hcap : 0 < cap)
    (hh : Hist n cap w made live cust) {pre glob : List Val} {ctxs : List CtxRoots}
    (hw : WF w.heap) (ho : RootsOK w.heap pre glob ctxs) (hfit : StackFits w.heap) (hd : w.heap.dropped = false)
    (hplain : ∀ i < w.heap.size, ¬ Reachable w.heap (rootsOf w.heap pre glob ctxs) i → PlainContent (w.heap.cells i).content) :
    ∃ n0 w', (∀ fuel, n0 ≤ fuel → collect fuel w pre glob ctxs = some (.ok w')) ∧
      w'.log = w.log ++ ((List.range n).filter fun i => ¬ Reachable w.heap (rootsOf w.heap pre glob ctxs) i).flatMap (valueAt w) ∧
      (∀ i a, Reachable w.heap (rootsOf w.heap pre glob ctxs) i → (w.heap.cells i).content = .custom a →
        w'.heap.cells i = w.heap.cells i ∧ w'.words a = w.words a ∧ .mem a ∈ w'.inUse) ∧
      (∀ i a, i < n → ¬ Reachable w.heap (rootsOf w.heap pre glob ctxs) i → (w.heap.cells i).content = .custom a →
        .mem a ∉ w'.inUse) ∧
      Hist n cap w' made (Reachable w.heap (rootsOf w.heap pre glob ctxs))
        (fun i => cust i ∧ Reachable w.heap (rootsOf w.heap pre glob ctxs) i) := by
  have hi := hist_inv hcap hh
  obtain ⟨_, _, _, _, hs, hc⟩ := Heap.hist_inv hcap hi.heap
  have hcap' : 0 < w.heap.gcCap := by rw [hc]; exact hcap
  obtain ⟨n0, h', rel, hgc, _⟩ := C07_gc_preserves hw hcap' ho hfit hd hplain
  have hgc0 := hgc n0 (Nat.le_refl _)
  have hd' := gc_nodrop (b := true) hw hcap' ho (Or.inl hfit) hd hgc0
  obtain ⟨u, e, hu, hfree, hkeep, hsz⟩ := collect_ok hcap hi hw ho hplain hgc0 hd'
  have hall : ∀ fuel, n0 ≤ fuel → collect fuel w pre glob ctxs = collect n0 w pre glob ctxs := by
    intro fuel hf
    simp only [collect, hgc fuel hf, hgc0]
  have hval : ∀ i, dueOf w (w.heap.cells i).content = valueAt w i := by
    intro i; unfold valueAt dueOf; cases (w.heap.cells i).content <;> rfl
  have hblk : ∀ {i a}, (w.heap.cells i).content = .custom a → (blocks (w.heap.cells i).content).count (.mem a) = 1 := by
    intro i a h; rw [h]; simp [blocks, Content.owned]
  refine ⟨n0, _, fun fuel hf => by rw [hall fuel hf, e], ?_, ?_, ?_, ?_⟩
  · simp only [hval]
  · intro i a hr hca
    refine ⟨(hkeep i hr).2, rfl, ?_⟩
    have h1 := hu (.mem a)
    have h2 := hi.own (.mem a)
    have h3 := count_flat_filter (fun i => Reachable w.heap (rootsOf w.heap pre glob ctxs) i)
            (f := fun i => blocks (w.heap.cells i).content) (.mem a) n
    have h4 := count_flat_one (f := fun i => if Reachable w.heap (rootsOf w.heap pre glob ctxs) i then blocks (w.heap.cells i).content else [])
      (.mem a) (hkeep i hr).1
    have h5 := hblk hca
    simp only [hr, if_true] at h4
    exact List.count_pos_iff.1 (by simp only; omega)
  · intro i a hin hr hca hm
    have h1 := hu (.mem a)
    have h2 := List.nodup_iff_count.1 hi.nodup (.mem a)
    have h5 := hblk hca
    have h6 : 0 < (((List.range n).filter fun i => ¬ Reachable w.heap (rootsOf w.heap pre glob ctxs) i).flatMap
        fun i => blocks (w.heap.cells i).content).count (.mem a) := by
      rw [List.count_pos_iff, List.mem_flatMap]
      exact ⟨i, by simp [hin, hr], List.count_pos_iff.1 (by omega)⟩
    have h7 := List.count_pos_iff.2 hm
    simp only at h7
    omega
  · exact .gc hh hw ho hplain e hd'

theorem demo2_reach {i : Nat} (h : Reachable demo2.heap (rootsOf demo2.heap [.ptr .custom false 1] [] []) i) : i = 1 := by
  induction h with
  | root hm => simp [rootsOf] at hm; exact hm.2
  | step _ hj ih =>
    subst ih
    simp [demo2, demo1, create, allocateCell, init, link, Heap.setCell, merror, Content.refs] at hj

/-- Collecting `demo2` with only the value 8 in use calls the destructor of the value 7 and gives back its block. -/
example : ∃ fuel w', collect fuel demo2 [.ptr .custom false 1] [] [] = some (.ok w') ∧ .mem 100 ∉ w'.inUse ∧ .mem 200 ∈ w'.inUse := by
  obtain ⟨n0, w', h1, h2, h3, h4, _⟩ := C98_collect (by decide) demo2_hist demo2_wf demo2_roots demo2_fits rfl
    (fun i hi _ => demo2_plain i hi)
  refine ⟨n0, w', h1 n0 (Nat.le_refl _), h4 0 100 (by decide) (fun h => ?_) rfl, (h3 1 200 (.root (t := .custom) (by simp [rootsOf])) rfl).2.2⟩
  have := demo2_reach h; omega

/-- C98 for `custom-destruct`: on a custom value that exists it calls the destructor with that value, once; the value is then no custom value any more
and all other cells and blocks are as before. A second call for the same value fails with a `fatal_error` and calls nothing. -/
theorem C98_destruct {n cap : Nat} {w : World} {made : List (Nat × Nat)} {live cust : Nat → Prop} (hcap : 0 < cap)
    (hh : Hist n cap w made live cust) {i a : Nat} (hc : cust i) (ha : (w.heap.cells i).content = .custom a) :
    ∃ w', customDestruct w (.ptr .custom false i) = .ok (w', .true) ∧
      w'.log = w.log ++ [((w.words a).destructor, (w.words a).value)] ∧ isCustom w' (.ptr .custom false i) = false ∧
      (∀ j, j ≠ i → w'.heap.cells j = w.heap.cells j) ∧ w'.words = w.words ∧ w'.inUse = w.inUse ∧
      customDestruct w' (.ptr .custom false i) = .ok (w', .fatalError) ∧ Hist n cap w' made live cust := by
  have hi := hist_inv hcap hh
  obtain ⟨_, _, _, hlt, hs, _⟩ := Heap.hist_inv hcap hi.heap
  have hin : i < n := by rw [← hs]; exact hlt i (hi.kind i hc).1
  have hm := hi.block hin ha
  have he : customDestruct w (.ptr .custom false i) = .ok ({ w with
      heap := w.heap.setCell i { w.heap.cells i with content := .pair nil nil },
      log := w.log ++ [((w.words a).destructor, (w.words a).value)] }, .true) := by
    simp [customDestruct, ha, destroy, hm]
  refine ⟨_, he, rfl, ?_, ?_, rfl, rfl, ?_, .destruct hh hc he⟩
  · simp [isCustom, Heap.setCell, nil]
  · intro j hj; simp [Heap.setCell, hj]
  · simp [customDestruct, Heap.setCell, nil]

example : ∃ w', customDestruct demo2 (.ptr .custom false 0) = .ok (w', .true) ∧ w'.log = [(1, 7)] := by
  obtain ⟨w', h1, h2, _⟩ := C98_destruct (i := 0) (a := 100) (by decide) demo2_hist (by simp) rfl
  exact ⟨w', h1, h2⟩

/-- C98 for creation: when it succeeds, the result is a custom value with the value, descriptor and destructor given, in a cell that was not in use;
when it fails, heap and blocks in use are as before. In both cases no destructor is called and every other
custom value keeps its value and descriptor. -/
theorem C98_create {n cap : Nat} {w w' : World} {made : List (Nat × Nat)} {live cust : Nat → Prop} (hcap : 0 < cap)
    (hh : Hist n cap w made live cust) {blk : Option Nat} (hfr : ∀ t, blk = some t → .mem t ∉ w.inUse) {value dtor desc : Nat} {ok : Bool}
    {res : Option Val} (hc : create w blk value dtor desc = (w', ok, res)) :
    (ok = true ↔ blk ≠ none ∧ 0 < numFree w.heap) ∧
    (ok = true → ∃ i, res = some (.ptr .custom false i) ∧ ¬ live i ∧ isCustom w' (.ptr .custom false i) = true ∧
      customValue w' (.ptr .custom false i) = some value ∧ customDescriptor w' (.ptr .custom false i) = some desc ∧
      valueAt w' i = [(dtor, value)] ∧ ∀ j, j ≠ i → w'.heap.cells j = w.heap.cells j) ∧
    (ok = false → w'.heap = w.heap ∧ w'.inUse = w.inUse) ∧
    w'.log = w.log ∧
    (∀ j, cust j → customValue w' (.ptr .custom false j) = customValue w (.ptr .custom false j) ∧
      customDescriptor w' (.ptr .custom false j) = customDescriptor w (.ptr .custom false j)) := by
  have hi := hist_inv hcap hh
  obtain ⟨l, hf, hl, hlt, hs, hgc⟩ := Heap.hist_inv hcap hi.heap
  have hlen := freeOK_len hf
  have hother : ∀ (t j a : Nat), .mem t ∉ w.inUse → cust j → (w.heap.cells j).content = .custom a → a ≠ t := by
    intro t j a ht hj ha e
    subst e
    exact ht (hi.block (by rw [← hs]; exact hlt j (hi.kind j hj).1) ha)
  cases blk with
  | none =>
    simp only [create, Prod.mk.injEq] at hc
    obtain ⟨rfl, rfl, rfl⟩ := hc
    exact ⟨by simp, by simp, fun _ => ⟨rfl, rfl⟩, rfl, fun _ _ => ⟨rfl, rfl⟩⟩
  | some t =>
    have ht := hfr t rfl
    simp only [create] at hc
    cases l with
    | nil =>
      rw [allocateCell_full hf] at hc
      simp only [if_true, List.erase_cons_head, Prod.mk.injEq] at hc
      obtain ⟨rfl, rfl, rfl⟩ := hc
      refine ⟨?_, by simp, fun _ => ⟨rfl, rfl⟩, rfl, ?_⟩
      · simp at hlen; simp [hlen]
      · intro j hj
        simp only [customValue, customDescriptor]
        split
        · rename_i a ha
          simp [hother t j a ht hj ha]
        · exact ⟨rfl, rfl⟩
    | cons k l =>
      obtain ⟨h2, e1, _, e3, _, _, _, _, e8, e9⟩ := allocateCell_spec hf .custom (.custom t)
      rw [e1] at hc
      simp only [merror, reduceCtorEq, if_false, Prod.mk.injEq] at hc
      obtain ⟨rfl, rfl, rfl⟩ := hc
      have hk := freeOK_cons hf
      have hnk : ¬ live k := (hl k hk.2.1).1 (by simp)
      refine ⟨?_, ?_, by simp, rfl, ?_⟩
      · simp at hlen; simp; omega
      · intro _
        refine ⟨k, rfl, hnk, ?_, ?_, ?_, ?_, e9⟩
        · simp [isCustom, e8]
        · simp [customValue, e8]
        · simp [customDescriptor, e8]
        · simp [valueAt, e8]
      · intro j hj
        have hne : j ≠ k := fun e => hnk (e ▸ (hi.kind j hj).1)
        simp only [customValue, customDescriptor, e9 j hne]
        split
        · rename_i a ha
          have hat := hother t j a ht hj ha
          have : (.mem a : Release) ∈ w.inUse := hi.block (by rw [← hs]; exact hlt j (hi.kind j hj).1) ha
          simp [hat, this]
        · exact ⟨rfl, rfl⟩

example : customValue demo2 (.ptr .custom false 0) = some 7 ∧ customValue demo2 (.ptr .custom false 1) = some 8 := by decide +kernel

/-- C98 fails for the memory of a value that was destructed by `custom-destruct`: its block is never given back, also not when the value is collected
(`src/fundamental.c:1200-1203` empty the cell, so that the sweep no longer finds the block). -/
theorem C98_leak_violated : ∃ w live cust, Hist 3 20 w [(1, 7)] live cust ∧ existing w = [] ∧ w.log = [(1, 7)] ∧ numFree w.heap = 3 ∧ w.inUse = [.mem 100] := by
  have h1 : Hist 3 20 demo1 [(1, 7)] (fun j => False ∨ j = 0) (fun j => False ∨ j = 0) :=
    .make (t := 100) (desc := 2) (.init (words := fun _ => ⟨0, 0, 0⟩) (by decide)) (by simp) rfl
  obtain ⟨w, he, hlog, _, hoth, _, hu, _, h2⟩ := C98_destruct (i := 0) (a := 100) (by decide) h1 (by simp) rfl
  have hw' : w = { demo1 with heap := demo1.heap.setCell 0 { demo1.heap.cells 0 with content := .pair nil nil }, log := [(1, 7)] } := by
    have : customDestruct demo1 (.ptr .custom false 0) = .ok ({ demo1 with heap := demo1.heap.setCell 0 { demo1.heap.cells 0 with content := .pair nil nil }, log := [(1, 7)] }, .true) := rfl
    rw [he] at this
    simp only [Out.ok.injEq, Prod.mk.injEq, and_true] at this
    exact this
  have hcells : ∀ i, ∃ a d, (w.heap.cells i).content = .pair a d ∧ OkRef w.heap a ∧ (i < 3 → OkRef w.heap d) ∧ (w.heap.cells i).mark = false ∧
      (w.heap.cells i).index = 0 ∧ ∀ s, d = .sym s → s = 0 := by
    intro i
    have hc : w.heap.cells i = if i = 0 then { content := .pair nil nil } else (init 3 20).cells i := by
      rw [hw']; simp [demo1, create, allocateCell, init, merror, Heap.setCell]
      split <;> simp
    have hsz : w.heap.size = 3 := by rw [hw']; rfl
    rw [hc]
    split
    · exact ⟨nil, nil, rfl, trivial, fun _ => trivial, rfl, rfl, by rintro s ⟨⟩; rfl⟩
    · simp only [init]
      split
      · refine ⟨_, _, rfl, trivial, fun _ => ⟨by omega, ?_⟩, rfl, rfl, by simp⟩
        rw [hw']
        have : i + 1 < 3 := by assumption
        have : i = 1 := by omega
        subst this
        simp [demo1, create, allocateCell, init, merror, Heap.setCell, kindOK, nil]
      · exact ⟨nil, nil, rfl, trivial, fun _ => trivial, rfl, rfl, by rintro s ⟨⟩; rfl⟩
  have hsz : w.heap.size = 3 := by rw [hw']; rfl
  have hwf : WF w.heap := by
    refine ⟨?_, ?_, ?_, ?_⟩
    · intro i hi a d h
      obtain ⟨a', d', e, h1, h2, _⟩ := hcells i
      rw [e] at h; cases h; exact ⟨h1, h2 (by omega)⟩
    · intro i hi c dep h
      obtain ⟨a', d', e, _⟩ := hcells i
      rw [e] at h; cases h
    · intro i hi hd da es h
      obtain ⟨a', d', e, _⟩ := hcells i
      rw [e] at h; cases h
    · intro i
      obtain ⟨_, _, _, _, _, h1, h2, _⟩ := hcells i
      exact ⟨h1, h2⟩
  have hpl : ∀ i < w.heap.size, PlainContent (w.heap.cells i).content := by
    intro i _
    obtain ⟨a, d, e, _, _, _, _, hs⟩ := hcells i
    rw [e]
    cases d with
    | sym s => have := hs s rfl; subst this; simp [PlainContent, symIndI, symIndU, symIndF, symDefragArray, symArray, symLispArray, symChannel, symCustom, symDefragMem]
    | _ => trivial
  have hv : (match collect 5 w [] [] [] with
      | some (.ok w') => decide (w'.heap.dropped = false ∧ existing w' = [] ∧ w'.log = [(1, 7)] ∧ numFree w'.heap = 3 ∧ w'.inUse = [.mem 100])
      | _ => false) = true := by rw [hw']; decide +kernel
  split at hv
  · next w' hg =>
    obtain ⟨h0, h3, h4, h5, h6⟩ := of_decide_eq_true hv
    exact ⟨w', _, _, .gc h2 hwf ⟨by simp, by simp, by simp, by simp, by simp, by simp⟩ (fun i hi _ => hpl i hi) hg h0, h3, h4, h5, h6⟩
  · cases hv

/-- C98 fails for vectors and matrices. When there is memory for the numbers of a vector but not for three words more, `vector` uses the symbol nil
as if it were the new vector and reads through a null pointer (the result of `lbm_custom_type_create` is not looked at and
0 is not an error). When there is no cell, it returns `out_of_memory` but keeps the memory of the numbers. -/
theorem C98_vector_violated (w : World) (mem t desc dtor : Nat) :
    extVector w (some mem) none desc dtor = .ub ∧
    (w.heap.freelist = nil → ∃ w', extVector w (some mem) (some t) desc dtor = .ok (w', merror) ∧ w'.inUse = .mem mem :: w.inUse) := by
  constructor
  · simp [extVector, vectorAllocate, create, customValue, nil, merror]
  · intro hf
    simp [extVector, vectorAllocate, create, allocateCell, hf, nil]

end Verif.Custom
