import Verif.Heap.Spec

/- Invariants of the mark phase. -/

namespace Verif.Heap

/-- Only marks and array positions differ. -/
structure Same (h h' : Heap) : Prop where
  size : h'.size = h.size
  content : ∀ i, (h'.cells i).content = (h.cells i).content
  consts : h'.consts = h.consts
  freelist : h'.freelist = h.freelist
  numAlloc : h'.numAlloc = h.numAlloc
  gcCap : h'.gcCap = h.gcCap
  outside : ∀ i, h.size ≤ i → h'.cells i = h.cells i

theorem Same.refl (h : Heap) : Same h h := ⟨rfl, fun _ => rfl, rfl, rfl, rfl, rfl, fun _ _ => rfl⟩

theorem Same.trans {a b c : Heap} (h1 : Same a b) (h2 : Same b c) : Same a c :=
  ⟨h2.size.trans h1.size, fun i => (h2.content i).trans (h1.content i), h2.consts.trans h1.consts,
   h2.freelist.trans h1.freelist, h2.numAlloc.trans h1.numAlloc, h2.gcCap.trans h1.gcCap,
   fun i hi => (h2.outside i (by rw [h1.size]; exact hi)).trans (h1.outside i hi)⟩

theorem OkRef.same {h h' : Heap} (hs : Same h h') {v : Val} : OkRef h' v ↔ OkRef h v := by
  cases v with
  | ptr t k i => cases k <;> simp [OkRef, hs.size, hs.content]
  | _ => simp [OkRef]

@[simp] theorem setCell_cells (h : Heap) (i : Nat) (c : Cell) (j : Nat) :
    (h.setCell i c).cells j = if j = i then c else h.cells j := rfl
@[simp] theorem setCell_size (h : Heap) (i : Nat) (c : Cell) : (h.setCell i c).size = h.size := rfl
@[simp] theorem setCell_consts (h : Heap) (i : Nat) (c : Cell) : (h.setCell i c).consts = h.consts := rfl
@[simp] theorem setCell_freelist (h : Heap) (i : Nat) (c : Cell) :
    (h.setCell i c).freelist = h.freelist := rfl
@[simp] theorem setCell_numAlloc (h : Heap) (i : Nat) (c : Cell) :
    (h.setCell i c).numAlloc = h.numAlloc := rfl
@[simp] theorem setCell_gcCap (h : Heap) (i : Nat) (c : Cell) : (h.setCell i c).gcCap = h.gcCap := rfl
@[simp] theorem setCell_dropped (h : Heap) (i : Nat) (c : Cell) :
    (h.setCell i c).dropped = h.dropped := rfl
@[simp] theorem setCell_gcMarked (h : Heap) (i : Nat) (c : Cell) :
    (h.setCell i c).gcMarked = h.gcMarked := rfl

/-- The values waiting to be processed. -/
def MSt.pending (m : MSt) : List Val := m.ctl.toList ++ m.stack

def Pend (m : MSt) (j : Nat) : Prop := ∃ t, Val.ptr t false j ∈ m.pending

/-- The static facts about a heap the mark phase relies on: `WF` without `clean`. -/
structure Typed (h : Heap) : Prop where
  pair : ∀ i < h.size, ∀ a d, (h.cells i).content = .pair a d → OkRef h a ∧ OkRef h d
  chan : ∀ i < h.size, ∀ c dep, (h.cells i).content = .channel (some c) dep → OkRef h dep
  arr : ∀ i < h.size, ∀ hd da es, (h.cells i).content = .lispArr hd da es →
          es ≠ [] ∧ ∀ e ∈ es, OkElem h e

theorem WF.typed {h : Heap} (w : WF h) : Typed h := ⟨w.pair, w.chan, w.arr⟩

theorem OkElem.same {h h' : Heap} (hs : Same h h') {v : Val} : OkElem h' v ↔ OkElem h v := by
  cases v with
  | ptr t k i => exact OkRef.same hs
  | _ => simp [OkElem, OkRef]

theorem Typed.same {h h' : Heap} (hs : Same h h') (w : Typed h) : Typed h' := by
  refine ⟨?_, ?_, ?_⟩
  · intro i hi a d hc
    rw [hs.content] at hc; rw [hs.size] at hi
    simpa [OkRef.same hs] using w.pair i hi a d hc
  · intro i hi a d hc
    rw [hs.content] at hc; rw [hs.size] at hi
    simpa [OkRef.same hs] using w.chan i hi a d hc
  · intro i hi a d es hc
    rw [hs.content] at hc; rw [hs.size] at hi
    simpa [OkElem.same hs] using w.arr i hi a d es hc

/-- Facts that hold during marking whether or not a push was dropped. `R` is any set of cells
closed under references. -/
structure MSafe (h0 : Heap) (R : Nat → Prop) (m : MSt) : Prop where
  same : Same h0 m.h
  mono : ∀ i, (h0.cells i).mark = true → (m.h.cells i).mark = true
  sound : ∀ i, (m.h.cells i).mark = true → (h0.cells i).mark = true ∨ R i
  pend : ∀ v ∈ m.pending, OkRef h0 v ∧ ∀ t j, v = .ptr t false j → R j
  arr : ∀ i < h0.size, (m.h.cells i).mark = false → ∀ hd da es,
    (h0.cells i).content = .lispArr hd da es →
    (m.h.cells i).index < es.length ∧
    ∀ k < (m.h.cells i).index, ∀ t j, es[k]? = some (.ptr t false j) → (m.h.cells j).mark = true

/-- Facts that make the mark phase complete; they need every push to have succeeded. `P` is a
set of cells that somebody else will process. -/
structure MComp (h0 : Heap) (P : Nat → Prop) (root : Val) (m : MSt) : Prop where
  closed : ∀ i < h0.size, (m.h.cells i).mark = true → ∀ t j,
    Val.ptr t false j ∈ (h0.cells i).content.refs → (m.h.cells j).mark = true ∨ P j ∨ Pend m j
  root : ∀ t j, root = .ptr t false j → (m.h.cells j).mark = true ∨ Pend m j
  idx : ∀ i < h0.size, (m.h.cells i).index ≠ 0 →
    ((m.h.cells i).mark = false ∧ Pend m i) ∧ ∃ hd da es, (h0.cells i).content = .lispArr hd da es

/-- A set of cells closed under references. -/
def RClosed (h : Heap) (R : Nat → Prop) : Prop :=
  ∀ i, R i → ∀ t j, Val.ptr t false j ∈ (h.cells i).content.refs → R j


def markCell (h : Heap) (i : Nat) : Heap :=
  ({ h with gcMarked := h.gcMarked + 1 } : Heap).setCell i { h.cells i with mark := true }

/-- The outcome of the unchecked push of an array. -/
def PushRes (m : MSt) (curr : Val) (h' : Heap) (s' : List Val) : Prop :=
  (h' = m.h ∧ s' = curr :: m.stack) ∨
  (m.h.gcCap ≤ m.stack.length ∧ h' = { m.h with dropped := true } ∧ s' = m.stack)

/-- The cases of one step. -/
inductive Step (m : MSt) : MSt → Prop
  | pop {curr s} : m.ctl = none → m.stack = curr :: s → Step m { m with stack := s, ctl := some curr }
  | skip {curr} : m.ctl = some curr →
      (∀ t i, curr = .ptr t false i → (m.h.cells i).mark = true) → Step m { m with ctl := none }
  | leaf {t i} : m.ctl = some (.ptr t false i) → i < m.h.size → (m.h.cells i).mark = false →
      ((t ≠ .cons ∧ t ≠ .lispArray ∧ t ≠ .channel) ∨ ∃ d, (m.h.cells i).content = .channel none d) →
      Step m { m with h := markCell m.h i, ctl := none }
  | chan {i c dep} : m.ctl = some (.ptr .channel false i) → i < m.h.size →
      (m.h.cells i).mark = false → (m.h.cells i).content = .channel (some c) dep →
      Step m { m with h := markCell m.h i, ctl := some dep }
  | consPush {i a d} : m.ctl = some (.ptr .cons false i) → i < m.h.size →
      (m.h.cells i).mark = false → (m.h.cells i).content = .pair a d → d.isPtr = true →
      Step m { h := markCell m.h i, stack := d :: m.stack, ctl := some a }
  | consNo {i a d} : m.ctl = some (.ptr .cons false i) → i < m.h.size →
      (m.h.cells i).mark = false → (m.h.cells i).content = .pair a d → d.isPtr = false →
      Step m { m with h := markCell m.h i, ctl := some a }
  | descend {i hd da es t j h' s'} : m.ctl = some (.ptr .lispArray false i) → i < m.h.size →
      (m.h.cells i).mark = false → (m.h.cells i).content = .lispArr hd da es →
      PushRes m (.ptr .lispArray false i) h' s' →
      es[(m.h.cells i).index]? = some (.ptr t false j) → (m.h.cells j).mark = false →
      Step m { h := h', stack := s', ctl := some (.ptr t false j) }
  | advance {i hd da es e h' s'} : m.ctl = some (.ptr .lispArray false i) → i < m.h.size →
      (m.h.cells i).mark = false → (m.h.cells i).content = .lispArr hd da es →
      PushRes m (.ptr .lispArray false i) h' s' →
      es[(m.h.cells i).index]? = some e →
      (∀ t j, e = .ptr t false j → (m.h.cells j).mark = true) →
      (m.h.cells i).index + 1 < es.length →
      Step m { h := h'.setCell i { m.h.cells i with index := (m.h.cells i).index + 1 },
               stack := s', ctl := none }
  | finish {i hd da es e h' x s'} : m.ctl = some (.ptr .lispArray false i) → i < m.h.size →
      (m.h.cells i).mark = false → (m.h.cells i).content = .lispArr hd da es →
      PushRes m (.ptr .lispArray false i) h' (x :: s') →
      es[(m.h.cells i).index]? = some e →
      (∀ t j, e = .ptr t false j → (m.h.cells j).mark = true) →
      (m.h.cells i).index + 1 = es.length →
      Step m { h := ({ h' with gcMarked := h'.gcMarked + 1 } : Heap).setCell i
                      { m.h.cells i with index := 0, mark := true },
               stack := s', ctl := none }

theorem pushRes_of {m : MSt} {curr : Val} {hs : Heap × List Val}
    (h : hs = match push m.h.gcCap m.stack curr with
      | some s => (m.h, s)
      | none => ({ m.h with dropped := true }, m.stack)) : PushRes m curr hs.1 hs.2 := by
  subst h
  unfold push
  split
  · next s hs =>
    split at hs
    · simp at hs; left; simp [hs]
    · simp at hs
  · next hs =>
    split at hs
    · simp at hs
    · right; refine ⟨by omega, rfl, rfl⟩

theorem markArray_step {m m' : MSt} {i hd da es} (hctl : m.ctl = some (.ptr .lispArray false i))
    (hi : i < m.h.size) (hm : (m.h.cells i).mark = false)
    (hc : (m.h.cells i).content = .lispArr hd da es)
    (hs : markArray m (.ptr .lispArray false i) i es = .ok (.inl m')) : Step m m' := by
  unfold markArray at hs
  extract_lets c src hs0 at hs
  have hp : PushRes m (.ptr .lispArray false i) hs0.1 hs0.2 := pushRes_of rfl
  split at hs
  · simp at hs
  · next e he =>
    have hlt : c.index < es.length := by
      rcases Nat.lt_or_ge c.index es.length with h | h
      · exact h
      · rw [List.getElem?_eq_none h] at he; simp at he
    have key : (∀ t j, e = .ptr t false j → (m.h.cells j).mark = true) →
        (if c.index < es.length - 1 then
          (.ok (.inl { h := hs0.1.setCell i { c with index := c.index + 1 }, stack := hs0.2, ctl := none })
            : Out (MSt ⊕ Heap))
         else
          match hs0.2 with
          | [] => .ub
          | _ :: s =>
            let h1 := { hs0.1 with gcMarked := hs0.1.gcMarked + 1 }
            .ok (.inl { h := h1.setCell i { c with index := 0, mark := true }, stack := s, ctl := none }))
          = .ok (.inl m') → Step m m' := by
      intro hall hs
      split at hs
      · simp only [Out.ok.injEq, Sum.inl.injEq] at hs
        subst hs
        exact Step.advance hctl hi hm hc hp he hall (by simp only [c] at *; omega)
      · split at hs
        · simp at hs
        · next x s hst =>
          simp only [Out.ok.injEq, Sum.inl.injEq] at hs
          subst hs
          rw [hst] at hp
          exact Step.finish hctl hi hm hc hp he hall (by simp only [c] at *; omega)
    split at hs
    · next t j =>
      split at hs
      · simp at hs
      · split at hs
        · next hmk =>
          exact key (by intro t' j' h; cases h; exact hmk) hs
        · next hmk =>
          simp only [Out.ok.injEq, Sum.inl.injEq] at hs
          subst hs
          exact Step.descend hctl hi hm hc hp he (by simpa using hmk)
    · next hne =>
      exact key (by intro t j h; subst h; exact absurd rfl (hne t j)) hs

theorem step_of_markStep {m m' : MSt} (hs : markStep m = .ok (.inl m')) : Step m m' := by
  unfold markStep at hs
  split at hs
  · next hctl =>
    split at hs
    · simp at hs
    · next curr s hst =>
      simp only [Out.ok.injEq, Sum.inl.injEq] at hs
      subst hs
      exact Step.pop hctl hst
  · next curr hctl =>
    split at hs
    · simp at hs
    · next t i =>
      split at hs
      · simp at hs
      · next hi =>
        simp only at hs
        split at hs
        · next hm =>
          simp only [Out.ok.injEq, Sum.inl.injEq] at hs
          subst hs
          exact Step.skip hctl (by intro t' i' h; cases h; exact hm)
        · next hm =>
          have hm' : (m.h.cells i).mark = false := by simpa using hm
          have hi' : i < m.h.size := by omega
          split at hs
          · split at hs
            · next hc => exact markArray_step hctl hi' hm' hc hs
            · simp at hs
          · split at hs
            · next hc =>
              simp only [Out.ok.injEq, Sum.inl.injEq] at hs
              subst hs
              exact Step.chan hctl hi' hm' hc
            · next hc =>
              simp only [Out.ok.injEq, Sum.inl.injEq] at hs
              subst hs
              exact Step.leaf hctl hi' hm' (Or.inr ⟨_, hc⟩)
            · simp at hs
          · split at hs
            · next hc =>
              split at hs
              · next hd =>
                split at hs
                · next s hp =>
                  simp only [Out.ok.injEq, Sum.inl.injEq] at hs
                  subst hs
                  unfold push at hp
                  split at hp
                  · simp at hp; subst hp
                    exact Step.consPush hctl hi' hm' hc hd
                  · simp at hp
                · simp at hs
              · next hd =>
                simp only [Out.ok.injEq, Sum.inl.injEq] at hs
                subst hs
                exact Step.consNo hctl hi' hm' hc (by simpa using hd)
            · simp at hs
          · next h1 h2 h3 =>
            simp only [Out.ok.injEq, Sum.inl.injEq] at hs
            subst hs
            exact Step.leaf hctl hi' hm' (Or.inl ⟨by simpa using h3, by simpa using h1, by simpa using h2⟩)
    · next hc hp =>
      simp only [Out.ok.injEq, Sum.inl.injEq] at hs
      subst hs
      exact Step.skip hctl (by intro t i h; subst h; exact absurd rfl (hp t i))

theorem markCell_cells (h : Heap) (i j : Nat) :
    (markCell h i).cells j = if j = i then { h.cells i with mark := true } else h.cells j := rfl

theorem markCell_mark (h : Heap) (i j : Nat) :
    ((markCell h i).cells j).mark = true ↔ j = i ∨ (h.cells j).mark = true := by
  rw [markCell_cells]; split <;> simp_all

theorem markCell_mark_false (h : Heap) (i j : Nat) :
    ((markCell h i).cells j).mark = false ↔ j ≠ i ∧ (h.cells j).mark = false := by
  rw [markCell_cells]; split <;> simp_all

theorem same_setCell {h0 h : Heap} (hs : Same h0 h) {i : Nat} {c : Cell} (hi : i < h.size)
    (hc : c.content = (h.cells i).content) : Same h0 (h.setCell i c) := by
  refine ⟨hs.size, ?_, hs.consts, hs.freelist, hs.numAlloc, hs.gcCap, ?_⟩
  · intro j
    simp only [setCell_cells]
    split
    · next h => rw [hc, h]; exact hs.content i
    · exact hs.content j
  · intro j hj
    have : j ≠ i := by have := hs.size; omega
    simp only [setCell_cells, this, if_false]
    exact hs.outside j hj

theorem same_marked {h0 h : Heap} (hs : Same h0 h) (n : Nat) : Same h0 { h with gcMarked := n } :=
  ⟨hs.size, hs.content, hs.consts, hs.freelist, hs.numAlloc, hs.gcCap, hs.outside⟩

theorem same_dropped {h0 h : Heap} (hs : Same h0 h) (b : Bool) : Same h0 { h with dropped := b } :=
  ⟨hs.size, hs.content, hs.consts, hs.freelist, hs.numAlloc, hs.gcCap, hs.outside⟩

theorem same_markCell {h0 h : Heap} (hs : Same h0 h) {i : Nat} (hi : i < h.size) :
    Same h0 (markCell h i) := same_setCell (same_marked hs _) hi rfl

theorem PushRes.same {h0 : Heap} {m : MSt} {curr h' s'} (hp : PushRes m curr h' s')
    (hs : Same h0 m.h) : Same h0 h' := by
  rcases hp with ⟨rfl, _⟩ | ⟨_, rfl, _⟩
  · exact hs
  · exact same_dropped hs _

theorem PushRes.cells {m : MSt} {curr h' s'} (hp : PushRes m curr h' s') : h'.cells = m.h.cells := by
  rcases hp with ⟨rfl, _⟩ | ⟨_, rfl, _⟩ <;> rfl

theorem PushRes.size {m : MSt} {curr h' s'} (hp : PushRes m curr h' s') : h'.size = m.h.size := by
  rcases hp with ⟨rfl, _⟩ | ⟨_, rfl, _⟩ <;> rfl

theorem PushRes.mem {m : MSt} {curr h' s'} (hp : PushRes m curr h' s') {v : Val} (hv : v ∈ s') :
    v = curr ∨ v ∈ m.stack := by
  rcases hp with ⟨_, rfl⟩ | ⟨_, _, rfl⟩
  · simpa using hv
  · exact Or.inr hv

theorem OkElem.ptr {h : Heap} {t j} (ho : OkElem h (.ptr t false j)) : OkRef h (.ptr t false j) := ho

theorem step_safe {h0 : Heap} {R : Nat → Prop} (hw : Typed h0) (hR : RClosed h0 R)
    {m m' : MSt} (inv : MSafe h0 R m) (hs : Step m m') : MSafe h0 R m' := by
  obtain ⟨same, mono, sound, pend, arr⟩ := inv
  have hcur : ∀ v, m.ctl = some v → OkRef h0 v ∧ ∀ t j, v = .ptr t false j → R j := by
    intro v hv; exact pend v (by simp [MSt.pending, hv])
  have hstk : ∀ v ∈ m.stack, OkRef h0 v ∧ ∀ t j, v = .ptr t false j → R j := by
    intro v hv; exact pend v (by simp [MSt.pending, hv])
  have hmark : ∀ i, i < m.h.size → R i →
      (∀ j, (h0.cells j).mark = true → ((markCell m.h i).cells j).mark = true) ∧
      (∀ j, ((markCell m.h i).cells j).mark = true → (h0.cells j).mark = true ∨ R j) ∧
      (∀ k < h0.size, ((markCell m.h i).cells k).mark = false → ∀ hd da es,
        (h0.cells k).content = .lispArr hd da es →
        ((markCell m.h i).cells k).index < es.length ∧
        ∀ l < ((markCell m.h i).cells k).index, ∀ t j, es[l]? = some (.ptr t false j) →
          ((markCell m.h i).cells j).mark = true) := by
    intro i hi hRi
    refine ⟨?_, ?_, ?_⟩
    · intro j hj; rw [markCell_mark]; exact Or.inr (mono j hj)
    · intro j hj; rw [markCell_mark] at hj
      rcases hj with rfl | hj
      · exact Or.inr hRi
      · exact sound j hj
    · intro k hk hkm hd da es hc
      rw [markCell_mark_false] at hkm
      have h1 := arr k hk hkm.2 hd da es hc
      have h2 : ((markCell m.h i).cells k).index = (m.h.cells k).index := by
        rw [markCell_cells, if_neg hkm.1]
      rw [h2]
      refine ⟨h1.1, fun l hl t j hj => ?_⟩
      rw [markCell_mark]; exact Or.inr (h1.2 l hl t j hj)
  cases hs with
  | pop hctl hst =>
    refine ⟨same, mono, sound, ?_, arr⟩
    intro v hv
    simp [MSt.pending] at hv
    exact hstk v (by rw [hst]; simpa using hv)
  | skip hctl _ =>
    refine ⟨same, mono, sound, ?_, arr⟩
    intro v hv
    simp [MSt.pending] at hv
    exact hstk v hv
  | leaf hctl hi hm _ =>
    have hRi := (hcur _ hctl).2 _ _ rfl
    obtain ⟨a, b, c⟩ := hmark _ hi hRi
    refine ⟨same_markCell same hi, a, b, ?_, c⟩
    intro v hv
    simp [MSt.pending] at hv
    exact hstk v hv
  | chan hctl hi hm hc =>
    have hRi := (hcur _ hctl).2 _ _ rfl
    obtain ⟨a, b, c⟩ := hmark _ hi hRi
    rw [same.content] at hc
    refine ⟨same_markCell same hi, a, b, ?_, c⟩
    intro v hv
    simp [MSt.pending] at hv
    rcases hv with rfl | hv
    · refine ⟨hw.chan _ (by rw [← same.size]; exact hi) _ _ hc, ?_⟩
      rintro t j rfl
      exact hR _ hRi t j (by rw [hc]; simp [Content.refs])
    · exact hstk v hv
  | consPush hctl hi hm hc hd =>
    have hRi := (hcur _ hctl).2 _ _ rfl
    obtain ⟨a, b, c⟩ := hmark _ hi hRi
    rw [same.content] at hc
    have hok := hw.pair _ (by rw [← same.size]; exact hi) _ _ hc
    refine ⟨same_markCell same hi, a, b, ?_, c⟩
    intro v hv
    simp [MSt.pending] at hv
    rcases hv with rfl | rfl | hv
    · refine ⟨hok.1, ?_⟩
      rintro t j rfl
      exact hR _ hRi t j (by rw [hc]; simp [Content.refs])
    · refine ⟨hok.2, ?_⟩
      rintro t j rfl
      exact hR _ hRi t j (by rw [hc]; simp [Content.refs])
    · exact hstk v hv
  | consNo hctl hi hm hc hd =>
    have hRi := (hcur _ hctl).2 _ _ rfl
    obtain ⟨a, b, c⟩ := hmark _ hi hRi
    rw [same.content] at hc
    have hok := hw.pair _ (by rw [← same.size]; exact hi) _ _ hc
    refine ⟨same_markCell same hi, a, b, ?_, c⟩
    intro v hv
    simp [MSt.pending] at hv
    rcases hv with rfl | hv
    · refine ⟨hok.1, ?_⟩
      rintro t j rfl
      exact hR _ hRi t j (by rw [hc]; simp [Content.refs])
    · exact hstk v hv
  | descend hctl hi hm hc hp he hj =>
    have hRi := (hcur _ hctl).2 _ _ rfl
    rw [same.content] at hc
    have hmem := List.mem_of_getElem? he
    refine ⟨hp.same same, ?_, ?_, ?_, ?_⟩
    · simp only [hp.cells]; exact mono
    · simp only [hp.cells]; exact sound
    · intro v hv
      simp [MSt.pending] at hv
      rcases hv with rfl | hv
      · refine ⟨(hw.arr _ (by rw [← same.size]; exact hi) _ _ _ hc).2 _ hmem, ?_⟩
        intro t j h; cases h
        exact hR _ hRi _ _ (by rw [hc]; simpa [Content.refs] using hmem)
      · rcases hp.mem hv with rfl | hv
        · exact hcur _ hctl
        · exact hstk v hv
    · simp only [hp.cells]; exact arr
  | @advance i hd da es e h' s' hctl hi hm hc hp he hall hlt =>
    rw [same.content] at hc
    have hi0 : i < h0.size := by rw [← same.size]; exact hi
    refine ⟨same_setCell (hp.same same) (by rw [hp.size]; exact hi) (by simp [hp.cells]), ?_, ?_, ?_, ?_⟩
    · intro j hj
      simp only [setCell_cells, hp.cells]
      split
      · next h => simpa [h] using mono j hj
      · exact mono j hj
    · intro j hj
      simp only [setCell_cells, hp.cells] at hj
      split at hj
      · next h => simpa [h] using sound i hj
      · exact sound j hj
    · intro v hv
      simp [MSt.pending] at hv
      rcases hp.mem hv with rfl | hv
      · exact hcur _ hctl
      · exact hstk v hv
    · have hmk : ∀ j, (((h'.setCell i { m.h.cells i with index := (m.h.cells i).index + 1 }).cells j).mark
          = (m.h.cells j).mark) := by
        intro j; simp only [setCell_cells, hp.cells]; split <;> simp_all
      intro k hk hkm hd' da' es' hc'
      simp only [hmk] at hkm ⊢
      have h1 := arr k hk hkm hd' da' es' hc'
      by_cases hki : k = i
      · subst hki
        rw [hc] at hc'; cases hc'
        simp only [setCell_cells, if_true]
        refine ⟨hlt, fun l hl t j hj => ?_⟩
        rcases Nat.lt_or_eq_of_le (Nat.lt_succ_iff.mp hl) with hl | hl
        · exact h1.2 l hl t j hj
        · subst hl; rw [he] at hj; cases hj; exact hall _ _ rfl
      · simpa only [setCell_cells, hki, if_false, hp.cells] using h1
  | @finish i hd da es e h' x s' hctl hi hm hc hp he hall hlt =>
    rw [same.content] at hc
    have hRi := (hcur _ hctl).2 _ _ rfl
    have hmk : ∀ j, (((({ h' with gcMarked := h'.gcMarked + 1 } : Heap).setCell i
        { m.h.cells i with index := 0, mark := true }).cells j).mark = true) ↔
        (j = i ∨ (m.h.cells j).mark = true) := by
      intro j; simp only [setCell_cells, hp.cells]; split <;> simp_all
    have hcells : ∀ j, j ≠ i → (({ h' with gcMarked := h'.gcMarked + 1 } : Heap).setCell i
        { m.h.cells i with index := 0, mark := true }).cells j = m.h.cells j := by
      intro j hj; simp only [setCell_cells, hp.cells, hj, if_false]
    refine ⟨same_setCell (same_marked (hp.same same) _) (by rw [← hp.size] at hi; exact hi)
      (by simp [hp.cells]), ?_, ?_, ?_, ?_⟩
    · intro j hj; rw [hmk]; exact Or.inr (mono j hj)
    · intro j hj; rw [hmk] at hj
      rcases hj with rfl | hj
      · exact Or.inr hRi
      · exact sound j hj
    · intro v hv
      simp [MSt.pending] at hv
      rcases hp.mem (List.mem_cons_of_mem _ hv) with rfl | hv
      · exact hcur _ hctl
      · exact hstk v hv
    · intro k hk hkm hd' da' es' hc'
      have hki : k ≠ i := by
        rintro rfl
        have := (hmk k).2 (Or.inl rfl)
        simp [this] at hkm
      rw [hcells k hki] at hkm ⊢
      have h1 := arr k hk hkm hd' da' es' hc'
      exact ⟨h1.1, fun l hl t j hj => (hmk j).2 (Or.inr (h1.2 l hl t j hj))⟩

end Verif.Heap
