import Verif.Heap.Mark

/- Completeness, absence of undefined behaviour, and termination of the mark phase. -/

namespace Verif.Heap

theorem PushRes.ok {m : MSt} {curr h' s'} (hp : PushRes m curr h' s') (hd : h'.dropped = false) :
    h' = m.h ∧ s' = curr :: m.stack := by
  rcases hp with h | ⟨_, rfl, _⟩
  · exact h
  · simp at hd

theorem PushRes.dropped {m : MSt} {curr h' s'} (hp : PushRes m curr h' s') (hd : m.h.dropped = true) :
    h'.dropped = true := by
  rcases hp with ⟨rfl, _⟩ | ⟨_, rfl, _⟩
  · exact hd
  · rfl

theorem step_dropped {m m' : MSt} (hs : Step m m') (hd : m.h.dropped = true) :
    m'.h.dropped = true := by
  cases hs with
  | descend _ _ _ _ hp _ _ => exact hp.dropped hd
  | advance _ _ _ _ hp _ _ _ => simpa using hp.dropped hd
  | finish _ _ _ _ hp _ _ _ => simpa using hp.dropped hd
  | _ => simpa [markCell] using hd

/-- Change of the pending set. -/
theorem pend_mono {m m' : MSt} (h : ∀ v ∈ m.pending, v ∈ m'.pending) {j} : Pend m j → Pend m' j := by
  rintro ⟨t, ht⟩; exact ⟨t, h _ ht⟩

theorem step_comp {h0 : Heap} {P R : Nat → Prop} {root : Val}
    {m m' : MSt} (safe : MSafe h0 R m) (inv : MComp h0 P root m) (hs : Step m m')
    (hd : m'.h.dropped = false) : MComp h0 P root m' := by
  obtain ⟨same, mono, sound, pend, arr⟩ := safe
  obtain ⟨closed, hroot, idx⟩ := inv
  -- marking the current cell `i`, when its references are all pending afterwards
  have hmark : ∀ (t0 : PTy) (i : Nat) (m1 : MSt), m.ctl = some (.ptr t0 false i) → i < m.h.size →
      (m.h.cells i).mark = false → m1.h = markCell m.h i → (∀ v ∈ m.stack, v ∈ m1.pending) →
      (∀ t j, Val.ptr t false j ∈ (h0.cells i).content.refs →
        (m.h.cells j).mark = true ∨ Val.ptr t false j ∈ m1.pending) →
      (m.h.cells i).index = 0 →
      MComp h0 P root m1 := by
    intro t0 i m1 hctl hi hm hh hst hrefs hix
    have hpend : ∀ j, Pend m j → (m1.h.cells j).mark = true ∨ Pend m1 j := by
      rintro j ⟨t, ht⟩
      simp only [MSt.pending, hctl, Option.toList_some, List.cons_append, List.nil_append,
        List.mem_cons] at ht
      rcases ht with ht | ht
      · cases ht; left; rw [hh, markCell_mark]; exact Or.inl rfl
      · exact Or.inr ⟨t, hst _ ht⟩
    have hmk : ∀ j, (m.h.cells j).mark = true → (m1.h.cells j).mark = true := by
      intro j hj; rw [hh, markCell_mark]; exact Or.inr hj
    refine ⟨?_, ?_, ?_⟩
    · intro k hk hkm t j hj
      rw [hh, markCell_mark] at hkm
      rcases hkm with rfl | hkm
      · rcases hrefs t j hj with h | h
        · exact Or.inl (hmk j h)
        · exact Or.inr (Or.inr ⟨t, h⟩)
      · rcases closed k hk hkm t j hj with h | h | h
        · exact Or.inl (hmk j h)
        · exact Or.inr (Or.inl h)
        · rcases hpend j h with h | h
          · exact Or.inl h
          · exact Or.inr (Or.inr h)
    · intro t j hj
      rcases hroot t j hj with h | h
      · exact Or.inl (hmk j h)
      · exact hpend j h
    · intro k hk hkx
      have hki : k ≠ i := by
        rintro rfl
        rw [hh, markCell_cells] at hkx
        simp [hix] at hkx
      rw [hh, markCell_cells, if_neg hki] at hkx ⊢
      have h1 := idx k hk hkx
      refine ⟨⟨h1.1.1, ?_⟩, h1.2⟩
      rcases hpend k h1.1.2 with h | h
      · rw [hh, markCell_mark] at h
        rcases h with h | h
        · exact absurd h hki
        · rw [h1.1.1] at h; cases h
      · exact h
  -- steps that change no mark
  have hmove : ∀ (m1 : MSt), m1.h.cells = m.h.cells →
      (∀ j, Pend m j → (m.h.cells j).mark = true ∨ Pend m1 j) → MComp h0 P root m1 := by
    intro m1 hh hpend
    refine ⟨?_, ?_, ?_⟩
    · intro k hk hkm t j hj
      rw [hh] at hkm ⊢
      rcases closed k hk hkm t j hj with h | h | h
      · exact Or.inl h
      · exact Or.inr (Or.inl h)
      · rcases hpend j h with h | h
        · exact Or.inl h
        · exact Or.inr (Or.inr h)
    · intro t j hj
      rw [hh]
      rcases hroot t j hj with h | h
      · exact Or.inl h
      · exact hpend j h
    · intro k hk hkx
      rw [hh] at hkx ⊢
      have h1 := idx k hk hkx
      refine ⟨⟨h1.1.1, ?_⟩, h1.2⟩
      rcases hpend k h1.1.2 with h | h
      · rw [h1.1.1] at h; cases h
      · exact h
  have hix0 : ∀ i, i < m.h.size → (∀ hd da es, (h0.cells i).content ≠ .lispArr hd da es) →
      (m.h.cells i).index = 0 := by
    intro i hi hne
    rcases Nat.eq_zero_or_pos (m.h.cells i).index with h | h
    · exact h
    · obtain ⟨_, hd, da, es, hc⟩ := idx i (by rw [← same.size]; exact hi) (by omega)
      exact absurd hc (hne hd da es)
  cases hs with
  | pop hctl hst =>
    refine hmove _ rfl (fun j hj => Or.inr ?_)
    obtain ⟨t, ht⟩ := hj
    refine ⟨t, ?_⟩
    simpa [MSt.pending, hctl, hst] using ht
  | skip hctl hsk =>
    refine hmove _ rfl (fun j hj => ?_)
    obtain ⟨t, ht⟩ := hj
    simp only [MSt.pending, hctl, Option.toList_some, List.cons_append, List.nil_append,
      List.mem_cons] at ht
    rcases ht with ht | ht
    · left; exact hsk t j ht.symm
    · right; exact ⟨t, by simpa [MSt.pending] using ht⟩
  | @leaf t i hctl hi hm hk =>
    have hok := (pend (.ptr t false i) (by simp [MSt.pending, hctl])).1
    have hnoref : (∀ t j, Val.ptr t false j ∉ (h0.cells i).content.refs) ∧
        ∀ hd da es, (h0.cells i).content ≠ .lispArr hd da es := by
      rcases hk with ⟨h1, h2, h3⟩ | ⟨d, hc⟩
      · have h5 := hok.2
        cases t <;> first | exact h5 | (exact absurd rfl ‹_›)
      · rw [same.content] at hc; rw [hc]
        exact ⟨fun t j h => (by cases h), fun _ _ _ h => (by cases h)⟩
    refine hmark t i _ hctl hi hm rfl (by simp [MSt.pending]) ?_ (hix0 i hi hnoref.2)
    intro t j hj; exact absurd hj (hnoref.1 t j)
  | @chan i c dep hctl hi hm hc =>
    rw [same.content] at hc
    refine hmark _ i _ hctl hi hm rfl (by simp [MSt.pending]; grind) ?_ (hix0 i hi (by simp [hc]))
    intro t j hj
    rw [hc] at hj
    right; simp [Content.refs] at hj; simp [MSt.pending, hj]
  | @consPush i a d hctl hi hm hc hdp =>
    rw [same.content] at hc
    refine hmark _ i _ hctl hi hm rfl (by simp [MSt.pending]; grind) ?_ (hix0 i hi (by simp [hc]))
    intro t j hj
    rw [hc] at hj
    right; simp [Content.refs] at hj; simp [MSt.pending]; grind
  | @consNo i a d hctl hi hm hc hdp =>
    rw [same.content] at hc
    refine hmark _ i _ hctl hi hm rfl (by simp [MSt.pending]; grind) ?_ (hix0 i hi (by simp [hc]))
    intro t j hj
    rw [hc] at hj
    right; simp [Content.refs] at hj; simp [MSt.pending]
    rcases hj with rfl | rfl
    · exact Or.inl rfl
    · simp [Val.isPtr] at hdp
  | @descend i hd da es t j h' s' hctl hi hm hc hp he hj =>
    obtain ⟨rfl, rfl⟩ := hp.ok hd
    refine hmove _ rfl (fun j hj => Or.inr (pend_mono ?_ hj))
    simp [MSt.pending, hctl]; grind
  | @advance i hd' da es e h' s' hctl hi hm hc hp he hall hlt =>
    obtain ⟨rfl, rfl⟩ := hp.ok hd
    rw [same.content] at hc
    have hmk : ∀ j, (((m.h.setCell i { m.h.cells i with index := (m.h.cells i).index + 1 }).cells j).mark
          = (m.h.cells j).mark) := by
      intro j; simp only [setCell_cells]; split <;> simp_all
    have hpend : ∀ {j}, Pend m j →
        Pend ⟨m.h.setCell i { m.h.cells i with index := (m.h.cells i).index + 1 },
          .ptr .lispArray false i :: m.stack, none⟩ j := by
      intro j hj; refine pend_mono ?_ hj; simp [MSt.pending, hctl]
    refine ⟨?_, ?_, ?_⟩
    · intro k hk hkm t j hj
      simp only [hmk] at hkm ⊢
      rcases closed k hk hkm t j hj with h | h | h
      · exact Or.inl h
      · exact Or.inr (Or.inl h)
      · exact Or.inr (Or.inr (hpend h))
    · intro t j hj
      simp only [hmk]
      rcases hroot t j hj with h | h
      · exact Or.inl h
      · exact Or.inr (hpend h)
    · intro k hk hkx
      simp only [hmk]
      by_cases hki : k = i
      · subst hki
        exact ⟨⟨hm, ⟨.lispArray, by simp [MSt.pending]⟩⟩, _, _, _, hc⟩
      · simp only [setCell_cells, hki, if_false] at hkx
        have h1 := idx k hk hkx
        exact ⟨⟨h1.1.1, hpend h1.1.2⟩, h1.2⟩
  | @finish i hd' da es e h' x s' hctl hi hm hc hp he hall hlt =>
    obtain ⟨rfl, h2⟩ := hp.ok hd
    obtain ⟨rfl, rfl⟩ := List.cons.inj h2
    rw [same.content] at hc
    have hi0 : i < h0.size := by rw [← same.size]; exact hi
    have hmk : ∀ j, (((({ m.h with gcMarked := m.h.gcMarked + 1 } : Heap).setCell i
        { m.h.cells i with index := 0, mark := true }).cells j).mark = true) ↔
        (j = i ∨ (m.h.cells j).mark = true) := by
      intro j; simp only [setCell_cells]; split <;> simp_all
    have hpend : ∀ j, Pend m j → (j = i ∨ (m.h.cells j).mark = true) ∨
        Pend ⟨({ m.h with gcMarked := m.h.gcMarked + 1 } : Heap).setCell i
                { m.h.cells i with index := 0, mark := true }, m.stack, none⟩ j := by
      rintro j ⟨t, ht⟩
      simp only [MSt.pending, hctl, Option.toList_some, List.cons_append, List.nil_append,
        List.mem_cons] at ht
      rcases ht with ht | ht
      · cases ht; exact Or.inl (Or.inl rfl)
      · exact Or.inr ⟨t, by simpa [MSt.pending] using ht⟩
    refine ⟨?_, ?_, ?_⟩
    · intro k hk hkm t j hj
      simp only [hmk] at hkm ⊢
      rcases hkm with rfl | hkm
      · left; right
        rw [hc] at hj; change _ ∈ es at hj
        obtain ⟨l, hl, hl2⟩ := List.mem_iff_getElem.mp hj
        have hlq : es[l]? = some (.ptr t false j) := by
          rw [List.getElem?_eq_getElem hl, hl2]
        rcases Nat.lt_or_ge l (m.h.cells k).index with h | h
        · exact (arr k hk hm _ _ _ hc).2 l h t j hlq
        · have : l = (m.h.cells k).index := by omega
          subst this
          rw [he] at hlq; cases hlq
          exact hall _ _ rfl
      · rcases closed k hk hkm t j hj with h | h | h
        · exact Or.inl (Or.inr h)
        · exact Or.inr (Or.inl h)
        · rcases hpend j h with h | h
          · exact Or.inl h
          · exact Or.inr (Or.inr h)
    · intro t j hj
      simp only [hmk]
      rcases hroot t j hj with h | h
      · exact Or.inl (Or.inr h)
      · exact hpend j h
    · intro k hk hkx
      have hki : k ≠ i := by
        rintro rfl; simp at hkx
      simp only [setCell_cells, hki, if_false] at hkx ⊢
      have h1 := idx k hk hkx
      refine ⟨⟨h1.1.1, ?_⟩, h1.2⟩
      rcases hpend k h1.1.2 with h | h
      · rcases h with h | h
        · exact absurd h hki
        · rw [h1.1.1] at h; cases h
      · exact h

theorem PushRes.nonempty {m : MSt} {curr h' s'} (hp : PushRes m curr h' s') (hc : 0 < m.h.gcCap) :
    s' ≠ [] := by
  rcases hp with ⟨_, rfl⟩ | ⟨h, _, rfl⟩
  · simp
  · rintro h2; rw [h2] at h; simp at h; omega

theorem markArray_no_ub {m : MSt} {i : Nat} {es : List Val} (hcap : 0 < m.h.gcCap)
    (hix : (m.h.cells i).index < es.length)
    (hes : ∀ t j, Val.ptr t false j ∈ es → j < m.h.size) :
    markArray m (.ptr .lispArray false i) i es ≠ .ub := by
  unfold markArray
  extract_lets c src hs0
  have hp : PushRes m (.ptr .lispArray false i) hs0.1 hs0.2 := pushRes_of rfl
  have hne := hp.nonempty hcap
  split
  · next he => rw [List.getElem?_eq_none_iff] at he; simp only [c] at he; omega
  · next e he =>
    have key : ∀ h1 : Heap, (if c.index < es.length - 1 then
          (.ok (.inl { h := hs0.1.setCell i { c with index := c.index + 1 }, stack := hs0.2, ctl := none })
            : Out (MSt ⊕ Heap))
         else
          match hs0.2 with
          | [] => .ub
          | _ :: s =>
            .ok (.inl { h := h1.setCell i { c with index := 0, mark := true }, stack := s, ctl := none }))
          ≠ .ub := by
      intro h1
      split
      · simp
      · split
        · next h => exact absurd h hne
        · simp
    split
    · next t j =>
      have hj := hes t j (List.mem_of_getElem? he)
      rw [if_neg (by omega)]
      split
      · exact key _
      · simp
    · exact key _

theorem markStep_no_ub {h0 : Heap} {R : Nat → Prop} (hw : Typed h0) {m : MSt}
    (inv : MSafe h0 R m) (hcap : 0 < h0.gcCap) : markStep m ≠ .ub := by
  obtain ⟨same, mono, sound, pend, arr⟩ := inv
  unfold markStep
  split
  · split <;> simp
  · next curr hctl =>
    have hok := (pend curr (by simp [MSt.pending, hctl])).1
    split
    · exact absurd hok (by simp [OkRef])
    · next t i =>
      have hi : i < m.h.size := by rw [same.size]; exact hok.1
      have hk := hok.2
      rw [if_neg (by omega)]
      simp only
      split
      · simp
      · next hm =>
        have hm' : (m.h.cells i).mark = false := by simpa using hm
        split
        · obtain ⟨hd, da, es, hc⟩ := hk
          rw [same.content, hc]
          simp only
          refine markArray_no_ub (by rw [same.gcCap]; exact hcap)
            (arr i (by rw [← same.size]; exact hi) hm' _ _ _ hc).1 ?_
          intro t j hj
          have := (hw.arr i (by rw [← same.size]; exact hi) _ _ _ hc).2 _ hj
          rw [same.size]; exact this.1
        · obtain ⟨ch, dep, hc⟩ := hk
          rw [same.content, hc]
          cases ch <;> simp
        · obtain ⟨a, d, hc⟩ := hk
          rw [same.content, hc]
          simp only
          split
          · split <;> simp
          · simp
        · simp
    · simp

/-- What a finished mark phase guarantees. -/
structure MarkPost (h0 : Heap) (P R : Nat → Prop) (root : Val) (h' : Heap) : Prop where
  same : Same h0 h'
  mono : ∀ i, (h0.cells i).mark = true → (h'.cells i).mark = true
  sound : ∀ i, (h'.cells i).mark = true → (h0.cells i).mark = true ∨ R i
  arr : ∀ i < h0.size, (h'.cells i).mark = false → ∀ hd da es,
    (h0.cells i).content = .lispArr hd da es →
    (h'.cells i).index < es.length ∧
    ∀ k < (h'.cells i).index, ∀ t j, es[k]? = some (.ptr t false j) → (h'.cells j).mark = true
  comp : h'.dropped = false →
    (∀ i < h0.size, (h'.cells i).mark = true → ∀ t j,
      Val.ptr t false j ∈ (h0.cells i).content.refs → (h'.cells j).mark = true ∨ P j) ∧
    (∀ t j, root = .ptr t false j → (h'.cells j).mark = true) ∧
    (∀ i < h0.size, (h'.cells i).index = 0)

theorem markRun_spec {h0 : Heap} {P R : Nat → Prop} {root : Val} (hw : Typed h0) (hR : RClosed h0 R)
    (hcap : 0 < h0.gcCap) :
    ∀ n (m : MSt), MSafe h0 R m → (m.h.dropped = false → MComp h0 P root m) →
    markRun n m ≠ some .ub ∧ ∀ h', markRun n m = some (.ok h') → MarkPost h0 P R root h' := by
  intro n
  induction n with
  | zero => intro m _ _; simp [markRun]
  | succ n ih =>
    intro m safe comp
    unfold markRun
    split
    · next m' hs =>
      have st := step_of_markStep hs
      refine ih m' (step_safe hw hR safe st) (fun hd => ?_)
      refine step_comp safe (comp ?_) st hd
      cases hdm : m.h.dropped with
      | false => rfl
      | true => rw [step_dropped st hdm] at hd; cases hd
    · next h hs =>
      refine ⟨by simp, ?_⟩
      intro h' he
      simp only [Option.some.injEq, Out.ok.injEq] at he
      subst he
      have hfin : m.h = h ∧ m.ctl = none ∧ m.stack = [] := by
        unfold markStep at hs
        split at hs
        · next hctl =>
          split at hs
          · next hst => simp at hs; exact ⟨hs, hctl, hst⟩
          · simp at hs
        · next hctl =>
          exfalso
          have : ∀ m1, markStep m = .ok (.inr m1) → m.ctl = none := by
            intro m1 h1
            unfold markStep markArray at h1
            cases hc : m.ctl with
            | none => rfl
            | some c => rw [hc] at h1; simp only at h1; (repeat' split at h1) <;> simp at h1
          have h2 := this h (by unfold markStep; rw [hctl]; exact hs)
          rw [h2] at hctl; cases hctl
      obtain ⟨rfl, hctl, hst⟩ := hfin
      refine ⟨safe.same, safe.mono, safe.sound, safe.arr, ?_⟩
      · intro hd
        have c := comp hd
        have hnp : ∀ j, ¬ Pend m j := by
          rintro j ⟨t, ht⟩; simp [MSt.pending, hctl, hst] at ht
        refine ⟨?_, ?_, ?_⟩
        · intro i hi hm t j hj
          rcases c.closed i hi hm t j hj with h | h | h
          · exact Or.inl h
          · exact Or.inr h
          · exact absurd h (hnp j)
        · intro t j hj
          rcases c.root t j hj with h | h
          · exact h
          · exact absurd h (hnp j)
        · intro i hi
          rcases Nat.eq_zero_or_pos (m.h.cells i).index with h | h
          · exact h
          · exact absurd (c.idx i hi (by omega)).1.2 (hnp i)
    · simp
    · next hs => exact absurd hs (markStep_no_ub hw safe hcap)

theorem markStep_inr {m : MSt} {h : Heap} (hs : markStep m = .ok (.inr h)) : m.h = h := by
  unfold markStep markArray at hs
  cases hc : m.ctl with
  | none =>
    rw [hc] at hs; simp only at hs
    split at hs
    · simpa using hs
    · simp at hs
  | some c => rw [hc] at hs; simp only at hs; (repeat' split at hs) <;> simp at hs

theorem markRun_dropped : ∀ n (m : MSt) h', m.h.dropped = true → markRun n m = some (.ok h') →
    h'.dropped = true := by
  intro n
  induction n with
  | zero => intro m h' _ h; simp [markRun] at h
  | succ n ih =>
    intro m h' hd h
    unfold markRun at h
    split at h
    · next m' hs => exact ih m' h' (step_dropped (step_of_markStep hs) hd) h
    · next h1 hs =>
      simp only [Option.some.injEq, Out.ok.injEq] at h
      subst h; rw [← markStep_inr hs]; exact hd
    · simp at h
    · simp at h

/-! ### Termination -/

/-- Weight of a cell: 0 when marked, otherwise 1 plus the array elements still to look at. -/
def cellWeight (c : Cell) : Nat :=
  if c.mark then 0
  else match c.content with
    | .lispArr _ _ es => 1 + (es.length - c.index)
    | _ => 1

def weightTo (cells : Nat → Cell) : Nat → Nat
  | 0 => 0
  | n + 1 => weightTo cells n + cellWeight (cells n)

theorem weightTo_le {c c' : Nat → Cell} : ∀ n, (∀ i < n, cellWeight (c' i) ≤ cellWeight (c i)) →
    weightTo c' n ≤ weightTo c n := by
  intro n
  induction n with
  | zero => intro _; simp [weightTo]
  | succ n ih =>
    intro h
    have := ih (fun i hi => h i (by omega))
    have := h n (by omega)
    simp only [weightTo]; omega

theorem weightTo_lt {c c' : Nat → Cell} : ∀ n, (∀ i < n, cellWeight (c' i) ≤ cellWeight (c i)) →
    ∀ k < n, cellWeight (c' k) < cellWeight (c k) → weightTo c' n < weightTo c n := by
  intro n
  induction n with
  | zero => intro _ k hk; omega
  | succ n ih =>
    intro h k hk hlt
    simp only [weightTo]
    rcases Nat.lt_or_eq_of_le (Nat.lt_succ_iff.mp hk) with h1 | h1
    · have := ih (fun i hi => h i (by omega)) k h1 hlt
      have := h n (by omega)
      omega
    · subst h1
      have := weightTo_le k (fun i hi => h i (by omega))
      omega

/-- Is the value a pointer to an unmarked cell, and of what rank? -/
def liveRank (rank : Nat → Nat) (h : Heap) : Val → Option Nat
  | .ptr t false i => if (h.cells i).mark then none else some (if t = .lispArray then rank i + 1 else 0)
  | _ => none

/-- The second component of the termination measure. -/
def phase (rank : Nat → Nat) (m : MSt) : Nat × Nat :=
  match m.ctl with
  | none => (1, 2 * m.stack.length)
  | some v =>
    match liveRank rank m.h v with
    | some r => (0, r)
    | none => (1, 2 * m.stack.length + 1)

def measureOf (rank : Nat → Nat) (m : MSt) : Nat × (Nat × Nat) :=
  (weightTo m.h.cells m.h.size, phase rank m)

def lt3 : (Nat × (Nat × Nat)) → (Nat × (Nat × Nat)) → Prop :=
  Prod.Lex (· < ·) (Prod.Lex (· < ·) (· < ·))

theorem lt3_wf : WellFounded lt3 :=
  (Prod.lex Nat.lt_wfRel (Prod.lex Nat.lt_wfRel Nat.lt_wfRel)).wf

theorem step_measure {h0 : Heap} {R : Nat → Prop} {rank : Nat → Nat}
    (hrank : ∀ i < h0.size, ∀ hd da es j, (h0.cells i).content = .lispArr hd da es →
      Val.ptr .lispArray false j ∈ es → rank j < rank i)
    {m m' : MSt} (safe : MSafe h0 R m) (hs : Step m m') :
    lt3 (measureOf rank m') (measureOf rank m) := by
  obtain ⟨same, mono, sound, pend, arr⟩ := safe
  have hmark : ∀ i, i < m.h.size → (m.h.cells i).mark = false →
      weightTo (markCell m.h i).cells m.h.size < weightTo m.h.cells m.h.size := by
    intro i hi hm
    refine weightTo_lt _ ?_ i hi ?_
    · intro j _
      rw [markCell_cells]
      split
      · next h => subst h; simp [cellWeight]
      · exact Nat.le_refl _
    · rw [markCell_cells]; simp only [if_true, cellWeight, hm]
      simp only [Bool.false_eq_true, if_false]
      split <;> omega
  cases hs with
  | @pop curr s hctl hst =>
    apply Prod.Lex.right
    simp only [phase, hctl, hst]
    cases hl : liveRank rank m.h curr with
    | none => apply Prod.Lex.right; simp; omega
    | some r => apply Prod.Lex.left; decide
  | @skip curr hctl hsk =>
    apply Prod.Lex.right
    simp only [phase, hctl]
    have : liveRank rank m.h curr = none := by
      unfold liveRank
      split
      · next t i => simp [hsk t i rfl]
      · rfl
    rw [this]
    apply Prod.Lex.right; simp
  | leaf hctl hi hm _ => exact Prod.Lex.left _ _ (hmark _ hi hm)
  | chan hctl hi hm _ => exact Prod.Lex.left _ _ (hmark _ hi hm)
  | consPush hctl hi hm _ _ => exact Prod.Lex.left _ _ (hmark _ hi hm)
  | consNo hctl hi hm _ _ => exact Prod.Lex.left _ _ (hmark _ hi hm)
  | @descend i hd da es t j h' s' hctl hi hm hc hp he hj =>
    rw [same.content] at hc
    have e1 : h'.cells = m.h.cells := hp.cells
    have e2 : h'.size = m.h.size := hp.size
    have : measureOf rank { h := h', stack := s', ctl := some (.ptr t false j) } =
        (weightTo m.h.cells m.h.size, (0, if t = .lispArray then rank j + 1 else 0)) := by
      simp only [measureOf, phase, liveRank, e1, e2, hj, Bool.false_eq_true, if_false]
    rw [this]
    apply Prod.Lex.right
    simp only [phase, hctl, liveRank, hm, Bool.false_eq_true, if_false, if_true]
    apply Prod.Lex.right
    split
    · next ht =>
      subst ht
      have := hrank i (by rw [← same.size]; exact hi) _ _ _ j hc (List.mem_of_getElem? he)
      omega
    · omega
  | @advance i hd da es e h' s' hctl hi hm hc hp he hall hlt =>
    apply Prod.Lex.left
    simp only [setCell_size, hp.size]
    refine weightTo_lt _ ?_ i hi ?_
    · intro k _
      simp only [setCell_cells, hp.cells]
      split
      · next h => subst h; simp only [cellWeight, hm, hc]; simp; omega
      · exact Nat.le_refl _
    · simp only [setCell_cells, if_true, cellWeight, hm, hc]; simp; omega
  | @finish i hd da es e h' x s' hctl hi hm hc hp he hall hlt =>
    apply Prod.Lex.left
    simp only [setCell_size, hp.size]
    refine weightTo_lt _ ?_ i hi ?_
    · intro k _
      simp only [setCell_cells, hp.cells]
      split
      · simp [cellWeight]
      · exact Nat.le_refl _
    · simp only [setCell_cells, if_true, cellWeight, hm, hc]; simp; omega

theorem markRun_terminates {h0 : Heap} {R : Nat → Prop} (hw : Typed h0) (hR : RClosed h0 R)
    (hr : ArraysRanked h0) (m : MSt) (safe : MSafe h0 R m) : ∃ n r, markRun n m = some r := by
  obtain ⟨rank, hrank⟩ := hr
  generalize hμ : measureOf rank m = μ
  induction μ using lt3_wf.induction generalizing m with
  | _ μ ih =>
    cases hs : markStep m with
    | ub => exact ⟨1, .ub, by simp [markRun, hs]⟩
    | critical => exact ⟨1, .critical, by simp [markRun, hs]⟩
    | ok r =>
      cases r with
      | inr h => exact ⟨1, .ok h, by simp [markRun, hs]⟩
      | inl m' =>
        have st := step_of_markStep hs
        obtain ⟨n, r, hn⟩ := ih _ (by rw [← hμ]; exact step_measure hrank safe st) m'
          (step_safe hw hR safe st) rfl
        exact ⟨n + 1, r, by simp [markRun, hs, hn]⟩

theorem markRun_fuel : ∀ n k (m : MSt) r, markRun n m = some r → markRun (n + k) m = some r := by
  intro n
  induction n with
  | zero => intro k m r h; simp [markRun] at h
  | succ n ih =>
    intro k m r h
    rw [Nat.add_right_comm]
    unfold markRun at h ⊢
    split at h <;> simp_all

end Verif.Heap
