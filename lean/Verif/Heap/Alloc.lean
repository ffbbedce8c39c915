import Verif.Heap.Gc3

/- The free list across client operations. -/

namespace Verif.Heap

theorem init_chain (n cap : Nat) (hn : 0 < n) : FreeOK (init n cap) (List.range n) := by
  have key : ∀ k i, i + k = n → 0 < k →
      FreeChain (init n cap) (.ptr .cons false i) (List.range' i k) := by
    intro k
    induction k with
    | zero => intro i _ h; omega
    | succ k ih =>
      intro i hi _
      rw [List.range'_succ]
      refine ⟨rfl, by simp [init]; omega, ?_⟩
      by_cases hk : k = 0
      · subst hk
        refine ⟨nil, nil, ?_, by simp [FreeChain]⟩
        simp only [init]; rw [if_neg (by omega)]
      · refine ⟨recovered, .ptr .cons false (i + 1), ?_, ih (i + 1) (by omega) (by omega)⟩
        simp only [init]; rw [if_pos (by omega)]
  refine ⟨?_, List.nodup_range, by simp [init]⟩
  rw [List.range_eq_range']
  exact key n 0 (by omega) hn

theorem freeOK_cons {h : Heap} {i : Nat} {l : List Nat} (hf : FreeOK h (i :: l)) :
    h.freelist = .ptr .cons false i ∧ i < h.size ∧ i ∉ l ∧ l.Nodup ∧
    FreeChain h (link (h.cells i)) l ∧ h.numAlloc + l.length + 1 = h.size := by
  obtain ⟨⟨hv, hi, a, d, hc, hch⟩, hnd, hcount⟩ := hf
  rw [List.nodup_cons] at hnd
  refine ⟨hv, hi, hnd.1, hnd.2, ?_, by simp at hcount; omega⟩
  simpa [link, hc] using hch

theorem allocateCell_spec {h : Heap} {i : Nat} {l : List Nat} (hf : FreeOK h (i :: l)) (t : PTy) (c : Content) :
    ∃ h', allocateCell h t c = (h', .ptr t false i) ∧ FreeOK h' l ∧ h'.size = h.size ∧
      h'.consts = h.consts ∧ h'.gcCap = h.gcCap ∧ h'.dropped = h.dropped ∧ h'.numAlloc = h.numAlloc + 1 ∧
      h'.cells i = { content := c } ∧ ∀ j, j ≠ i → h'.cells j = h.cells j := by
  obtain ⟨hv, hi, hni, hnd, hch, hcount⟩ := freeOK_cons hf
  refine ⟨_, by simp only [allocateCell, hv]; rfl, ?_⟩
  refine ⟨⟨?_, hnd, ?_⟩, rfl, rfl, rfl, rfl, rfl, by simp, ?_⟩
  · refine freeChain_congr (h := h) (by rfl) ?_ hch
    intro j hj
    have : j ≠ i := by rintro rfl; exact hni hj
    simp [this]
  · simp; omega
  · intro j hj; simp [hj]

theorem allocateCell_full {h : Heap} (hf : FreeOK h []) (t : PTy) (c : Content) :
    allocateCell h t c = (h, merror) := by
  have : h.freelist = nil := hf.1
  simp [allocateCell, this, nil]

theorem freeOK_len {h : Heap} {l : List Nat} (hf : FreeOK h l) : numFree h = l.length := by
  have := hf.2.2; unfold numFree; omega

/-- The chain of filled cells that `fillLoop` builds: links not yet terminated. -/
def Filled (h : Heap) : List Nat → List Val → Val → Prop
  | [], [], _ => True
  | [i], [x], d => (h.cells i).content = .pair x d
  | i :: j :: is, x :: xs, d => (h.cells i).content = .pair x (.ptr .cons false j) ∧ Filled h (j :: is) xs d
  | _, _, _ => False

theorem fillLoop_spec : ∀ (vs : List Val) (h : Heap) (v : Val) (l : List Nat) (last : Nat),
    FreeChain h v l → l.Nodup → vs.length ≤ l.length →
    ∃ h' last', fillLoop h v last vs = some (h', headOf (l.drop vs.length), last') ∧
      FreeChain h' (headOf (l.drop vs.length)) (l.drop vs.length) ∧
      (last' = ((l.take vs.length).getLast?).getD last) ∧
      h'.size = h.size ∧ h'.freelist = h.freelist ∧ h'.numAlloc = h.numAlloc ∧ h'.consts = h.consts ∧
      h'.gcCap = h.gcCap ∧ h'.dropped = h.dropped ∧
      (∀ j, j ∉ l.take vs.length → h'.cells j = h.cells j) ∧
      (∀ j ∈ l.take vs.length, (h'.cells j).mark = false ∧ (h'.cells j).index = 0) ∧
      Filled h' (l.take vs.length) vs (headOf (l.drop vs.length)) := by
  intro vs
  induction vs with
  | nil =>
    intro h v l last hch hnd _
    have hv : v = headOf l := by
      cases l with
      | nil => exact hch
      | cons x xs => exact hch.1
    refine ⟨h, last, by simp [fillLoop, hv], by simpa [hv] using hch, by simp, rfl, rfl, rfl, rfl, rfl, rfl,
      fun _ _ => rfl, by simp, by simp [Filled]⟩
  | cons x xs ih =>
    intro h v l last hch hnd hlen
    cases l with
    | nil => simp at hlen
    | cons i l =>
      obtain ⟨rfl, hi, a, d, hc, hrest⟩ := hch
      rw [List.nodup_cons] at hnd
      have hlink : link (h.cells i) = d := by simp [link, hc]
      have hch' : FreeChain (h.setCell i { content := .pair x d }) d l := by
        refine freeChain_congr (h := h) (by rfl) ?_ hrest
        intro j hj
        have : j ≠ i := by rintro rfl; exact hnd.1 hj
        simp [this]
      obtain ⟨h', last', e1, e2, e3, e4, e5, e6, e6b, e6c, e6d, e7, e7b, e8⟩ :=
        ih (h.setCell i { content := .pair x d }) d l i hch' hnd.2 (by simpa using hlen)
      have hni : i ∉ l.take xs.length := fun hm => hnd.1 (List.mem_of_mem_take hm)
      refine ⟨h', last', ?_, ?_, ?_, e4, e5, e6, e6b, e6c, e6d, ?_, ?_, ?_⟩
      · simp only [fillLoop, hlink]; simpa using e1
      · simpa using e2
      · rw [e3]
        simp only [List.length_cons, List.take_succ_cons, List.getLast?_cons, Option.getD_some]
      · intro j hj
        simp only [List.length_cons, List.take_succ_cons, List.mem_cons, not_or] at hj
        rw [e7 j hj.2]; simp [hj.1]
      · intro j hj
        simp only [List.length_cons, List.take_succ_cons, List.mem_cons] at hj
        rcases hj with rfl | hj
        · rw [e7 j hni]; simp
        · exact e7b j hj
      · simp only [List.length_cons, List.take_succ_cons, List.drop_succ_cons]
        have hci : (h'.cells i).content = .pair x d := by rw [e7 i hni]; simp
        cases xs with
        | nil =>
          simp only [List.length_nil, List.take_zero, List.drop_zero] at *
          have hd : d = headOf l := by
            cases l with
            | nil => exact hrest
            | cons y ys => exact hrest.1
          simp only [Filled]; rw [hci, hd]
        | cons y ys =>
          cases l with
          | nil => simp at hlen
          | cons k l =>
            simp only [List.length_cons, List.take_succ_cons, List.drop_succ_cons] at e8 ⊢
            refine ⟨?_, e8⟩
            rw [hci, hrest.1]

theorem filled_listAt {h h' : Heap} : ∀ (is : List Nat) (vs : List Val) (d : Val) (last : Nat),
    is ≠ [] → is.Nodup → Filled h is vs d → is.getLast? = some last →
    (∀ j, j ≠ last → h'.cells j = h.cells j) →
    (∀ a, (h.cells last).content = .pair a d → (h'.cells last).content = .pair a nil) →
    ListAt h' (headOf is) is vs := by
  intro is
  induction is with
  | nil => intro _ _ _ h; exact absurd rfl h
  | cons i is ih =>
    intro vs d last _ hnd hf hl hne hla
    rw [List.nodup_cons] at hnd
    cases is with
    | nil =>
      simp at hl; subst hl
      match vs, hf with
      | [x], hf => exact ⟨rfl, nil, hla x hf, rfl⟩
    | cons j is =>
      match vs, hf with
      | x :: xs, ⟨hc, hf⟩ =>
        have hl' : (j :: is).getLast? = some last := by simpa using hl
        have hil : i ≠ last := by
          rintro rfl; exact hnd.1 (List.mem_of_getLast? hl')
        refine ⟨rfl, .ptr .cons false j, by rw [hne i hil]; exact hc, ?_⟩
        exact ih xs d last (by simp) hnd.2 hf hl' hne hla

theorem filled_last {h : Heap} : ∀ (is : List Nat) (vs : List Val) (d : Val) (last : Nat),
    Filled h is vs d → is.getLast? = some last → ∃ a, (h.cells last).content = .pair a d := by
  intro is
  induction is with
  | nil => intro _ _ _ _ h; simp at h
  | cons i is ih =>
    intro vs d last hf hl
    cases is with
    | nil =>
      simp at hl; subst hl
      match vs, hf with
      | [x], hf => exact ⟨x, hf⟩
    | cons j is =>
      match vs, hf with
      | x :: xs, ⟨hc, hf⟩ => exact ih xs d last hf (by simpa using hl)

theorem allocateListInit_spec {h : Heap} {l : List Nat} (hf : FreeOK h l) (vs : List Val)
    (hlen : vs.length ≤ l.length) (hne : vs ≠ []) :
    ∃ h', allocateListInit h vs = some (h', headOf (l.take vs.length)) ∧
      ListAt h' (headOf (l.take vs.length)) (l.take vs.length) vs ∧
      FreeOK h' (l.drop vs.length) ∧ h'.size = h.size ∧ h'.numAlloc = h.numAlloc + vs.length ∧
      h'.consts = h.consts ∧ h'.gcCap = h.gcCap ∧ h'.dropped = h.dropped ∧
      (∀ j ∈ l.take vs.length, (h'.cells j).mark = false ∧ (h'.cells j).index = 0) ∧
      ∀ j, j ∉ l.take vs.length → h'.cells j = h.cells j := by
  obtain ⟨hch, hnd, hcount⟩ := hf
  have hvl : 0 < vs.length := List.length_pos_iff.mpr hne
  cases l with
  | nil => simp at hlen; exact absurd hlen hne
  | cons i l =>
    have hfl : h.freelist = .ptr .cons false i := hch.1
    obtain ⟨h1, last, e1, e2, e3, e4, e5, e6, e6b, e6c, e6d, e7, e7b, e8⟩ :=
      fillLoop_spec vs h _ (i :: l) i hch hnd hlen
    have htake : (i :: l).take vs.length ≠ [] := by
      intro h; rw [List.take_eq_nil_iff] at h; rcases h with h | h
      · omega
      · cases h
    obtain ⟨lst, hlst⟩ : ∃ x, ((i :: l).take vs.length).getLast? = some x := by
      rw [List.getLast?_eq_some_getLast htake]; exact ⟨_, rfl⟩
    have hlast : last = lst := by rw [e3, hlst]; rfl
    subst hlast
    obtain ⟨a, ha⟩ := filled_last _ _ _ _ e8 hlst
    have hmem : last ∈ (i :: l).take vs.length := List.mem_of_getLast? hlst
    have hhead : headOf ((i :: l).take vs.length) = .ptr .cons false i := by
      cases vs with
      | nil => simp at hvl
      | cons x xs => simp [headOf]
    have hnd' : ((i :: l).take vs.length).Nodup := hnd.sublist (List.take_sublist _ _)
    have hdisj : ∀ j ∈ (i :: l).drop vs.length, j ∉ (i :: l).take vs.length := by
      intro j hj hj'
      have := hnd
      rw [← List.take_append_drop vs.length (i :: l), List.nodup_append] at this
      exact this.2.2 j hj' j hj rfl
    rw [hfl] at e1
    let h2 : Heap := { h1 with
      freelist := headOf ((i :: l).drop vs.length), numAlloc := h1.numAlloc + vs.length }
    refine ⟨h2.setCell last { content := .pair a nil }, ?_, ?_, ⟨?_, ?_, ?_⟩, ?_, ?_, ?_, ?_, ?_, ?_, ?_⟩
    · simp only [allocateListInit]
      rw [if_neg (by omega), if_neg (by unfold numFree; omega), hfl]
      simp only [e1, ha, hhead]
      rfl
    · refine filled_listAt _ _ _ last htake hnd' e8 hlst ?_ ?_
      · intro j hj; simp [hj, h2]
      · intro a' ha'; rw [ha] at ha'; cases ha'; simp
    · refine freeChain_congr (h := h1) (by rfl) ?_ e2
      intro j hj
      have : j ≠ last := by rintro rfl; exact hdisj _ hj hmem
      simp [this, h2]
    · exact hnd.sublist (List.drop_sublist _ _)
    · simp only [setCell_size, setCell_numAlloc, List.length_drop, h2, e6, e4]
      omega
    · exact e4
    · simp [e6, h2]
    · exact e6b
    · exact e6c
    · exact e6d
    · intro j hj
      simp only [setCell_cells]
      split
      · exact ⟨rfl, rfl⟩
      · exact e7b j hj
    · intro j hj
      have : j ≠ last := by rintro rfl; exact hj hmem
      simp only [setCell_cells, this, if_false]
      exact e7 j hj

theorem freeChain_lt {h : Heap} : ∀ {l : List Nat} {v : Val}, FreeChain h v l → ∀ i ∈ l, i < h.size := by
  intro l
  induction l with
  | nil => intro v _ i hi; cases hi
  | cons x xs ih =>
    rintro v ⟨_, hx, _, d, _, hr⟩ i hi
    rcases List.mem_cons.1 hi with rfl | hi
    · exact hx
    · exact ih hr i hi

/-- What the client may rely on after any history. -/
def HInv (n cap : Nat) (h : Heap) (live : Nat → Prop) : Prop :=
  ∃ l, FreeOK h l ∧ (∀ i, i < h.size → (i ∈ l ↔ ¬ live i)) ∧ (∀ i, live i → i < h.size) ∧
    h.size = n ∧ h.gcCap = cap

theorem freeOK_gc {hm h1 : Heap} {rel : List Release} (inv : SweepInv hm hm.size h1 rel) :
    FreeOK (newFreelistLength h1) (unmarkedTo hm hm.size) :=
  ⟨freeChain_congr (h := h1) (by rfl) (fun _ _ => rfl) inv.chain, nodup_unmarkedTo _ _, by
    have := inv.count; have := inv.size; simp only [newFreelistLength]; omega⟩

theorem listAt_headOf {h : Heap} : ∀ {is js : List Nat} {vs : List Val} {v : Val},
    ListAt h v is vs → ListAt h v js vs → is = js := by
  intro is
  induction is with
  | nil =>
    intro js vs v h1 h2
    cases vs with
    | nil => cases js with
      | nil => rfl
      | cons j js => exact h2.elim
    | cons x xs => exact h1.elim
  | cons i is ih =>
    intro js vs v h1 h2
    cases vs with
    | nil => exact h1.elim
    | cons x xs =>
      cases js with
      | nil => exact h2.elim
      | cons j js =>
        obtain ⟨rfl, d, hc, hr⟩ := h1
        obtain ⟨hv, d', hc', hr'⟩ := h2
        cases hv
        rw [hc] at hc'; cases hc'
        rw [ih hr hr']

theorem allocateListInit_cases {h : Heap} {l : List Nat} (hf : FreeOK h l) (vs : List Val) :
    (vs = [] ∧ allocateListInit h vs = some (h, nil)) ∨
    (vs ≠ [] ∧ l.length < vs.length ∧ allocateListInit h vs = some (h, merror)) ∨
    (vs ≠ [] ∧ vs.length ≤ l.length) := by
  by_cases hv : vs = []
  · left; subst hv; exact ⟨rfl, rfl⟩
  · right
    rcases Nat.lt_or_ge l.length vs.length with h1 | h1
    · left
      refine ⟨hv, h1, ?_⟩
      unfold allocateListInit
      rw [if_neg (by simpa using hv), if_pos (by rw [freeOK_len hf]; exact h1)]
    · right; exact ⟨hv, h1⟩

theorem hist_inv {n cap : Nat} {h : Heap} {live : Nat → Prop} (hcap : 0 < cap) (hh : Hist n cap h live) :
    HInv n cap h live := by
  induction hh with
  | init hn =>
    refine ⟨_, init_chain n cap hn, ?_, fun i hi => hi.elim, rfl, rfl⟩
    intro i hi; simpa [init] using hi
  | @alloc h h' live t c i _ ha ih =>
    obtain ⟨l, hf, hl, hlt, hs, hc⟩ := ih
    cases l with
    | nil =>
      rw [allocateCell_full hf] at ha
      simp [merror] at ha
    | cons k l =>
      obtain ⟨h2, e1, e2, e3, e4, e5, e6, e7, e8⟩ := allocateCell_spec hf t c
      rw [e1] at ha
      simp only [Prod.mk.injEq, Val.ptr.injEq, true_and] at ha
      obtain ⟨rfl, rfl⟩ := ha
      have hk := (freeOK_cons hf)
      refine ⟨l, e2, ?_, ?_, by rw [e3, hs], by rw [e5, hc]⟩
      · intro j hj
        rw [e3] at hj
        have := hl j hj
        simp only [List.mem_cons] at this
        by_cases hjk : j = k
        · subst hjk; simp [hk.2.2.1]
        · simp [hjk] at this ⊢; exact this
      · rintro j (hj | rfl)
        · rw [e3]; exact hlt j hj
        · rw [e3]; exact hk.2.1
  | @allocList h h' live vs v is _ ha hla ih =>
    obtain ⟨l, hf, hl, hlt, hs, hc⟩ := ih
    rcases allocateListInit_cases hf vs with ⟨rfl, e⟩ | ⟨hv, _, e⟩ | ⟨hv, hle⟩
    · rw [e] at ha; simp only [Option.some.injEq, Prod.mk.injEq] at ha
      obtain ⟨rfl, rfl⟩ := ha
      have : is = [] := by
        cases is with
        | nil => rfl
        | cons i is => exact hla.elim
      subst this
      exact ⟨l, hf, by simpa using hl, by simpa using hlt, hs, hc⟩
    · rw [e] at ha; simp only [Option.some.injEq, Prod.mk.injEq] at ha
      obtain ⟨rfl, rfl⟩ := ha
      exfalso
      cases is with
      | nil => cases vs with
        | nil => exact hv rfl
        | cons x xs => exact hla.elim
      | cons i is => cases vs with
        | nil => exact hv rfl
        | cons x xs => exact absurd hla.1 (by simp [merror])
    · obtain ⟨h2, e1, e2, e3, e4, e5, e6, e7, e8, e9, e10⟩ := allocateListInit_spec hf vs hle hv
      rw [e1] at ha; simp only [Option.some.injEq, Prod.mk.injEq] at ha
      obtain ⟨rfl, rfl⟩ := ha
      have his := listAt_headOf hla e2
      subst his
      have hnd := hf.2.1
      refine ⟨_, e3, ?_, ?_, by rw [e4, hs], by rw [e7, hc]⟩
      · intro j hj
        rw [e4] at hj
        have h1 := hl j hj
        rw [← List.take_append_drop vs.length l, List.mem_append] at h1
        rw [← List.take_append_drop vs.length l, List.nodup_append] at hnd
        constructor
        · intro hd
          rintro (h | h)
          · exact h1.1 (Or.inr hd) h
          · exact hnd.2.2 j h j hd rfl
        · intro hn
          rw [not_or] at hn
          exact (h1.2 hn.1).resolve_left hn.2
      · rintro j (hj | hj)
        · rw [e4]; exact hlt j hj
        · rw [e4]
          have hjl := List.mem_of_mem_take hj
          exact freeChain_lt hf.1 j hjl
  | @write h live i c _ hi ih =>
    obtain ⟨l, hf, hl, hlt, hs, hc⟩ := ih
    have hil : i ∉ l := fun hm => ((hl i (hlt i hi)).1 hm) hi
    refine ⟨l, ⟨?_, hf.2.1, hf.2.2⟩, hl, hlt, hs, hc⟩
    refine freeChain_congr (h := h) (by rfl) ?_ hf.1
    intro j hj
    have : j ≠ i := by rintro rfl; exact hil hj
    simp [this]
  | @gc h h' live fuel pre glob ctxs rel _ hw ho hplain hgc hd ih =>
    obtain ⟨l, hf, hl, hlt, hs, hc⟩ := ih
    obtain ⟨hm, h1, _, e1, e2, e3, e4, e5, e6, e7, e8, inv, rfl⟩ :=
      gc_ok hw (by rw [hc]; exact hcap) ho hplain hgc hd
    have hsz : (newFreelistLength h1).size = h.size := by
      simp only [newFreelistLength]; rw [inv.size, e1]
    refine ⟨_, freeOK_gc inv, ?_, ?_, by rw [hsz, hs], ?_⟩
    · intro i hi
      rw [mem_unmarkedTo, ← e6]
      rw [hsz, ← e1] at hi
      simp [hi]
    · intro i hi
      rw [hsz]
      exact reachable_lt hw.typed (fun t i hm => (roots_okRef ho _ hm).1) hi
    · simp only [newFreelistLength]; rw [inv.cap, e8, hc]

end Verif.Heap
