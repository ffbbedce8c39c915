import Verif.Mem.Preserve
/-
The invariant holds in every reachable state; consequences used by the property theorems.
-/
namespace Verif.Mem

theorem Inv.congr {strict w size m m' live} (h : Inv strict w size m live)
    (h1 : m'.w = m.w) (h2 : m'.bm = m.bm) (h3 : m'.off = m.off) (h4 : m'.numFree = m.numFree) :
    Inv strict w size m' live := by
  obtain ⟨segs, hI⟩ := h
  exact ⟨segs, ⟨h1.trans hI.hw, h2.trans hI.hbm, hI.hsize, by rw [h3]; exact hI.hoff,
    h4.trans hI.hfree, hI.hlive⟩⟩

theorem Inv.perm {strict w size m live live'} (h : Inv strict w size m live) (hp : live'.Perm live) :
    Inv strict w size m live' := by
  obtain ⟨segs, hI⟩ := h
  exact ⟨segs, ⟨hI.hw, hI.hbm, hI.hsize, hI.hoff, hI.hfree, hp.trans hI.hlive⟩⟩

theorem init_inv (strict : Bool) (w size r : Nat) (h : 0 < size) : Inv strict w size (init w size r) [] := by
  refine ⟨List.replicate size .free, ⟨rfl, by simp [init, encs_replicate], by simp, ?_, by simp [init],
    by simp [blocksOf_replicate]⟩⟩
  exact ⟨by simpa [init] using h, .inl rfl⟩

theorem allocate_inv {strict w size m live} (hw : size < 2 ^ w) (h : Inv strict w size m live) (n : Nat) :
    (∃ m' p, allocate m n = some (m', some p) ∧ 1 ≤ n ∧ Inv strict w size m' ((p, n) :: live) ∧
        freeRun size live p n ∧ m.reserve ≤ wsub m.w m.numFree n ∧ m'.numFree = m.numFree - n) ∨
    (∃ m', allocate m n = some (m', none) ∧ Inv strict w size m' live ∧ m'.numFree = m.numFree ∧
      (strict = true → 1 ≤ n → m.reserve ≤ wsub m.w m.numFree n → ∀ p, ¬ freeRun size live p n)) := by
  by_cases hr : wsub m.w m.numFree n < m.reserve
  · right
    refine ⟨{ m with gcReq := true }, by simp [allocate, hr], h.congr rfl rfl rfl rfl, rfl, ?_⟩
    intro _ _ h; omega
  · rcases allocateInternal_inv hw h n with ⟨m', p, h1, h2, h3, h4, _, _, h5, _⟩ | ⟨h1, h2⟩
    · left; exact ⟨m', p, by simp [allocate, hr, h1], h2, h3, h4, by omega, h5⟩
    · right; exact ⟨m, by simp [allocate, hr, h1], h, rfl, fun a b _ => h2 a b⟩

theorem free_reject {m : Mem} {p : Nat} (h : m.bm[p]? ≠ some .start) (h' : m.bm[p]? ≠ some .startEnd) :
    (free m p).2 = false ∧ (free m p).1.bm = m.bm ∧ (free m p).1.numFree = m.numFree ∧
    (free m p).1.w = m.w ∧ (free m p).1.reserve = m.reserve ∧
    ((free m p).1.off = m.off ∨ (free m p).1.off = p ∧ p < m.bm.length) := by
  simp only [free]
  split
  · rename_i hin
    simp [ptrInside] at hin
    simp [hin]
  · simp

/-- A word that is not the start of a live block does not have a start status. -/
theorem not_start {strict w size m live} (h : Inv strict w size m live) {p : Nat} (hb : ∀ k, (p, k) ∉ live) :
    m.bm[p]? ≠ some .start ∧ m.bm[p]? ≠ some .startEnd := by
  obtain ⟨segs, hI⟩ := h
  by_cases hp : p < lens segs
  · obtain ⟨pre, s, post, j, h1, h2, h3⟩ := locate segs p hp
    rw [hI.hbm, h1, h2, status_mid _ _ _ _ h3]
    cases s with
    | free => have : j = 0 := by simp [Seg.len] at h3; omega
              subst this; simp [Seg.enc]
    | used k =>
      simp only [Seg.len] at h3
      rw [enc_get k j (by omega)]
      by_cases hj : j = 0
      · exfalso
        apply hb (k+1)
        rw [hI.hlive.mem_iff, h1, blocksOf_append, h2, hj]
        simp [blocksOf]
      · have : ¬ k = 0 := by omega
        simp only [this, hj, if_false]
        split <;> simp
  · rw [hI.hbm, List.getElem?_eq_none (by simpa using hp)]; simp

theorem badFree_inv {w size m live p} (h : Inv false w size m live) (hb : ∀ k, (p, k) ∉ live)
    (hs : ¬ strictlyInside live p) : Inv false w size (free m p).1 live := by
  obtain ⟨hn1, hn2⟩ := not_start h hb
  obtain ⟨_, h2, h3, h4, _, h6⟩ := free_reject hn1 hn2
  rcases h6 with h6 | ⟨h6, h7⟩
  · exact h.congr h4 h2 h6 h3
  · obtain ⟨segs, hI⟩ := h
    refine ⟨segs, ⟨h4.trans hI.hw, h2.trans hI.hbm, hI.hsize, ?_, h3.trans hI.hfree, hI.hlive⟩⟩
    rw [h6]
    have hp : p < lens segs := by simpa [hI.hbm] using h7
    refine ⟨hp, .inr ?_⟩
    obtain ⟨pre, s, post, j, e1, e2, e3⟩ := locate segs p hp
    cases s with
    | free =>
      right
      exact ⟨rfl, pre, .free :: post, e1, by simp [Seg.len] at e3; omega⟩
    | used k =>
      left
      refine ⟨pre, k, post, e1, .inl ?_⟩
      simp only [Seg.len] at e3
      have hmem : (lens pre, k + 1) ∈ live := by
        rw [hI.hlive.mem_iff, e1, blocksOf_append]; simp [blocksOf]
      have hj0 : j ≠ 0 := by
        rintro rfl; rw [Nat.add_zero] at e2; subst e2; exact hb _ hmem
      by_cases hjk : j = k
      · omega
      · exfalso; exact hs ⟨_, hmem, by simp; omega, by simp; omega⟩

theorem reach_inv {valid w size m live} (h0 : 0 < size) (hw : size < 2 ^ w)
    (h : Reach valid w size m live) : Inv valid w size m live := by
  have aux : ∀ {m m' : Mem} {live n r}, Inv valid w size m live → allocate m n = some (m', r) →
      Inv valid w size m' (match r with | some p => (p, n) :: live | none => live) := by
    intro m m' live n r hI he
    rcases allocate_inv hw hI n with ⟨m2, p2, e1, _, e2, _⟩ | ⟨m2, e1, e2, _⟩
    · rw [e1] at he; cases he; exact e2
    · rw [e1] at he; cases he; exact e2
  have auxI : ∀ {m m' : Mem} {live n r}, Inv valid w size m live → allocateInternal m n = some (m', r) →
      Inv valid w size m' (match r with | some p => (p, n) :: live | none => live) := by
    intro m m' live n r hI he
    rcases allocateInternal_inv hw hI n with ⟨m2, p2, e1, _, e2, _⟩ | ⟨e1, e2⟩
    · rw [e1] at he; cases he; exact e2
    · rw [e1] at he; cases he; exact hI
  have auxM : ∀ {m m' : Mem} {live n r}, Inv valid w size m live → malloc m n = some (m', r) →
      Inv valid w size m' (match r with | some p => (p, bytesToWords w n) :: live | none => live) := by
    intro m m' live n r hI he
    have hw' : m.w = w := by obtain ⟨_, hh⟩ := hI; exact hh.hw
    simp only [malloc] at he
    split at he
    · cases he; exact hI
    · rw [hw'] at he; exact aux hI he
  have auxR : ∀ {m m' : Mem} {live n r}, Inv valid w size m live → mallocReserve m n = some (m', r) →
      Inv valid w size m' (match r with | some p => (p, bytesToWords w n) :: live | none => live) := by
    intro m m' live n r hI he
    have hw' : m.w = w := by obtain ⟨_, hh⟩ := hI; exact hh.hw
    simp only [mallocReserve] at he
    split at he
    · cases he; exact hI
    · rw [hw'] at he
      refine auxI ?_ he
      split
      · exact hI.congr hw'.symm rfl rfl rfl
      · exact hI
  induction h with
  | init r => exact init_inv valid w size r h0
  | allocate _ _ he ih => exact aux ih he
  | allocateFail _ _ he ih => exact aux ih he
  | malloc _ _ he ih => exact auxM ih he
  | mallocFail _ _ he ih => exact auxM ih he
  | mallocReserve _ _ he ih => exact auxR ih he
  | mallocReserveFail _ _ he ih => exact auxR ih he
  | free _ hb ih => exact (free_result hw ih hb).2.1
  | badFree hv _ hb hs ih => subst hv; exact badFree_inv ih hb hs
  | @shrink m m' live p k n _ hb he ih =>
    rcases shrink_result hw ih n hb with ⟨e, _⟩ | ⟨e, h1, h2⟩ | ⟨m2, e, h1, h2, h3, _⟩
    · rw [e] at he; cases he
    · rw [e] at he; cases he
      subst h2
      refine ih.perm ?_
      rw [show min n 1 = 1 by omega]
      exact (List.perm_cons_erase hb).symm
    · rw [e] at he; cases he
      rw [show min n k = n by omega]; exact h3
  | @shrinkFail m m' live p k n _ hb he ih =>
    rcases shrink_result hw ih n hb with ⟨e, _⟩ | ⟨e, h1, h2⟩ | ⟨m2, e, h1, h2, h3, _⟩
    · rw [e] at he; cases he; exact ih
    · rw [e] at he; cases he
    · rw [e] at he; cases he
  | setReserve r _ ih => exact ih.congr rfl rfl rfl rfl
  | updateMinFree _ ih =>
    refine ih.congr ?_ ?_ ?_ ?_ <;> (unfold updateMinFree; split <;> rfl)

theorem blocksOf_ge {pos segs} {b : Block} (h : b ∈ blocksOf pos segs) :
    pos ≤ b.1 ∧ b.1 + b.2 ≤ pos + lens segs ∧ 1 ≤ b.2 := by
  obtain ⟨pre, k, post, rfl, rfl⟩ := mem_blocksOf h
  simp [Seg.len]; omega

theorem blocksOf_pairwise (pos segs) : (blocksOf pos segs).Pairwise Block.disjoint := by
  induction segs generalizing pos with
  | nil => simp [blocksOf]
  | cons s r ih =>
    cases s with
    | free => exact ih _
    | used k =>
      simp only [blocksOf, List.pairwise_cons]
      refine ⟨?_, ih _⟩
      intro b hb i hi
      have := blocksOf_ge hb
      simp [Block.covers] at hi; omega

theorem Block.disjoint_symm {a b : Block} (h : a.disjoint b) : b.disjoint a :=
  fun i hi => h i ⟨hi.2, hi.1⟩

theorem inv_pairwise {strict w size m live} (h : Inv strict w size m live) :
    live.Pairwise Block.disjoint := by
  obtain ⟨segs, hI⟩ := h
  exact (hI.hlive.pairwise_iff (fun h => Block.disjoint_symm h)).mpr (blocksOf_pairwise 0 segs)

theorem inv_inside {strict w size m live} (h : Inv strict w size m live) {b} (hb : b ∈ live) :
    b.1 + b.2 ≤ size ∧ 1 ≤ b.2 := by
  obtain ⟨segs, hI⟩ := h
  have := blocksOf_ge (hI.hlive.mem_iff.mp hb)
  rw [hI.hsize] at this; omega

theorem liveWords_perm {a b : List Block} (h : a.Perm b) : liveWords a = liveWords b :=
  (h.map _).sum_nat

theorem inv_numFree {strict w size m live} (h : Inv strict w size m live) :
    m.numFree + liveWords live = size := by
  obtain ⟨segs, hI⟩ := h
  have := frees_add_live segs 0
  rw [liveWords_perm hI.hlive, hI.hfree, this, hI.hsize]

theorem run_le_numFree {strict w size m live} (h : Inv strict w size m live) {p n} (hn : 1 ≤ n)
    (hr : freeRun size live p n) : n ≤ m.numFree := by
  obtain ⟨segs, hI⟩ := h
  rw [freeRun_perm hI.hlive, ← hI.hsize, freeRun_iff _ _ _ hn] at hr
  obtain ⟨pre, post, h1, _⟩ := hr
  rw [hI.hfree, h1]; simp; omega

/-! ### Longest free run -/

theorem longest_free_aux (j : Nat) (a : Scan × Nat × Nat) (ha : a.1 = .skip) :
    (List.replicate j St.freeOrUsed).foldl longestStep a = a := by
  induction j with
  | zero => rfl
  | succ j ih =>
    obtain ⟨s, c, mx⟩ := a
    simp only at ha; subst ha
    rw [List.replicate_succ, List.foldl_cons]
    exact ih

theorem longest_used (k : Nat) (a : Scan × Nat × Nat) :
    (Seg.used k).enc.foldl longestStep a = (.init, a.2.1, a.2.2) := by
  obtain ⟨s, c, mx⟩ := a
  cases k with
  | zero => simp [Seg.enc, longestStep]
  | succ k =>
    rw [enc_used_succ, List.foldl_cons, List.foldl_append]
    have : longestStep (s, c, mx) .start = (.skip, c, mx) := rfl
    rw [this, longest_free_aux _ _ rfl]
    simp [longestStep]

theorem longest_spec (segs : List Seg) (a : Scan × Nat × Nat) (cur : Nat)
    (ha : if cur = 0 then a.1 = .init else (∃ x y, a.1 = .lengthCheck x y) ∧ a.2.1 = cur)
    (hc : cur ≤ a.2.2) (n pos : Nat) (hn : 1 ≤ n) :
    (n ≤ ((encs segs).foldl longestStep a).2.2 ↔
      n ≤ a.2.2 ∨ (cur < n ∧ (ff n segs pos cur).isSome)) := by
  induction segs generalizing a cur pos with
  | nil => simp [ff]
  | cons s r ih =>
    rw [encs_cons, List.foldl_append]
    cases s with
    | used k =>
      rw [longest_used, ih (.init, a.2.1, a.2.2) 0 (by simp) (by simp) (pos + (k+1))]
      simp only [ff]
      constructor
      · rintro (h | ⟨h1, h2⟩)
        · exact .inl h
        · by_cases hcn : cur < n
          · exact .inr ⟨hcn, h2⟩
          · exact .inl (by omega)
      · rintro (h | ⟨h1, h2⟩)
        · exact .inl h
        · exact .inr ⟨by omega, h2⟩
    | free =>
      obtain ⟨s, c, mx⟩ := a
      replace hc : cur ≤ mx := hc
      simp only [Seg.enc, List.foldl_cons, List.foldl_nil]
      have hstep : ∃ x y, longestStep (s, c, mx) .freeOrUsed =
          (.lengthCheck x y, cur + 1, if cur + 1 > mx then cur + 1 else mx) := by
        by_cases h0 : cur = 0
        · subst h0; simp only [if_true] at ha; subst ha
          exact ⟨0, 0, rfl⟩
        · simp only [h0, if_false] at ha
          obtain ⟨⟨x, y, hx⟩, rfl⟩ := ha
          replace hx : s = _ := hx
          subst hx
          exact ⟨x, y, rfl⟩
      obtain ⟨x, y, hxy⟩ := hstep
      rw [hxy, ih _ (cur+1) (by simp) (by simp only; split <;> omega) (pos+1)]
      simp only [ff]
      by_cases h1 : cur + 1 = n
      · simp only [h1, if_true]
        constructor
        · rintro (h | ⟨h, _⟩)
          · right; simp; omega
          · omega
        · rintro (h | h)
          · left; split <;> omega
          · left; split <;> omega
      · simp only [h1, if_false]
        constructor
        · rintro (h | ⟨h, h'⟩)
          · split at h <;> (left; omega)
          · right; exact ⟨by omega, h'⟩
        · rintro (h | ⟨h, h'⟩)
          · left; split <;> omega
          · right; exact ⟨by omega, h'⟩

theorem longest_run {strict w size m live} (h : Inv strict w size m live) (n : Nat) (hn : 1 ≤ n) :
    n ≤ (m.bm.foldl longestStep (.init, 0, 0)).2.2 ↔ ∃ p, freeRun size live p n := by
  obtain ⟨segs, hI⟩ := h
  rw [hI.hbm, longest_spec segs (.init, 0, 0) 0 (by simp) (by simp) n 0 hn]
  constructor
  · rintro (h | ⟨_, h⟩)
    · simp at h; omega
    · obtain ⟨a, ha⟩ := Option.isSome_iff_exists.mp h
      obtain ⟨pre, post, h1, _⟩ := ff_sound hn segs 0 0 a (by omega) (by omega) ha
      refine ⟨lens pre, ?_⟩
      rw [freeRun_perm hI.hlive, ← hI.hsize, freeRun_iff _ _ _ hn]
      exact ⟨pre, post, by simpa using h1, rfl⟩
  · rintro ⟨p, hr⟩
    rw [freeRun_perm hI.hlive, ← hI.hsize, freeRun_iff _ _ _ hn] at hr
    obtain ⟨pre, post, h1, _⟩ := hr
    right
    refine ⟨by omega, ?_⟩
    cases hf : ff n segs 0 0 with
    | some a => rfl
    | none => exact absurd (by simpa using h1) (ff_complete hn segs 0 0 (by omega) hf pre post)

end Verif.Mem
