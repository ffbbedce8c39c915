import Verif.Mem.Lemmas
/-
The representation invariant of the word memory allocator and its preservation.
-/
namespace Verif.Mem

/-- The scan offset is at the start of a layout item that is not preceded by a free word,
or on the last word of a live block; if not `strict` it may also be on a free word in the
middle of a free run. -/
def OffOK (strict : Bool) (segs : List Seg) (off : Nat) : Prop :=
  off < lens segs ∧
  (off = 0 ∨
   (∃ pre k post, segs = pre ++ .used k :: post ∧
      (off = lens pre + k ∨ off = lens pre + k + 1)) ∨
   (strict = false ∧ ∃ pre post, segs = pre ++ post ∧ off = lens pre))

/-- Representation invariant with an explicit layout. -/
structure InvL (strict : Bool) (w size : Nat) (m : Mem) (live : List Block) (segs : List Seg) : Prop where
  hw : m.w = w
  hbm : m.bm = encs segs
  hsize : lens segs = size
  hoff : OffOK strict segs m.off
  hfree : m.numFree = frees segs
  hlive : live.Perm (blocksOf 0 segs)

def Inv (strict : Bool) (w size : Nat) (m : Mem) (live : List Block) : Prop :=
  ∃ segs, InvL strict w size m live segs

theorem frees_le (l) : frees l ≤ lens l := by
  have := frees_add_live l 0; omega

/-! ### Writing statuses at layout positions -/

theorem set_mid {α} (a : List α) (x y : α) (b : List α) :
    (a ++ x :: b).set a.length y = a ++ y :: b := by simp

theorem enc_used_succ (k) : (Seg.used (k+1)).enc = .start :: (List.replicate k .freeOrUsed ++ [.end_]) := rfl

/-- Marking a run of `n` free words as a block. -/
theorem mark_run (pre post : List Seg) (n : Nat) (hn : 1 ≤ n) :
    (if lens pre = lens pre + (n - 1) then
        (encs (pre ++ List.replicate n .free ++ post)).set (lens pre) .startEnd
      else ((encs (pre ++ List.replicate n .free ++ post)).set (lens pre) .start).set
        (lens pre + (n - 1)) .end_)
    = encs (pre ++ .used (n - 1) :: post) := by
  obtain ⟨k, rfl⟩ : ∃ k, n = k + 1 := ⟨n - 1, by omega⟩
  cases k with
  | zero =>
    simp [Seg.enc]
  | succ k =>
    have : ¬ (lens pre = lens pre + (k + 1 + 1 - 1)) := by omega
    simp only [this, if_false, encs_append, encs_replicate, encs_cons, enc_used_succ,
      Nat.add_sub_cancel]
    rw [List.append_assoc, List.set_append_right _ _ (by simp)]
    simp only [encs_length, Nat.sub_self, List.replicate_succ, List.cons_append, List.set_cons_zero]
    rw [List.set_append_right _ _ (by simp)]
    simp only [encs_length, Nat.add_sub_cancel_left, List.set_cons_succ]
    congr 2
    rw [show St.freeOrUsed :: (List.replicate k St.freeOrUsed ++ encs post)
        = List.replicate k St.freeOrUsed ++ St.freeOrUsed :: encs post by
          rw [← List.cons_append, ← List.replicate_succ, List.replicate_succ']; simp]
    rw [List.set_append_right _ _ (by simp)]
    simp

/-! ### Reading statuses at layout positions -/

theorem getElem?_mid {α} (a b : List α) (i : Nat) : (a ++ b)[a.length + i]? = b[i]? := by
  rw [List.getElem?_append_right (by omega)]; simp

theorem status_mid (pre : List Seg) (s : Seg) (post : List Seg) (i : Nat) (h : i < s.len) :
    (encs (pre ++ s :: post))[lens pre + i]? = s.enc[i]? := by
  rw [encs_append, encs_cons, ← encs_length pre, getElem?_mid, List.getElem?_append_left (by simpa using h)]

theorem enc_get (k i : Nat) (h : i ≤ k) : (Seg.used k).enc[i]? =
    if k = 0 then some .startEnd else if i = 0 then some .start
    else if i = k then some .end_ else some .freeOrUsed := by
  cases k with
  | zero => have : i = 0 := by omega
            subst this; rfl
  | succ k =>
    rw [enc_used_succ]
    simp only [Nat.succ_ne_zero, if_false]
    cases i with
    | zero => simp
    | succ i =>
      simp only [List.getElem?_cons_succ, Nat.succ_ne_zero, if_false]
      by_cases hi : i = k
      · subst hi; rw [List.getElem?_append_right (by simp)]; simp
      · rw [List.getElem?_append_left (by simp; omega)]
        have : ¬ i + 1 = k + 1 := by omega
        have hlt : i < k := by omega
        simp [this, List.getElem?_replicate, hlt, hi]

/-- Every position lies in some layout item. -/
theorem locate (segs : List Seg) (i : Nat) (h : i < lens segs) :
    ∃ pre s post j, segs = pre ++ s :: post ∧ i = lens pre + j ∧ j < s.len := by
  induction segs generalizing i with
  | nil => simp at h
  | cons s r ih =>
    by_cases hi : i < s.len
    · exact ⟨[], s, r, i, by simp, by simp, hi⟩
    · simp only [lens_cons] at h
      obtain ⟨pre, t, post, j, h1, h2, h3⟩ := ih (i - s.len) (by omega)
      exact ⟨s :: pre, t, post, j, by simp [h1], by simp; omega, h3⟩

theorem Seg.len_pos (s : Seg) : 0 < s.len := by cases s <;> simp [Seg.len]

/-- Two decompositions of a layout at overlapping positions coincide. -/
theorem locate_unique {p1 p2 q1 q2 : List Seg} {s t : Seg} {i j : Nat}
    (h : p1 ++ s :: q1 = p2 ++ t :: q2) (hij : lens p1 + i = lens p2 + j)
    (hi : i < s.len) (hj : j < t.len) : p1 = p2 ∧ s = t ∧ q1 = q2 ∧ i = j := by
  induction p1 generalizing p2 with
  | nil =>
    cases p2 with
    | nil => simp_all
    | cons y p2 =>
      simp only [List.nil_append, List.cons_append, List.cons.injEq] at h
      obtain ⟨rfl, h⟩ := h
      simp at hij; omega
  | cons x p1 ih =>
    cases p2 with
    | nil =>
      simp only [List.nil_append, List.cons_append, List.cons.injEq] at h
      obtain ⟨rfl, h⟩ := h
      simp at hij; omega
    | cons y p2 =>
      simp only [List.cons_append, List.cons.injEq] at h
      simp only [lens_cons] at hij
      obtain ⟨rfl, h⟩ := h
      have := ih h (by omega)
      simp [this]

/-! ### Relation between live blocks and the layout -/

theorem blocks_cover (segs : List Seg) (i : Nat) :
    (∃ b ∈ blocksOf 0 segs, Block.covers b i) ↔
    ∃ pre k post j, segs = pre ++ .used k :: post ∧ i = lens pre + j ∧ j ≤ k := by
  constructor
  · rintro ⟨b, hb, h⟩
    obtain ⟨pre, k, post, rfl, rfl⟩ := mem_blocksOf hb
    simp [Block.covers] at h
    exact ⟨pre, k, post, i - lens pre, rfl, by omega, by omega⟩
  · rintro ⟨pre, k, post, j, rfl, rfl, hj⟩
    refine ⟨(lens pre, k + 1), ?_, ?_⟩
    · simp [blocksOf_append, blocksOf]
    · simp [Block.covers]; omega

theorem isFree_iff (segs : List Seg) (i : Nat) :
    isFree (lens segs) (blocksOf 0 segs) i ↔
    ∃ pre post, segs = pre ++ .free :: post ∧ i = lens pre := by
  constructor
  · rintro ⟨h1, h2⟩
    obtain ⟨pre, s, post, j, h3, h4, h5⟩ := locate segs i h1
    cases s with
    | free => exact ⟨pre, post, h3, by simp [Seg.len] at h5; omega⟩
    | used k =>
      exfalso
      obtain ⟨b, hb, hc⟩ := (blocks_cover segs i).mpr ⟨pre, k, post, j, h3, h4, by simp [Seg.len] at h5; omega⟩
      exact h2 b hb hc
  · rintro ⟨pre, post, h1, h2⟩
    refine ⟨by rw [h1, h2]; simp [Seg.len]; omega, ?_⟩
    intro b hb hc
    obtain ⟨p2, k, q2, j, h3, h4, h5⟩ := (blocks_cover segs i).mp ⟨b, hb, hc⟩
    have := locate_unique (h1.symm.trans h3) (i := 0) (j := j) (by omega)
      (by simp [Seg.len]) (by simp [Seg.len]; omega)
    simp at this

theorem freeRun_iff (segs : List Seg) (p n : Nat) (hn : 1 ≤ n) :
    freeRun (lens segs) (blocksOf 0 segs) p n ↔
    ∃ pre post, segs = pre ++ List.replicate n .free ++ post ∧ p = lens pre := by
  constructor
  · intro h
    induction n with
    | zero => omega
    | succ n ih =>
      by_cases hn0 : n = 0
      · subst hn0
        have := (isFree_iff segs (p + 0)).mp (h 0 (by omega))
        simpa using this
      · obtain ⟨pre, post, h1, h2⟩ := ih (by omega) (fun i hi => h i (by omega))
        obtain ⟨pre2, post2, h3, h4⟩ := (isFree_iff segs (p + n)).mp (h n (by omega))
        cases post with
        | nil =>
          exfalso
          have e1 := congrArg lens h1
          have e2 := congrArg lens h3
          simp [Seg.len] at e1 e2; omega
        | cons s post =>
          have := locate_unique (h1.symm.trans h3) (i := 0) (j := 0) (by simp; omega)
            (Seg.len_pos _) (Seg.len_pos _)
          obtain ⟨_, rfl, _, _⟩ := this
          exact ⟨pre, post, by rw [h1, List.replicate_succ']; simp, h2⟩
  · rintro ⟨pre, post, h1, h2⟩ i hi
    refine (isFree_iff segs (p + i)).mpr ⟨pre ++ List.replicate i .free, List.replicate (n - i - 1) .free ++ post, ?_, ?_⟩
    · rw [h1]; simp only [List.append_assoc, List.append_cancel_left_eq]
      obtain ⟨d, rfl⟩ : ∃ d, n = i + (d + 1) := ⟨n - i - 1, by omega⟩
      rw [← List.replicate_append_replicate, List.replicate_succ]
      simp [show i + (d + 1) - i - 1 = d by omega]
    · simp [h2]

theorem isFree_perm {size i} {l1 l2 : List Block} (h : l1.Perm l2) :
    isFree size l1 i ↔ isFree size l2 i := by
  simp [isFree, h.mem_iff]

theorem freeRun_perm {size p n} {l1 l2 : List Block} (h : l1.Perm l2) :
    freeRun size l1 p n ↔ freeRun size l2 p n := by
  simp [freeRun, isFree_perm h]

end Verif.Mem
