import Verif.Mem.Inv
/-
Every allocator operation used validly preserves the representation invariant.
-/
namespace Verif.Mem

/-! ### Allocation -/

theorem lin_nil_done {n l pos} (h : ∀ p x s, ¬ s.isDone → ¬ (scanStep n p x s).isDone)
    {s : Scan} (hs : ¬ s.isDone) : ¬ (lin n l pos s).isDone := by
  induction l generalizing pos s with
  | nil => simpa [lin]
  | cons x l ih =>
    have := h pos x s hs
    simp only [lin]
    cases hst : scanStep n pos x s with
    | done a b => simp [hst, Scan.isDone] at this
    | init => exact ih (by simp [Scan.isDone])
    | skip => exact ih (by simp [Scan.isDone])
    | lengthCheck a b => exact ih (by simp [Scan.isDone])

theorem scan_zero {bm : List St} {off} (h : off < bm.length) :
    ∃ s, ¬ s.isDone ∧ scanLoop 0 bm bm.length off .init = some (off, s) := by
  have hz : ∀ p x s, ¬ Scan.isDone s → ¬ (scanStep 0 p x s).isDone := by
    intro p x s hs
    cases x <;> cases s <;> simp_all [scanStep, Scan.isDone]
  rw [scanLoop_eq _ _ _ h]
  have h1 := lin_nil_done (n := 0) (l := bm.drop off) (pos := off) hz (s := .init) (by simp [Scan.isDone])
  have h2 := lin_nil_done (n := 0) (l := bm.take off) (pos := 0) hz (s := .init) (by simp [Scan.isDone])
  cases e1 : lin 0 (bm.drop off) off .init <;> cases e2 : lin 0 (bm.take off) 0 .init <;>
    simp_all [Scan.isDone]

theorem lin_tail (n k j pos) (s : Scan) (hs : ¬ s.isDone) :
    ¬ (lin n ((Seg.used k).enc.take j) pos s).isDone := by
  cases j with
  | zero => simpa [lin]
  | succ j =>
    cases k with
    | zero => simp [Seg.enc, lin, scanStep, Scan.isDone]
    | succ k =>
      simp only [enc_used_succ, List.take_succ_cons, lin, scanStep, List.take_append,
        List.take_replicate]
      rw [lin_skip]
      cases hj : j - (List.replicate k St.freeOrUsed).length with
      | zero => simp [lin, Scan.isDone]
      | succ x => simp [lin, scanStep, Scan.isDone]

theorem lin_drop (n k j pos) (xs) (hj : j = k ∨ j = k + 1) :
    lin n ((Seg.used k).enc.drop j ++ xs) pos .init = lin n xs (pos + (k + 1 - j)) .init := by
  rcases hj with rfl | rfl
  · cases j with
    | zero => simp [Seg.enc, lin, scanStep]
    | succ k =>
      have : (Seg.used (k+1)).enc.drop (k+1) = [.end_] := by
        simp [enc_used_succ]
      rw [this]
      simp [lin, scanStep]
  · have : (Seg.used k).enc.drop (k+1) = [] := by
      rw [List.drop_eq_nil_iff]; simp [Seg.len]
    simp [this]

theorem ff_append_used (n k) (a b : List Seg) (pos cur : Nat) :
    ff n (a ++ .used k :: b) pos cur =
      (ff n a pos cur).or (ff n b (pos + lens a + (k + 1)) 0) := by
  induction a generalizing pos cur with
  | nil => simp [ff]
  | cons s a ih =>
    cases s with
    | free =>
      simp only [List.cons_append, ff, lens_cons, Seg.len]
      split
      · simp
      · rw [ih]; congr 2; omega
    | used j =>
      simp only [List.cons_append, ff, lens_cons, Seg.len]
      rw [ih]; congr 2; omega

/-- The scan finds a run of `n` free words, or there is none. -/
theorem scan_result {strict : Bool} {segs : List Seg} {off n : Nat} (hoff : OffOK strict segs off) (hn : 1 ≤ n) :
    (∃ pre post, segs = pre ++ List.replicate n .free ++ post ∧
      scanLoop n (encs segs) (encs segs).length off .init =
        some (lens pre + (n - 1), .done (lens pre) (lens pre + (n - 1)))) ∨
    (∃ s, ¬ s.isDone ∧ scanLoop n (encs segs) (encs segs).length off .init = some (off, s) ∧
      (strict = true → ∀ pre post, segs ≠ pre ++ List.replicate n .free ++ post)) := by
  obtain ⟨hlt, h⟩ := hoff
  rw [scanLoop_eq _ _ _ (by simpa using hlt)]
  rcases h with rfl | ⟨pre, k, post, rfl, hjj⟩ | ⟨hstr, pre, post, rfl, rfl⟩
  · have hl := lin_encs hn segs [] 0 0 (by omega) (by omega)
    simp only [List.append_nil, stOf, if_true] at hl
    simp only [List.drop_zero, List.take_zero, lin]
    rcases hl with ⟨a, h1, h2⟩ | ⟨h1, s, hs, h2⟩
    · left
      obtain ⟨pre, post, h3, h4⟩ := ff_sound hn segs 0 0 a (by omega) (by omega) h1
      simp at h3 h4
      subst h4
      exact ⟨pre, post, by simpa using h3, by rw [h2]⟩
    · right
      simp only [lin] at h2
      refine ⟨.init, by simp [Scan.isDone], ?_, ?_⟩
      · rw [h2]; cases s <;> simp_all [Scan.isDone]
      · intro _ p q
        simpa using ff_complete hn segs 0 0 (by omega) h1 p q
  · obtain ⟨j, hj, rfl⟩ : ∃ j, (j = k ∨ j = k + 1) ∧ off = lens pre + j := by
      rcases hjj with rfl | rfl
      · exact ⟨k, .inl rfl, rfl⟩
      · exact ⟨k+1, .inr rfl, by omega⟩
    have hjk : j ≤ k + 1 := by omega
    have hdrop : (encs (pre ++ .used k :: post)).drop (lens pre + j)
        = (Seg.used k).enc.drop j ++ encs post := by
      rw [encs_append, encs_cons, List.drop_append, List.drop_eq_nil_of_le (by simp)]
      simp only [encs_length, Nat.add_sub_cancel_left, List.nil_append]
      rw [List.drop_append_of_le_length (by simpa [Seg.len] using hjk)]
    have htake : (encs (pre ++ .used k :: post)).take (lens pre + j)
        = encs pre ++ (Seg.used k).enc.take j := by
      rw [encs_append, encs_cons, ← encs_length pre, List.take_length_add_append]
      rw [List.take_append_of_le_length (by simpa [Seg.len] using hjk)]
    rw [hdrop, htake, lin_drop _ _ _ _ _ hj, show lens pre + j + (k + 1 - j) = lens pre + (k + 1) by omega]
    have hl := lin_encs hn post [] (lens pre + (k+1)) 0 (by omega) (by omega)
    simp only [List.append_nil, stOf, if_true] at hl
    have hl2 := lin_encs hn pre ((Seg.used k).enc.take j) 0 0 (by omega) (by omega)
    simp only [stOf, if_true] at hl2
    rcases hl with ⟨a, h1, h2⟩ | ⟨h1, s, hs, h2⟩
    · left
      obtain ⟨p, q, h3, h4⟩ := ff_sound hn post _ 0 a (by omega) (by omega) h1
      refine ⟨pre ++ .used k :: p, q, by simp at h3; simp [h3], ?_⟩
      rw [h2]
      have : a = lens (pre ++ .used k :: p) := by simp [Seg.len]; omega
      rw [this]
    · have hnd : lin n (encs post) (lens pre + (k+1)) .init = s := by simpa [lin] using h2
      rcases hl2 with ⟨a, h3, h4⟩ | ⟨h3, s2, hs2, h4⟩
      · left
        obtain ⟨p, q, h5, h6⟩ := ff_sound hn pre 0 0 a (by omega) (by omega) h3
        simp at h5 h6
        subst h6
        refine ⟨p, q ++ .used k :: post, by simp [h5], ?_⟩
        rw [hnd, h4]
        cases s with
        | done a b => exact absurd trivial hs
        | _ => rfl
      · right
        have := lin_tail n k j (0 + lens pre) s2 hs2
        rw [h4, hnd]
        refine ⟨_, this, ?_, ?_⟩
        · generalize lin n ((Seg.used k).enc.take j) (0 + lens pre) s2 = s3 at this
          cases s with
          | done a b => exact absurd trivial hs
          | _ =>
            cases s3 with
            | done a b => exact absurd trivial this
            | _ => rfl
        · intro _ p q
          have hall : ff n (pre ++ .used k :: post) 0 0 = none := by
            rw [ff_append_used, h3]; simpa using h1
          simpa using ff_complete hn _ 0 0 (by omega) hall p q
  · have hdrop : (encs (pre ++ post)).drop (lens pre) = encs post := by
      rw [encs_append, ← encs_length pre]; simp
    have htake : (encs (pre ++ post)).take (lens pre) = encs pre := by
      rw [encs_append, ← encs_length pre]; simp
    rw [hdrop, htake]
    have hl := lin_encs hn post [] (lens pre) 0 (by omega) (by omega)
    simp only [List.append_nil, stOf, if_true] at hl
    have hl2 := lin_encs hn pre [] 0 0 (by omega) (by omega)
    simp only [List.append_nil, stOf, if_true] at hl2
    rcases hl with ⟨a, h1, h2⟩ | ⟨h1, s, hs, h2⟩
    · left
      obtain ⟨p, q, h3, h4⟩ := ff_sound hn post _ 0 a (by omega) (by omega) h1
      refine ⟨pre ++ p, q, by simp at h3; simp [h3], ?_⟩
      rw [h2]
      have : a = lens (pre ++ p) := by simp; omega
      rw [this]
    · have hnd : lin n (encs post) (lens pre) .init = s := by simpa [lin] using h2
      rcases hl2 with ⟨a, h3, h4⟩ | ⟨h3, s2, hs2, h4⟩
      · left
        obtain ⟨p, q, h5, h6⟩ := ff_sound hn pre 0 0 a (by omega) (by omega) h3
        simp at h5 h6
        subst h6
        refine ⟨p, q ++ post, by simp [h5], ?_⟩
        rw [hnd, h4]
        cases s with
        | done a b => exact absurd trivial hs
        | _ => rfl
      · right
        simp only [lin] at h4
        rw [hnd, h4]
        refine ⟨s2, hs2, ?_, by simp [hstr]⟩
        cases s with
        | done a b => exact absurd trivial hs
        | _ =>
          cases s2 with
          | done a b => exact absurd trivial hs2
          | _ => rfl

theorem wsub_le {w a b : Nat} (h : b ≤ a) (ha : a < 2 ^ w) : wsub w a b = a - b := by
  unfold wsub
  rw [show a + 2 ^ w - b = (a - b) + 2 ^ w by omega, Nat.add_mod_right, Nat.mod_eq_of_lt (by omega)]

theorem wadd_lt {w a b : Nat} (h : a + b < 2 ^ w) : wadd w a b = a + b := Nat.mod_eq_of_lt h

/-- `allocateInternal` on a state satisfying the invariant. -/
theorem allocateInternal_inv {strict w size m live} (hw : size < 2 ^ w) (h : Inv strict w size m live) (n : Nat) :
    (∃ m' p, allocateInternal m n = some (m', some p) ∧ 1 ≤ n ∧ Inv strict w size m' ((p, n) :: live) ∧
        freeRun size live p n ∧ m'.reserve = m.reserve ∧ m'.minFree = m.minFree ∧
        m'.numFree = m.numFree - n ∧ m'.gcReq = m.gcReq) ∨
    (allocateInternal m n = some (m, none) ∧ (strict = true → 1 ≤ n → ∀ p, ¬ freeRun size live p n)) := by
  obtain ⟨segs, hI⟩ := h
  have hbm := hI.hbm
  by_cases hn : 1 ≤ n
  · rcases scan_result hI.hoff hn with ⟨pre, post, h1, h2⟩ | ⟨s, hs, h2, h3⟩
    · left
      have hfr : frees segs = frees pre + n + frees post := by rw [h1]; simp; omega
      have hle : frees segs ≤ size := by have := frees_le segs; rw [hI.hsize] at this; exact this
      have hwsub : wsub m.w m.numFree n = m.numFree - n := by
        rw [hI.hw]; exact wsub_le (by rw [hI.hfree]; omega) (by rw [hI.hfree]; omega)
      have hmark := mark_run pre post n hn
      rw [← h1] at hmark
      refine ⟨{ m with bm := encs (pre ++ .used (n-1) :: post), off := lens pre + (n-1),
                       numFree := m.numFree - n }, lens pre, ?_, hn,
        ⟨pre ++ .used (n-1) :: post, ?_⟩, ?_, rfl, rfl, rfl, rfl⟩
      · rw [← hbm] at h2
        simp only [allocateInternal, h2]
        rw [← hmark]
        by_cases hc : lens pre = lens pre + (n - 1)
        · simp only [if_pos hc, setStatus, hwsub, hbm]
        · simp only [if_neg hc, setStatus, hwsub, hbm]
      · refine ⟨hI.hw, rfl, ?_, ?_, ?_, ?_⟩
        · rw [← hI.hsize, h1]; simp [Seg.len]; omega
        · exact ⟨by simp [Seg.len]; omega, .inr (.inl ⟨pre, n - 1, post, rfl, .inl rfl⟩)⟩
        · show m.numFree - n = _
          simp only [hI.hfree, hfr, frees_append, frees]
          omega
        · refine (List.Perm.cons _ hI.hlive).trans ?_
          rw [h1]
          simp only [blocksOf_append, blocksOf_replicate, blocksOf, List.append_nil, Nat.zero_add,
            lens_append, lens_replicate]
          rw [show n - 1 + 1 = n by omega, show lens pre + (n - 1) + 1 = lens pre + n by omega]
          exact (List.perm_middle).symm
      · rw [freeRun_perm hI.hlive, ← hI.hsize, freeRun_iff _ _ _ hn]
        exact ⟨pre, post, h1, rfl⟩
    · right
      refine ⟨?_, ?_⟩
      · rw [← hbm] at h2
        cases s with
        | done a b => exact absurd trivial hs
        | _ => simp only [allocateInternal, h2]
      · intro hst _ p hr
        rw [freeRun_perm hI.hlive, ← hI.hsize, freeRun_iff _ _ _ hn] at hr
        obtain ⟨pre, post, h4, _⟩ := hr
        exact h3 hst pre post h4
  · have : n = 0 := by omega
    subst this
    right
    obtain ⟨s, hs, h2⟩ := scan_zero (bm := encs segs) (off := m.off) (by simpa using hI.hoff.1)
    refine ⟨?_, fun _ h => by omega⟩
    rw [← hbm] at h2
    cases s with
    | done a b => exact absurd trivial hs
    | _ => simp only [allocateInternal, h2]

/-! ### Free -/

theorem clearToEnd_eq (A : List St) (j fuel : Nat) (B : List St) (hf : j < fuel) :
    clearToEnd (A ++ (List.replicate j .freeOrUsed ++ .end_ :: B)) A.length fuel =
      (A ++ (List.replicate (j + 1) .freeOrUsed ++ B), j + 1, true) := by
  induction j generalizing A fuel with
  | zero =>
    obtain ⟨f, rfl⟩ : ∃ f, fuel = f + 1 := ⟨fuel - 1, by omega⟩
    simp [clearToEnd]
  | succ j ih =>
    obtain ⟨f, rfl⟩ : ∃ f, fuel = f + 1 := ⟨fuel - 1, by omega⟩
    have h1 : (A ++ (List.replicate (j+1) .freeOrUsed ++ .end_ :: B))[A.length]? = some St.freeOrUsed := by
      simp [List.replicate_succ]
    have h2 := ih (A ++ [.freeOrUsed]) f (by omega)
    simp only [List.append_assoc, List.length_append, List.length_cons, List.length_nil,
      List.cons_append, List.nil_append, Nat.zero_add] at h2
    simp only [clearToEnd, h1]
    rw [show List.replicate (j+1) St.freeOrUsed ++ St.end_ :: B
      = .freeOrUsed :: (List.replicate j St.freeOrUsed ++ St.end_ :: B) by simp [List.replicate_succ]]
    rw [h2]
    simp [List.replicate_succ]

theorem walkBack_ok (pre : List Seg) (rest : List St) :
    (walkBack (encs pre ++ rest) (lens pre) = 0) ∨
    (∃ p k j, pre = p ++ .used k :: List.replicate j .free ∧
      walkBack (encs pre ++ rest) (lens pre) = lens p + k + 1) := by
  generalize hn : pre.length = n
  induction n generalizing pre rest with
  | zero => left; simp at hn; subst hn; simp [walkBack]
  | succ n ih =>
    rcases List.eq_nil_or_concat pre with rfl | ⟨p, s, rfl⟩
    · simp at hn
    · rw [List.concat_eq_append] at *
      cases s with
      | free =>
        have := ih p (.freeOrUsed :: rest) (by simpa using hn)
        simp only [encs_append, encs_cons, Seg.enc, encs_nil, List.append_nil, lens_append,
          lens_cons, lens_nil, Seg.len, List.append_assoc, List.cons_append, List.nil_append,
          Nat.add_zero, walkBack]
        have hget : (encs p ++ .freeOrUsed :: rest)[lens p]? = some St.freeOrUsed := by
          rw [← encs_length]; simp
        simp only [hget, if_true]
        rcases this with h | ⟨p', k, j, rfl, h⟩
        · left; exact h
        · right; exact ⟨p', k, j+1, by simp [List.replicate_succ'], h⟩
      | used k =>
        right
        refine ⟨p, k, 0, by simp, ?_⟩
        simp only [lens_append, lens_cons, lens_nil, Seg.len, Nat.add_zero]
        rw [show lens p + (k+1) = (lens p + k) + 1 by omega]
        simp only [walkBack]
        have : (encs (p ++ [.used k]) ++ rest)[lens p + k]? = (Seg.used k).enc[k]? := by
          rw [List.getElem?_append_left (by simp [Seg.len]), status_mid p _ [] k (by simp [Seg.len])]
        rw [this, enc_get k k (by omega)]
        split
        · simp
        · simp

theorem live_split {strict w size m live segs p k} (h : InvL strict w size m live segs) (hb : (p, k) ∈ live) :
    ∃ pre j post, segs = pre ++ .used j :: post ∧ p = lens pre ∧ k = j + 1 := by
  have := h.hlive.mem_iff.mp hb
  obtain ⟨pre, j, post, h1, h2⟩ := mem_blocksOf this
  simp at h2
  exact ⟨pre, j, post, h1, h2.1, h2.2⟩

theorem erase_live {strict w size m live segs pre j post} (h : InvL strict w size m live segs)
    (hs : segs = pre ++ .used j :: post) :
    (live.erase (lens pre, j+1)).Perm (blocksOf 0 pre ++ blocksOf (lens pre + (j+1)) post) := by
  have h1 := h.hlive
  rw [hs, blocksOf_append, blocksOf] at h1
  have h2 := h1.erase (lens pre, j+1)
  refine h2.trans ?_
  have h3 := List.perm_middle (a := ((0 + lens pre, j+1) : Block)) (l₁ := blocksOf 0 pre)
    (l₂ := blocksOf (0 + lens pre + j + 1) post)
  have h4 := h3.erase (lens pre, j+1)
  refine h4.trans ?_
  simp [Nat.add_assoc]

/-- Status word of the start of a live block. -/
theorem status_block (pre : List Seg) (j : Nat) (post : List Seg) :
    (encs (pre ++ .used j :: post))[lens pre]? = if j = 0 then some .startEnd else some .start := by
  have := status_mid pre (.used j) post 0 (by simp [Seg.len])
  rw [Nat.add_zero] at this
  rw [this, enc_get j 0 (by omega)]; simp

theorem free_result {strict w size m live} (hw : size < 2 ^ w) (h : Inv strict w size m live) {p k : Nat}
    (hb : (p, k) ∈ live) :
    (free m p).2 = true ∧ Inv strict w size (free m p).1 (live.erase (p, k)) ∧
    (free m p).1.numFree = m.numFree + k ∧ (free m p).1.reserve = m.reserve ∧
    (free m p).1.minFree = m.minFree := by
  obtain ⟨segs, hI⟩ := h
  obtain ⟨pre, j, post, hs, hp, hk⟩ := live_split hI hb
  subst hp hk
  have hsz : lens pre + (j + 1) + lens post = size := by rw [← hI.hsize, hs]; simp [Seg.len]; omega
  have hin : ptrInside m (lens pre) = true := by
    simp [ptrInside, hI.hbm, hI.hsize]; omega
  have hfr : frees segs = frees pre + frees post := by rw [hs]; simp [frees]
  have hlp := frees_le pre
  have hlq := frees_le post
  have hst : m.bm[lens pre]? = if j = 0 then some .startEnd else some .start := by
    rw [hI.hbm, hs]; exact status_block pre j post
  have hlive : (live.erase (lens pre, j+1)).Perm
      (blocksOf 0 (pre ++ List.replicate (j+1) .free ++ post)) := by
    refine (erase_live hI hs).trans ?_
    simp [blocksOf_append, blocksOf_replicate]
  have hadd : wadd m.w m.numFree (j+1) = m.numFree + (j + 1) := by
    rw [hI.hw]; exact wadd_lt (by rw [hI.hfree]; omega)
  have hoff : OffOK strict (pre ++ List.replicate (j+1) .free ++ post)
      (walkBack (encs (pre ++ List.replicate (j+1) .free ++ post)) (lens pre)) := by
    rw [List.append_assoc, encs_append]
    rcases walkBack_ok pre (encs (List.replicate (j+1) .free ++ post)) with h | ⟨p', k', j', h1, h2⟩
    · rw [h]; exact ⟨by simp; omega, .inl rfl⟩
    · rw [h2]
      refine ⟨?_, .inr (.inl ⟨p', k', List.replicate j' .free ++ (List.replicate (j+1) .free ++ post), ?_, .inr rfl⟩)⟩
      · rw [h1]; simp [Seg.len]; omega
      · rw [h1]; simp
  -- resulting bitmap
  by_cases hj : j = 0
  · subst hj
    have hbm' : m.bm.set (lens pre) .freeOrUsed = encs (pre ++ List.replicate 1 .free ++ post) := by
      rw [hI.hbm, hs]
      simp [Seg.enc]
    have e : free m (lens pre) = ({ m with
        bm := m.bm.set (lens pre) .freeOrUsed,
        off := walkBack (m.bm.set (lens pre) .freeOrUsed) (lens pre),
        numFree := wadd m.w m.numFree 1 }, true) := by
      simp [free, hin, hst]
    rw [e, hbm']
    refine ⟨rfl, ⟨_, ⟨hI.hw, rfl, ?_, hoff, ?_, hlive⟩⟩, hadd, rfl, rfl⟩
    · simp only [lens_append, lens_replicate]; omega
    · show wadd m.w m.numFree 1 = _
      rw [hadd, hI.hfree, hfr]; simp only [frees_append, frees_replicate]; omega
  · obtain ⟨i, rfl⟩ : ∃ i, j = i + 1 := ⟨j - 1, by omega⟩
    have hset : m.bm.set (lens pre) .freeOrUsed =
        encs pre ++ (List.replicate (i+1) .freeOrUsed ++ .end_ :: encs post) := by
      rw [hI.hbm, hs]
      simp [enc_used_succ, List.replicate_succ]
    have hclr : clearToEnd (m.bm.set (lens pre) .freeOrUsed) (lens pre)
        ((m.bm.set (lens pre) .freeOrUsed).length - lens pre)
        = (encs (pre ++ List.replicate (i+2) .free ++ post), i + 2, true) := by
      rw [hset]
      have := clearToEnd_eq (encs pre) (i+1)
        ((encs pre ++ (List.replicate (i+1) St.freeOrUsed ++ St.end_ :: encs post)).length - lens pre)
        (encs post) (by simp)
      rw [encs_length] at this
      rw [this]; simp [encs_replicate]
    have e : free m (lens pre) = ({ m with
        bm := encs (pre ++ List.replicate (i+2) .free ++ post),
        off := walkBack (encs (pre ++ List.replicate (i+2) .free ++ post)) (lens pre),
        numFree := wadd m.w m.numFree (i+2) }, true) := by
      simp only [free, hin, hst, if_true, Nat.succ_ne_zero, if_false]
      rw [hclr]; simp
    rw [e]
    refine ⟨rfl, ⟨_, ⟨hI.hw, rfl, ?_, hoff, ?_, hlive⟩⟩, hadd, rfl, rfl⟩
    · simp; omega
    · show wadd m.w m.numFree (i+2) = _
      rw [show i + 2 = i + 1 + 1 by omega, hadd, hI.hfree, hfr]; simp; omega

/-! ### Shrink -/

theorem shrinkScan_fail (pre : List Seg) (j : Nat) (post : List Seg) (n i fuel : Nat) (hn : j < n)
    (hi : i ≤ j) (hj : 0 < j) (hf : j < i + fuel) :
    shrinkScan n (lens pre) (encs (pre ++ .used j :: post)) i fuel = none := by
  induction fuel generalizing i with
  | zero => omega
  | succ fuel ih =>
    simp only [shrinkScan]
    rw [status_mid pre _ post i (by simp [Seg.len]; omega), enc_get j i hi]
    by_cases hij : i = j
    · subst hij
      have h0 : ¬ i = 0 := by omega
      simp [h0, hn]
    · have hj0 : ¬ j = 0 := by omega
      have hin : ¬ i + 1 = n := by omega
      have hne : ¬ ((if i = 0 then some St.start else some St.freeOrUsed) = some St.end_ ∧ i < n) := by
        split <;> simp
      simp only [hj0, hij, if_false, hin, hne]
      exact ih (i+1) (by omega) (by omega)

theorem shrinkScan_ok (pre : List Seg) (j : Nat) (post : List Seg) (n i fuel : Nat) (hn1 : 1 ≤ n)
    (hn : n ≤ j) (hi : i < n) (hf : n ≤ i + fuel) :
    shrinkScan n (lens pre) (encs (pre ++ .used j :: post)) i fuel =
      some ((encs (pre ++ .used j :: post)).set (lens pre + (n-1))
        (if n = 1 then .startEnd else .end_), n - 1, false) := by
  induction fuel generalizing i with
  | zero => omega
  | succ fuel ih =>
    have hj0 : ¬ j = 0 := by omega
    have hij : ¬ i = j := by omega
    have hg : (encs (pre ++ .used j :: post))[lens pre + i]? = if i = 0 then some .start else some .freeOrUsed := by
      rw [status_mid pre _ post i (by simp [Seg.len]; omega), enc_get j i (by omega)]
      simp [hj0, hij]
    have hne : (encs (pre ++ .used j :: post))[lens pre + i]? ≠ some .end_ := by
      rw [hg]; split <;> simp
    have hne2 : (encs (pre ++ .used j :: post))[lens pre + i]? ≠ some .startEnd := by
      rw [hg]; split <;> simp
    simp only [shrinkScan, hne, hne2, false_and, if_false, or_self]
    by_cases hin : i + 1 = n
    · subst hin
      simp only [if_true, Nat.add_sub_cancel]
      congr 2
      · by_cases h0 : i = 0 <;> simp [h0]
    · simp only [hin, if_false]
      exact ih (i+1) (by omega) (by omega)

theorem shrink_result {strict w size m live} (hw : size < 2 ^ w) (h : Inv strict w size m live) {p k : Nat} (n : Nat)
    (hb : (p, k) ∈ live) :
    (shrink m p n = (m, false) ∧ (n = 0 ∨ (k ≤ n ∧ 2 ≤ k))) ∨
    (shrink m p n = (m, true) ∧ 1 ≤ n ∧ k = 1) ∨
    (∃ m', shrink m p n = (m', true) ∧ 1 ≤ n ∧ n < k ∧ Inv strict w size m' ((p, n) :: live.erase (p, k)) ∧
      m'.numFree = m.numFree + (k - n) ∧ m'.reserve = m.reserve ∧ m'.minFree = m.minFree) := by
  obtain ⟨segs, hI⟩ := h
  obtain ⟨pre, j, post, hs, hp, hk⟩ := live_split hI hb
  subst hp hk
  have hsz : lens pre + (j + 1) + lens post = size := by rw [← hI.hsize, hs]; simp [Seg.len]; omega
  have hin : ptrInside m (lens pre) = true := by
    simp [ptrInside, hI.hbm, hI.hsize]; omega
  have hst : m.bm[lens pre]? = if j = 0 then some .startEnd else some .start := by
    rw [hI.hbm, hs]; exact status_block pre j post
  have hlen : m.bm.length = size := by rw [hI.hbm, encs_length, hI.hsize]
  by_cases hn0 : n = 0
  · left; subst hn0; simp [shrink]
  by_cases hj : j = 0
  · right; left; subst hj
    exact ⟨by simp [shrink, hin, hst, hn0], by omega, rfl⟩
  by_cases hnk : j + 1 ≤ n
  · left
    have := shrinkScan_fail pre j post n 0 (m.bm.length - lens pre) (by omega) (by omega) (by omega) (by omega)
    rw [← hs, ← hI.hbm] at this
    exact ⟨by simp [shrink, hin, hst, hn0, hj, this], by omega⟩
  · right; right
    have h1 := shrinkScan_ok pre j post n 0 (m.bm.length - lens pre) (by omega) (by omega) (by omega) (by omega)
    -- the bitmap after writing the new end
    obtain ⟨d, hd⟩ : ∃ d, j = n + d := ⟨j - n, by omega⟩
    have hbm1 : (encs (pre ++ .used j :: post)).set (lens pre + (n-1)) (if n = 1 then .startEnd else .end_)
        = encs (pre ++ [.used (n-1)]) ++ (List.replicate d .freeOrUsed ++ .end_ :: encs post) := by
      rw [encs_append, encs_cons, List.set_append_right _ _ (by simp)]
      simp only [encs_length, Nat.add_sub_cancel_left, encs_append, encs_cons, encs_nil,
        List.append_nil, List.append_assoc]
      congr 1
      subst hd
      obtain ⟨c, rfl⟩ : ∃ c, n = c + 1 := ⟨n - 1, by omega⟩
      rw [show c + 1 + d = (c + d) + 1 by omega, enc_used_succ]
      cases c with
      | zero => simp [Seg.enc]
      | succ c =>
        simp only [Nat.add_sub_cancel, enc_used_succ, Nat.succ_ne_zero, if_false,
          List.cons_append, List.set_cons_succ]
        congr 1
        rw [show c + 1 + d = c + (d + 1) by omega, ← List.replicate_append_replicate,
          List.replicate_succ]
        simp only [List.append_assoc, List.cons_append]
        rw [List.set_append_right _ _ (by simp)]
        simp
    have hlen1 : (encs (pre ++ [.used (n-1)])).length = lens pre + n := by simp [Seg.len]; omega
    have hclr := clearToEnd_eq (encs (pre ++ [.used (n-1)])) d (size - lens pre - n) (encs post) (by omega)
    rw [hlen1] at hclr
    have hadd : wadd m.w m.numFree (d+1) = m.numFree + (d + 1) := by
      rw [hI.hw]
      have hfr : frees segs = frees pre + frees post := by rw [hs]; simp [frees]
      have hlp := frees_le pre
      have hlq := frees_le post
      exact wadd_lt (by rw [hI.hfree]; omega)
    refine ⟨{ m with bm := encs (pre ++ .used (n-1) :: (List.replicate (d+1) .free ++ post)),
                     off := lens pre + (n-1), numFree := wadd m.w m.numFree (d+1) },
      ?_, by omega, by omega, ⟨pre ++ .used (n-1) :: (List.replicate (d+1) .free ++ post), ?_⟩, ?_, rfl, rfl⟩
    · have hl2 : (encs (pre ++ [Seg.used (n-1)]) ++ (List.replicate d St.freeOrUsed ++ St.end_ :: encs post)).length = size := by
        simp [Seg.len]; omega
      simp only [shrink, hin, hst, hn0, hj, if_false]
      rw [hI.hbm, hs] at *
      simp only [h1, hbm1, hl2]
      rw [show n - 1 + 1 = n by omega, hclr]
      simp [encs_replicate, hn0]
    · refine ⟨hI.hw, rfl, ?_, ?_, ?_, ?_⟩
      · simp [Seg.len]; omega
      · exact ⟨by simp [Seg.len]; omega, .inr (.inl ⟨pre, n-1, _, rfl, .inl rfl⟩)⟩
      · show wadd m.w m.numFree (d+1) = _
        rw [hadd, hI.hfree, hs]; simp [frees]; omega
      · refine (List.Perm.cons _ (erase_live hI hs)).trans ?_
        simp only [blocksOf_append, blocksOf, blocksOf_replicate, List.nil_append, Nat.zero_add,
          lens_replicate]
        rw [show n - 1 + 1 = n by omega,
          show lens pre + (n - 1) + 1 + (d + 1) = lens pre + (j + 1) by omega]
        exact (List.perm_middle).symm
    · show wadd m.w m.numFree (d+1) = _
      rw [hadd]; omega

end Verif.Mem
