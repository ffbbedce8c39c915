import Verif.Mem.Spec
/-
Helper lemmas for the word memory allocator: layouts, the scan, the invariant.
-/
namespace Verif.Mem

/-- A piece of the arena: a free word, or a live block of `k + 1` words. -/
inductive Seg where
  | free
  | used (k : Nat)
  deriving DecidableEq

def Seg.len : Seg → Nat
  | .free => 1
  | .used k => k + 1

def Seg.enc : Seg → List St
  | .free => [.freeOrUsed]
  | .used 0 => [.startEnd]
  | .used (k + 1) => .start :: List.replicate k .freeOrUsed ++ [.end_]

def encs (l : List Seg) : List St := l.flatMap Seg.enc
def lens (l : List Seg) : Nat := (l.map Seg.len).sum

@[simp] theorem Seg.enc_length (s : Seg) : s.enc.length = s.len := by
  cases s with
  | free => rfl
  | used k => cases k <;> simp [Seg.enc, Seg.len]

@[simp] theorem encs_nil : encs [] = [] := rfl
@[simp] theorem encs_cons (s l) : encs (s :: l) = s.enc ++ encs l := by simp [encs]
@[simp] theorem encs_append (a b) : encs (a ++ b) = encs a ++ encs b := by simp [encs]
@[simp] theorem lens_nil : lens [] = 0 := rfl
@[simp] theorem lens_cons (s l) : lens (s :: l) = s.len + lens l := by simp [lens]
@[simp] theorem lens_append (a b) : lens (a ++ b) = lens a + lens b := by simp [lens]
@[simp] theorem encs_length (l) : (encs l).length = lens l := by
  induction l with
  | nil => rfl
  | cons s l ih => simp [ih]
@[simp] theorem lens_replicate (n) : lens (List.replicate n .free) = n := by
  simp [lens, Seg.len]
theorem encs_replicate (n) : encs (List.replicate n .free) = List.replicate n .freeOrUsed := by
  induction n with
  | zero => rfl
  | succ n ih => simp [List.replicate_succ, ih, Seg.enc]

/-- Live blocks of a layout starting at word `pos`. -/
def blocksOf : Nat → List Seg → List Block
  | _, [] => []
  | pos, .free :: r => blocksOf (pos + 1) r
  | pos, .used k :: r => (pos, k + 1) :: blocksOf (pos + k + 1) r

theorem blocksOf_append (a b pos) :
    blocksOf pos (a ++ b) = blocksOf pos a ++ blocksOf (pos + lens a) b := by
  induction a generalizing pos with
  | nil => simp [blocksOf]
  | cons s a ih =>
    cases s <;> simp [blocksOf, ih, Seg.len] <;> congr 1 <;> omega

theorem blocksOf_replicate (n pos) : blocksOf pos (List.replicate n .free) = [] := by
  induction n generalizing pos with
  | zero => rfl
  | succ n ih => simp [List.replicate_succ, blocksOf, ih]

theorem mem_blocksOf {b : Block} {pos l} (h : b ∈ blocksOf pos l) :
    ∃ pre k post, l = pre ++ .used k :: post ∧ b = (pos + lens pre, k + 1) := by
  induction l generalizing pos with
  | nil => simp [blocksOf] at h
  | cons s l ih =>
    cases s with
    | free =>
      obtain ⟨pre, k, post, rfl, rfl⟩ := ih h
      exact ⟨.free :: pre, k, post, by simp, by simp [Seg.len]; omega⟩
    | used j =>
      simp only [blocksOf, List.mem_cons] at h
      rcases h with rfl | h
      · exact ⟨[], j, l, by simp, by simp⟩
      · obtain ⟨pre, k, post, rfl, rfl⟩ := ih h
        exact ⟨.used j :: pre, k, post, by simp, by simp [Seg.len]; omega⟩

/-- Number of free words of a layout. -/
def frees : List Seg → Nat
  | [] => 0
  | .free :: r => frees r + 1
  | .used _ :: r => frees r

@[simp] theorem frees_append (a b) : frees (a ++ b) = frees a + frees b := by
  induction a with
  | nil => simp [frees]
  | cons s a ih => cases s <;> simp [frees, ih]; omega
@[simp] theorem frees_replicate (n) : frees (List.replicate n .free) = n := by
  induction n with
  | zero => rfl
  | succ n ih => simp [List.replicate_succ, frees, ih]

theorem frees_add_live (l pos) : frees l + liveWords (blocksOf pos l) = lens l := by
  induction l generalizing pos with
  | nil => rfl
  | cons s l ih =>
    cases s with
    | free => have := ih (pos+1); simp [frees, blocksOf, Seg.len]; omega
    | used k =>
      have := ih (pos+k+1)
      simp [frees, blocksOf, Seg.len, liveWords] at *; omega

/-! ### The scan -/

/-- Linear scan over a list of statuses. -/
def lin (n : Nat) : List St → Nat → Scan → Scan
  | [], _, s => s
  | x :: xs, pos, s =>
    match scanStep n pos x s with
    | .done a b => .done a b
    | s' => lin n xs (pos + 1) s'

def Scan.isDone : Scan → Prop
  | .done _ _ => True
  | _ => False

theorem scanStep_done {n pos x s a b} (hs : ¬ s.isDone)
    (h : scanStep n pos x s = .done a b) : b = pos := by
  cases x <;> cases s <;> simp [scanStep, Scan.isDone] at h hs
  · split at h <;> simp at h; exact h.2.symm
  · split at h <;> simp at h; exact h.2.symm

theorem scanLoop_nowrap (n : Nat) (bm : List St) (k f off : Nat) (s : Scan)
    (hs : ¬ s.isDone) (h : off + k < bm.length) :
    scanLoop n bm (k + f) off s =
      match lin n ((bm.drop off).take k) off s with
      | .done a b => some (b, .done a b)
      | s' => scanLoop n bm f (off + k) s' := by
  induction k generalizing off s with
  | zero => cases s <;> simp_all [lin, Scan.isDone]
  | succ k ih =>
    have hlt : off < bm.length := by omega
    have hd : (bm.drop off).take (k+1) = bm[off] :: (bm.drop (off+1)).take k := by
      rw [List.drop_eq_getElem_cons hlt, List.take_succ_cons]
    rw [hd, show k + 1 + f = (k + f) + 1 by omega]
    simp only [scanLoop, lin, List.getElem?_eq_getElem hlt]
    have hne : ¬ off + 1 = bm.length := by omega
    have key : ∀ a b, scanStep n off bm[off] s = .done a b → b = off :=
      fun a b hab => scanStep_done hs hab
    cases hst : scanStep n off bm[off] s with
    | done a b => simp [key a b hst]
    | init => simp only [hne, if_false]; rw [ih _ _ (by simp [Scan.isDone]) (by omega)]
              simp [show off + 1 + k = off + (k+1) by omega]
    | skip => simp only [hne, if_false]; rw [ih _ _ (by simp [Scan.isDone]) (by omega)]
              simp [show off + 1 + k = off + (k+1) by omega]
    | lengthCheck a b =>
              simp only [hne, if_false]; rw [ih _ _ (by simp [Scan.isDone]) (by omega)]
              simp [show off + 1 + k = off + (k+1) by omega]

theorem scanLoop_wrap (n : Nat) (bm : List St) (k f off : Nat) (s : Scan)
    (hs : ¬ s.isDone) (h : off + k = bm.length) (hk : 0 < k) :
    scanLoop n bm (k + f) off s =
      match lin n (bm.drop off) off s with
      | .done a b => some (b, .done a b)
      | _ => scanLoop n bm f 0 .init := by
  induction k generalizing off s with
  | zero => omega
  | succ k ih =>
    have hlt : off < bm.length := by omega
    rw [List.drop_eq_getElem_cons hlt, show k + 1 + f = (k + f) + 1 by omega]
    simp only [scanLoop, lin, List.getElem?_eq_getElem hlt]
    have key : ∀ a b, scanStep n off bm[off] s = .done a b → b = off :=
      fun a b hab => scanStep_done hs hab
    by_cases hk0 : k = 0
    · subst hk0
      have hnil : bm.drop (off+1) = [] := by simp; omega
      have he : off + 1 = bm.length := by omega
      cases hst : scanStep n off bm[off] s with
      | done a b => simp [key a b hst]
      | init => simp [hnil, lin, he]
      | skip => simp [hnil, lin, he]
      | lengthCheck a b => simp [hnil, lin, he]
    · have hne : ¬ off + 1 = bm.length := by omega
      cases hst : scanStep n off bm[off] s with
      | done a b => simp [key a b hst]
      | init => simp only [hne, if_false]; rw [ih _ _ (by simp [Scan.isDone]) (by omega) (by omega)]
      | skip => simp only [hne, if_false]; rw [ih _ _ (by simp [Scan.isDone]) (by omega) (by omega)]
      | lengthCheck a b =>
                simp only [hne, if_false]; rw [ih _ _ (by simp [Scan.isDone]) (by omega) (by omega)]

/-- The whole loop: from the offset to the end, then from the start to the offset. -/
theorem scanLoop_eq (n : Nat) (bm : List St) (off : Nat) (h : off < bm.length) :
    scanLoop n bm bm.length off .init =
      match lin n (bm.drop off) off .init with
      | .done a b => some (b, .done a b)
      | _ =>
        match lin n (bm.take off) 0 .init with
        | .done a b => some (b, .done a b)
        | s' => some (off, s') := by
  have h1 := scanLoop_wrap n bm (bm.length - off) off off .init (by simp [Scan.isDone])
    (by omega) (by omega)
  rw [show bm.length - off + off = bm.length by omega] at h1
  have h2 := scanLoop_nowrap n bm off 0 0 .init (by simp [Scan.isDone]) (by omega)
  simp only [scanLoop, List.drop_zero, Nat.add_zero, Nat.zero_add] at h2
  rw [h1, h2]

def stOf (pos cur : Nat) : Scan := if cur = 0 then .init else .lengthCheck (pos - cur) cur

theorem lin_free {n pos cur : Nat} (xs) (hn : 1 ≤ n) (hc : cur ≤ pos) (hlt : cur < n) :
    lin n (.freeOrUsed :: xs) pos (stOf pos cur) =
      if cur + 1 = n then .done (pos - cur) pos else lin n xs (pos + 1) (stOf (pos + 1) (cur + 1)) := by
  by_cases h0 : cur = 0
  · subst h0
    simp only [lin, stOf, scanStep]
    by_cases h1 : n = 1
    · simp [h1]
    · have : ¬ 1 = n := by omega
      simp [h1, this]
  · simp only [lin, stOf, scanStep, h0, if_false]
    by_cases h1 : cur + 1 = n
    · simp [h1]
    · simp [h1, show pos + 1 - (cur + 1) = pos - cur by omega]

theorem lin_skip (n j pos) (xs) :
    lin n (List.replicate j .freeOrUsed ++ xs) pos .skip = lin n xs (pos + j) .skip := by
  induction j generalizing pos with
  | zero => simp
  | succ j ih =>
    simp only [List.replicate_succ, List.cons_append, lin, scanStep]
    rw [ih]; congr 1; omega

theorem lin_used (n k pos) (xs) (s : Scan) :
    lin n ((Seg.used k).enc ++ xs) pos s = lin n xs (pos + (k + 1)) .init := by
  cases k with
  | zero => simp [Seg.enc, lin, scanStep]
  | succ k =>
    simp only [Seg.enc, List.cons_append, List.append_assoc, lin, scanStep]
    rw [lin_skip]
    simp only [lin, List.cons_append, scanStep, List.nil_append]
    congr 1; omega

/-- Abstract first-fit search: `cur` free words precede `pos`. -/
def ff (n : Nat) : List Seg → Nat → Nat → Option Nat
  | [], _, _ => none
  | .free :: r, pos, cur => if cur + 1 = n then some (pos - cur) else ff n r (pos + 1) (cur + 1)
  | .used k :: r, pos, _ => ff n r (pos + (k + 1)) 0

theorem lin_encs {n : Nat} (hn : 1 ≤ n) (segs : List Seg) (tail : List St) (pos cur : Nat)
    (hc : cur ≤ pos) (hlt : cur < n) :
    (∃ a, ff n segs pos cur = some a ∧ lin n (encs segs ++ tail) pos (stOf pos cur) = .done a (a + (n - 1)))
    ∨ (ff n segs pos cur = none ∧ ∃ s, ¬ s.isDone ∧
        lin n (encs segs ++ tail) pos (stOf pos cur) = lin n tail (pos + lens segs) s) := by
  induction segs generalizing pos cur with
  | nil =>
    right
    refine ⟨rfl, stOf pos cur, ?_, by simp⟩
    unfold stOf; split <;> simp [Scan.isDone]
  | cons s r ih =>
    cases s with
    | free =>
      simp only [encs_cons, Seg.enc, List.cons_append, List.nil_append]
      rw [lin_free _ hn hc hlt]
      by_cases h1 : cur + 1 = n
      · left; refine ⟨pos - cur, by simp [ff, h1], ?_⟩
        simp [h1]; omega
      · simp only [h1, if_false, ff]
        rcases ih (pos+1) (cur+1) (by omega) (by omega) with h | ⟨h, s, hs, h'⟩
        · left; exact h
        · right; exact ⟨h, s, hs, by simpa [Seg.len, Nat.add_assoc] using h'⟩
    | used k =>
      simp only [encs_cons, List.append_assoc]
      rw [lin_used]
      simp only [ff]
      have := ih (pos + (k+1)) 0 (by omega) (by omega)
      simp only [stOf, if_true] at this
      rcases this with h | ⟨h, s, hs, h'⟩
      · left; exact h
      · right; exact ⟨h, s, hs, by simpa [Seg.len, Nat.add_assoc] using h'⟩

theorem ff_sound {n : Nat} (hn : 1 ≤ n) (segs : List Seg) (pos cur a : Nat)
    (hc : cur ≤ pos) (hlt : cur < n) (h : ff n segs pos cur = some a) :
    ∃ pre post, List.replicate cur .free ++ segs = pre ++ List.replicate n .free ++ post ∧
      a = pos - cur + lens pre := by
  induction segs generalizing pos cur with
  | nil => simp [ff] at h
  | cons s r ih =>
    cases s with
    | free =>
      simp only [ff] at h
      split at h
      · rename_i h1
        subst h1
        refine ⟨[], r, ?_, ?_⟩
        · simp [List.replicate_succ']
        · simp_all
      · obtain ⟨pre, post, h1, h2⟩ := ih (pos+1) (cur+1) (by omega) (by omega) h
        refine ⟨pre, post, ?_, by omega⟩
        rw [← h1]; simp [List.replicate_succ']
    | used k =>
      simp only [ff] at h
      obtain ⟨pre, post, h1, h2⟩ := ih _ 0 (by omega) (by omega) h
      refine ⟨List.replicate cur .free ++ .used k :: pre, post, ?_, ?_⟩
      · simp at h1; simp [h1]
      · simp [Seg.len]; omega

theorem ff_complete {n : Nat} (hn : 1 ≤ n) (segs : List Seg) (pos cur : Nat)
    (hlt : cur < n) (h : ff n segs pos cur = none) (pre post : List Seg) :
    List.replicate cur .free ++ segs ≠ pre ++ List.replicate n .free ++ post := by
  induction segs generalizing pos cur pre with
  | nil =>
    intro he
    have := congrArg List.length he
    simp at this; omega
  | cons s r ih =>
    cases s with
    | free =>
      simp only [ff] at h
      split at h
      · simp at h
      · have := ih (pos+1) (cur+1) (by omega) h pre
        simpa [List.replicate_succ'] using this
    | used k =>
      simp only [ff] at h
      intro he
      rw [List.append_assoc, List.append_eq_append_iff] at he
      rcases he with ⟨as, h1, h2⟩ | ⟨bs, h1, h2⟩
      · cases as with
        | nil =>
          simp only [List.nil_append] at h2
          cases n with
          | zero => omega
          | succ n => simp [List.replicate_succ] at h2
        | cons x as =>
          simp only [List.cons_append, List.cons.injEq] at h2
          exact ih _ 0 (by omega) h as (by simpa using h2.2)
      · -- the run starts inside the leading free words
        rw [List.append_eq_append_iff] at h2
        rcases h2 with ⟨cs, h3, h4⟩ | ⟨cs, h3, h4⟩
        · -- bs = replicate n free ++ cs : too short
          have := congrArg List.length h1
          have := congrArg List.length h3
          simp at *; omega
        · cases cs with
          | nil =>
            have := congrArg List.length h1
            have := congrArg List.length h3
            simp at *; omega
          | cons x cs =>
            simp only [List.cons_append, List.cons.injEq] at h4
            have : Seg.used k ∈ List.replicate n Seg.free := by
              rw [h3]; simp [h4.1]
            simp at this

end Verif.Mem
