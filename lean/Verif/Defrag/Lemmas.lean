import Verif.Defrag.Spec

namespace Verif.Defrag

/-- A block: where it is, its cell, its size in bytes and its data. -/
structure Blk where
  off : Nat
  cell : Nat
  bytes : Nat
  data : List Nat

def Blk.len (b : Blk) : Nat := b.data.length + 3

/-- The words of a block. -/
structure BlockAt (p : Pool) (b : Blk) : Prop where
  size : p.mem b.off = b.bytes
  ptr : p.mem (b.off + 1) = p.base + (b.off + 3) * p.W
  cell : p.mem (b.off + 2) = b.cell
  data : ∀ k, (h : k < b.data.length) → p.mem (b.off + 3 + k) = b.data[k]
  words : b.data.length = bs2ws p.W b.bytes
  pos : 0 < b.bytes

/-- From word `lo` on the pool holds the blocks `bs`, in this order, and zeros. -/
def Lay (p : Pool) : Nat → List Blk → Prop
  | lo, [] => lo ≤ p.size ∧ ∀ j, lo ≤ j → j < p.size → p.mem j = 0
  | lo, b :: bs => lo ≤ b.off ∧ (∀ j, lo ≤ j → j < b.off → p.mem j = 0) ∧ BlockAt p b ∧ Lay p (b.off + b.len) bs

theorem Lay.le {p : Pool} : ∀ {bs : List Blk} {lo : Nat}, Lay p lo bs → lo ≤ p.size := by
  intro bs
  induction bs with
  | nil => intro lo h; exact h.1
  | cons b bs ih => intro lo h; have := ih h.2.2.2; have := h.1; omega

theorem Lay.mem {p : Pool} : ∀ {bs : List Blk} {lo : Nat}, Lay p lo bs → ∀ b ∈ bs,
    lo ≤ b.off ∧ b.off + b.len ≤ p.size ∧ BlockAt p b := by
  intro bs
  induction bs with
  | nil => intro lo _ b hb; cases hb
  | cons x xs ih =>
    intro lo h b hb
    rcases List.mem_cons.1 hb with rfl | hb
    · exact ⟨h.1, h.2.2.2.le, h.2.2.1⟩
    · have := ih h.2.2.2 b hb
      have := h.1
      exact ⟨by omega, by omega, (ih h.2.2.2 b hb).2.2⟩

theorem BlockAt.congr {p q : Pool} {b : Blk} (hW : q.W = p.W) (hb : q.base = p.base)
    (hm : ∀ j, b.off ≤ j → j < b.off + b.len → q.mem j = p.mem j) (h : BlockAt p b) : BlockAt q b := by
  have hl : b.len = b.data.length + 3 := rfl
  refine ⟨?_, ?_, ?_, ?_, by rw [hW]; exact h.words, h.pos⟩
  · rw [hm _ (by omega) (by omega)]; exact h.size
  · rw [hm _ (by omega) (by omega), hW, hb]; exact h.ptr
  · rw [hm _ (by omega) (by omega)]; exact h.cell
  · intro k hk; rw [hm _ (by omega) (by omega)]; exact h.data k hk

theorem Lay.congr {p q : Pool} (hW : q.W = p.W) (hb : q.base = p.base) (hs : q.size = p.size) :
    ∀ {bs : List Blk} {lo : Nat}, (∀ j, lo ≤ j → j < p.size → q.mem j = p.mem j) → Lay p lo bs → Lay q lo bs := by
  intro bs
  induction bs with
  | nil =>
    intro lo hm h
    exact ⟨by rw [hs]; exact h.1, fun j h1 h2 => by rw [hs] at h2; rw [hm j h1 h2]; exact h.2 j h1 h2⟩
  | cons b bs ih =>
    rintro lo hm ⟨h1, h2, h3, h4⟩
    have hle := h4.le
    refine ⟨h1, fun j hj hj' => ?_, ?_, ih (fun j hj hj' => hm j (by omega) hj') h4⟩
    · rw [hm j hj (by omega)]; exact h2 j hj hj'
    · exact h3.congr hW hb (fun j hj hj' => hm j (by omega) (by omega))

/-! ### The search -/

/-- What the search finds: it gives up at the end of the first hole. -/
def find (size need : Nat) : Nat → List Blk → Option Nat
  | lo, [] => if need ≤ size - lo then some lo else none
  | lo, b :: bs =>
    if lo = b.off then find size need (b.off + b.len) bs
    else if need ≤ b.off - lo then some lo else none

theorem scan_free {p : Pool} {need e : Nat} (he : e ≤ p.size) : ∀ (n i fw fs f : Nat), n = e - i → i ≤ e → fw < need →
    (∀ j, i ≤ j → j < e → p.mem j = 0) → n < f →
    scan p need f i .freeLen fw fs =
      if need ≤ fw + (e - i) then some fs else scan p need (f - n) e .freeLen (fw + (e - i)) fs := by
  intro n
  induction n with
  | zero =>
    intro i fw fs f hn hi hfw _ hf
    have : e = i := by omega
    subst this
    rw [if_neg (by omega)]; simp
  | succ n ih =>
    intro i fw fs f hn hi hfw hz hf
    obtain ⟨f, rfl⟩ := Nat.exists_eq_succ_of_ne_zero (by omega : f ≠ 0)
    simp only [scan]
    rw [if_pos (by omega), if_pos (hz i (Nat.le_refl _) (by omega))]
    by_cases hd : need ≤ fw + 1
    · rw [if_pos hd, if_pos (by omega)]
    · rw [if_neg hd, ih (i + 1) (fw + 1) fs f (by omega) (by omega) (by omega) (fun j h1 h2 => hz j (by omega) h2) (by omega)]
      have e1 : fw + 1 + (e - (i + 1)) = fw + (e - i) := by omega
      have e2 : f + 1 - (n + 1) = f - n := by omega
      rw [e1, e2]

theorem bs2ws_ge {W x : Nat} : x / W ≤ bs2ws W x := by unfold bs2ws; split <;> omega

theorem scan_end {p : Pool} {need : Nat} : ∀ {f i fw fs : Nat} {st : SS}, p.size ≤ i → scan p need f i st fw fs = none := by
  intro f i fw fs st h
  cases f with
  | zero => rfl
  | succ f => simp only [scan]; rw [if_neg (by omega)]

/-- The search in the initial state, at a place where a block or a hole begins. The pool must lie at an address
that is not below its own size. -/
theorem scan_spec {p : Pool} {need : Nat} (hW : 0 < p.W) (hbase : p.size ≤ p.base / p.W) (hn : 2 ≤ need) :
    ∀ {bs : List Blk} {lo f fw fs : Nat}, Lay p lo bs → p.size - lo < f →
      scan p need f lo .init fw fs = find p.size need lo bs := by
  intro bs
  induction bs with
  | nil =>
    intro lo f fw fs h hf
    obtain ⟨f, rfl⟩ := Nat.exists_eq_succ_of_ne_zero (by omega : f ≠ 0)
    simp only [find]
    by_cases hlo : lo < p.size
    · simp only [scan]
      rw [if_pos hlo, if_pos (h.2 lo (Nat.le_refl _) hlo),
        scan_free (Nat.le_refl _) (p.size - (lo + 1)) (lo + 1) 1 lo f rfl (by omega) (by omega)
          (fun j h1 h2 => h.2 j (by omega) h2) (by omega)]
      have : 1 + (p.size - (lo + 1)) = p.size - lo := by omega
      rw [this, scan_end (Nat.le_refl _)]
    · rw [scan_end (by omega), if_neg (by omega)]
  | cons b bs ih =>
    rintro lo f fw fs ⟨h1, h2, h3, h4⟩ hf
    obtain ⟨f, rfl⟩ := Nat.exists_eq_succ_of_ne_zero (by omega : f ≠ 0)
    have hle := h4.le
    have hlen : b.len = b.data.length + 3 := rfl
    simp only [find]
    by_cases hlo : lo = b.off
    · subst hlo
      rw [if_pos rfl]
      simp only [scan]
      rw [if_pos (by omega), if_neg (by rw [h3.size]; have := h3.pos; omega), h3.size, ← h3.words]
      exact ih h4 (by omega)
    · rw [if_neg hlo]
      simp only [scan]
      rw [if_pos (by omega), if_pos (h2 lo (Nat.le_refl _) (by omega)),
        scan_free (e := b.off) (by omega) (b.off - (lo + 1)) (lo + 1) 1 lo f rfl (by omega) (by omega)
          (fun j h1' h2' => h2 j (by omega) h2') (by omega)]
      have e1 : 1 + (b.off - (lo + 1)) = b.off - lo := by omega
      rw [e1]
      split
      · rfl
      · -- the search skips one word of the header and takes the data pointer for a size
        obtain ⟨g, hg⟩ : ∃ g, f - (b.off - (lo + 1)) = g + 1 := ⟨f - (b.off - (lo + 1)) - 1, by omega⟩
        rw [hg]
        simp only [scan]
        rw [if_pos (by omega), if_neg (by rw [h3.size]; have := h3.pos; omega)]
        cases g with
        | zero => rfl
        | succ g =>
          simp only [scan]
          rw [if_pos (by omega), if_neg ?_, scan_end]
          · rw [h3.ptr]
            have h5 : p.base / p.W ≤ (p.base + (b.off + 3) * p.W) / p.W := Nat.div_le_div_right (by omega)
            have h6 := bs2ws_ge (W := p.W) (x := p.base + (b.off + 3) * p.W)
            omega
          · rw [h3.ptr]
            have : 0 < (b.off + 3) * p.W := Nat.mul_pos (by omega) hW
            omega

/-- Put a block into the free place that the search found. -/
theorem find_insert {p q : Pool} {nb : Blk} (hW : q.W = p.W) (hb : q.base = p.base) (hs : q.size = p.size)
    (hq : BlockAt q nb) (hout : ∀ j, j < nb.off ∨ nb.off + nb.len ≤ j → q.mem j = p.mem j) :
    ∀ {bs : List Blk} {lo : Nat}, Lay p lo bs → find p.size nb.len lo bs = some nb.off →
      ∃ pre post, bs = pre ++ post ∧ Lay q lo (pre ++ nb :: post) ∧ lo ≤ nb.off ∧
        (∀ b ∈ bs, b.off + b.len ≤ nb.off ∨ nb.off + nb.len ≤ b.off) := by
  intro bs
  induction bs with
  | nil =>
    intro lo h hf
    simp only [find] at hf
    split at hf
    · next hn =>
      cases hf
      have hl3 : 0 < nb.len := Nat.succ_pos _
      refine ⟨[], [], rfl, ⟨Nat.le_refl _, fun j h1 h2 => by omega, hq, ?_, ?_⟩, Nat.le_refl _, by simp⟩
      · rw [hs]; omega
      · intro j h1 h2
        rw [hout j (Or.inr h1)]; exact h.2 j (by omega) (by rw [← hs]; exact h2)
    · cases hf
  | cons b bs ih =>
    rintro lo ⟨h1, h2, h3, h4⟩ hf
    have hle := h4.le
    simp only [find] at hf
    split at hf
    · next hlo =>
      obtain ⟨pre, post, e, hl, hlo', hd⟩ := ih h4 hf
      refine ⟨b :: pre, post, by rw [e]; rfl, ⟨h1, fun j hj hj' => by omega, ?_, hl⟩, by omega, ?_⟩
      · exact h3.congr hW hb (fun j hj hj' => hout j (Or.inl (by omega)))
      · intro x hx
        rcases List.mem_cons.1 hx with rfl | hx
        · exact Or.inl hlo'
        · exact hd x hx
    · next hlo =>
      split at hf
      · next hn =>
        cases hf
        have hl3 : 0 < nb.len := Nat.succ_pos _
        refine ⟨[], b :: bs, rfl, ⟨Nat.le_refl _, fun j hj hj' => by omega, hq, by omega, ?_, ?_, ?_⟩, Nat.le_refl _, ?_⟩
        · intro j hj hj'
          rw [hout j (Or.inr hj)]; exact h2 j (by omega) hj'
        · exact h3.congr hW hb (fun j hj hj' => hout j (Or.inr (by omega)))
        · exact Lay.congr hW hb hs (fun j hj _ => hout j (Or.inr (by omega))) h4
        · intro x hx
          rcases List.mem_cons.1 hx with rfl | hx
          · exact Or.inr (by omega)
          · have := (h4.mem x hx).1; exact Or.inr (by omega)
      · cases hf

end Verif.Defrag
