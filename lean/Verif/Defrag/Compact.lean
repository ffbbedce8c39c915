import Verif.Defrag.Lemmas

namespace Verif.Defrag

/-- Words taken by the blocks. -/
def total (bs : List Blk) : Nat := (bs.map Blk.len).sum

theorem total_append (as bs : List Blk) : total (as ++ bs) = total as + total bs := by
  simp [total]

theorem Lay.total_le {p : Pool} : ∀ {bs : List Blk} {lo : Nat}, Lay p lo bs → lo + total bs ≤ p.size := by
  intro bs
  induction bs with
  | nil => intro lo h; simpa [total] using h.1
  | cons b bs ih =>
    intro lo h
    have := ih h.2.2.2
    have := h.1
    simp only [total, List.map_cons, List.sum_cons] at *
    omega

/-- Blocks without holes between them, from `lo` to `hi`. -/
def Pk : Nat → List Blk → Nat → Prop
  | lo, [], hi => lo = hi
  | lo, b :: bs, hi => lo = b.off ∧ Pk (b.off + b.len) bs hi

theorem Pk.total : ∀ {bs : List Blk} {lo hi : Nat}, Pk lo bs hi → lo + total bs = hi := by
  intro bs
  induction bs with
  | nil => intro lo hi h; simpa [Defrag.total, Pk] using h
  | cons b bs ih =>
    rintro lo hi ⟨rfl, h⟩
    have := ih h
    simp only [Defrag.total, List.map_cons, List.sum_cons] at *
    omega

theorem Pk.snoc {b : Blk} : ∀ {bs : List Blk} {lo hi : Nat}, Pk lo bs hi → b.off = hi → Pk lo (bs ++ [b]) (hi + b.len) := by
  intro bs
  induction bs with
  | nil => intro lo hi h hb; cases h; exact ⟨hb.symm, by rw [hb]; rfl⟩
  | cons x bs ih => rintro lo hi ⟨h1, h2⟩ hb; exact ⟨h1, ih h2 hb⟩

theorem Pk.mem : ∀ {bs : List Blk} {lo hi : Nat}, Pk lo bs hi → ∀ b ∈ bs, lo ≤ b.off ∧ b.off + b.len ≤ hi := by
  intro bs
  induction bs with
  | nil => intro lo hi _ b hb; cases hb
  | cons x bs ih =>
    rintro lo hi ⟨h1, h2⟩ b hb
    have ht := h2.total
    rcases List.mem_cons.1 hb with rfl | hb
    · exact ⟨by omega, by omega⟩
    · have := ih h2 b hb; exact ⟨by omega, this.2⟩

theorem Pk.lay {p : Pool} {rest : List Blk} : ∀ {bs : List Blk} {lo hi : Nat}, Pk lo bs hi → (∀ b ∈ bs, BlockAt p b) →
    Lay p hi rest → Lay p lo (bs ++ rest) := by
  intro bs
  induction bs with
  | nil => intro lo hi h _ hl; cases h; exact hl
  | cons x bs ih =>
    rintro lo hi ⟨h1, h2⟩ hb hl
    exact ⟨by omega, fun j _ _ => by omega, hb x List.mem_cons_self, ih h2 (fun b hb' => hb b (List.mem_cons_of_mem _ hb')) hl⟩

theorem Pk.find {size need : Nat} {rest : List Blk} : ∀ {bs : List Blk} {lo hi : Nat}, Pk lo bs hi →
    find size need lo (bs ++ rest) = find size need hi rest := by
  intro bs
  induction bs with
  | nil => intro lo hi h; cases h; rfl
  | cons x bs ih =>
    rintro lo hi ⟨rfl, h2⟩
    rw [List.cons_append]
    simp only [Defrag.find, if_pos]
    exact ih h2

/-- Zeros before a layout can be dropped or added. -/
theorem Lay.lower {p : Pool} {bs : List Blk} {lo hi : Nat} (h : Lay p hi bs) (hl : lo ≤ hi)
    (hz : ∀ j, lo ≤ j → j < hi → p.mem j = 0) : Lay p lo bs := by
  cases bs with
  | nil =>
    exact ⟨by have := h.1; omega, fun j h1 h2 => if h3 : j < hi then hz j h1 h3 else h.2 j (by omega) h2⟩
  | cons b bs =>
    exact ⟨by have := h.1; omega, fun j h1 h2 => if h3 : j < hi then hz j h1 h3 else h.2.1 j (by omega) h2, h.2.2⟩

/-- What stays of a block when it moves. -/
def Blk.key (b : Blk) : Nat × Nat × List Nat := (b.cell, b.bytes, b.data)

/-- A pool with its blocks: the layout, and the cells that point to the blocks. -/
structure PInv (p : Pool) (bs : List Blk) : Prop where
  lay : Lay p 0 bs
  nodup : (bs.map (·.cell)).Nodup
  car : ∀ b ∈ bs, p.car b.cell = some b.off

/-- The loop invariant of the compaction. -/
structure DInv (p : Pool) (done rest : List Blk) (i hole : Nat) : Prop where
  pk : Pk 0 done hole
  at_ : ∀ b ∈ done, BlockAt p b
  zero : ∀ j, hole ≤ j → j < i → p.mem j = 0
  le : hole ≤ i
  lay : Lay p i rest
  nodup : ((done ++ rest).map (·.cell)).Nodup
  car : ∀ b ∈ done ++ rest, p.car b.cell = some b.off

theorem DInv.pinv {p : Pool} {done rest : List Blk} {i hole : Nat} (h : DInv p done rest i hole) : PInv p (done ++ rest) :=
  ⟨h.pk.lay h.at_ (h.lay.lower h.le h.zero), h.nodup, h.car⟩

theorem find_some_hole {p : Pool} {done rest : List Blk} {i hole need : Nat} (h : DInv p done rest i hole)
    (hr : rest = [] ∨ ∃ b bs, rest = b :: bs ∧ b.off = i) (hd : need ≤ i - hole) (hn : 0 < need) :
    find p.size need 0 (done ++ rest) = some hole := by
  rw [h.pk.find]
  rcases hr with rfl | ⟨b, bs, rfl, hb⟩
  · simp only [find]
    have := h.lay.1
    rw [if_pos (by omega)]
  · simp only [find]
    rw [if_neg (by omega), if_pos (by omega)]

/-- The step that moves a block into the hole. -/
theorem DInv.move {p : Pool} {done bs : List Blk} {b : Blk} {hole : Nat} (h : DInv p done (b :: bs) b.off hole)
    (hh : hole < b.off) :
    DInv ((((p.move hole b.off b.len).clear (hole + b.len) (b.off - hole)).set (hole + 1) (p.base + (hole + 3) * p.W)).setCar
        b.cell (some hole)) (done ++ [{ b with off := hole }]) bs (b.off + b.len) (hole + b.len) := by
  obtain ⟨_, _, hb, hl⟩ := h.lay
  have hlen : b.len = b.data.length + 3 := rfl
  have hnd := h.nodup
  simp only [List.map_append, List.map_cons] at hnd
  refine ⟨h.pk.snoc rfl, ?_, ?_, by omega, ?_, ?_, ?_⟩
  · intro x hx
    rcases List.mem_append.1 hx with hx | hx
    · have h1 := h.pk.mem x hx
      refine BlockAt.congr ?_ ?_ (fun j hj hj' => ?_) (h.at_ x hx)
      · rfl
      · rfl
      simp only [Pool.move, Pool.clear, Pool.set, Pool.setCar]
      rw [if_neg (by omega), if_neg (by omega), if_neg (by omega)]
    · rw [List.mem_singleton] at hx
      subst hx
      refine ⟨?_, ?_, ?_, ?_, hb.words, hb.pos⟩
      · simp only [Pool.move, Pool.clear, Pool.set, Pool.setCar]
        rw [if_neg (by omega), if_neg (by omega), if_pos (by omega), show hole - hole + b.off = b.off by omega]
        exact hb.size
      · simp only [Pool.move, Pool.clear, Pool.set, Pool.setCar, if_pos]
      · simp only [Pool.move, Pool.clear, Pool.set, Pool.setCar]
        rw [if_neg (by omega), if_neg (by omega), if_pos (by omega), show hole + 2 - hole + b.off = b.off + 2 by omega]
        exact hb.cell
      · intro k hk
        replace hk : k < b.data.length := hk
        simp only [Pool.move, Pool.clear, Pool.set, Pool.setCar]
        rw [if_neg (by omega), if_neg (by omega), if_pos (by omega), show hole + 3 + k - hole + b.off = b.off + 3 + k by omega]
        exact hb.data k hk
  · intro j h1 h2
    simp only [Pool.move, Pool.clear, Pool.set, Pool.setCar]
    rw [if_neg (by omega), if_pos (by omega)]
  · refine Lay.congr (p := p) ?_ ?_ ?_ (fun j hj _ => ?_) hl
    · rfl
    · rfl
    · rfl
    simp only [Pool.move, Pool.clear, Pool.set, Pool.setCar]
    rw [if_neg (by omega), if_neg (by omega), if_neg (by omega)]
  · simpa using h.nodup
  · intro x hx
    simp only [Pool.move, Pool.clear, Pool.set, Pool.setCar]
    rw [List.append_assoc] at hx
    rcases List.mem_append.1 hx with hx | hx
    · have hne : x.cell ≠ b.cell := by
        have := (List.nodup_append.1 hnd).2.2 x.cell (List.mem_map.2 ⟨x, hx, rfl⟩) b.cell List.mem_cons_self
        exact this
      rw [if_neg hne]; exact h.car x (List.mem_append.2 (Or.inl hx))
    · rcases List.mem_cons.1 hx with rfl | hx
      · rw [if_pos rfl]
      · have hne : x.cell ≠ b.cell := by
          have := (List.nodup_cons.1 (List.nodup_append.1 hnd).2.1).1
          exact fun e => this (e ▸ List.mem_map.2 ⟨x, hx, rfl⟩)
        rw [if_neg hne]; exact h.car x (List.mem_append.2 (Or.inr (List.mem_cons_of_mem _ hx)))

/-- The compaction keeps the arrays and ends with a first hole that is big enough, if there is enough free memory at all. -/
theorem defragLoop_spec {need : Nat} (hn : 0 < need) : ∀ (f : Nat) {p : Pool} {done rest : List Blk} {i hole : Nat},
    DInv p done rest i hole → p.size - i < f →
    ∃ bs', PInv (defragLoop need f p i hole) bs' ∧ bs'.map Blk.key = (done ++ rest).map Blk.key ∧
      (need + total (done ++ rest) ≤ p.size → (find p.size need 0 bs').isSome = true) ∧
      (defragLoop need f p i hole).W = p.W ∧ (defragLoop need f p i hole).base = p.base ∧
      (defragLoop need f p i hole).size = p.size := by
  intro f
  induction f with
  | zero => intro p done rest i hole _ hf; omega
  | succ f ih =>
    intro p done rest i hole h hf
    simp only [defragLoop]
    by_cases hi : i < p.size
    · rw [if_pos hi]
      by_cases hz : p.mem i = 0
      · rw [if_neg (by simpa using hz)]
        refine ih ⟨h.pk, h.at_, ?_, by have := h.le; omega, ?_, h.nodup, h.car⟩ (by omega)
        · intro j h1 h2
          rcases Nat.lt_succ_iff_lt_or_eq.1 h2 with h3 | rfl
          · exact h.zero j h1 h3
          · exact hz
        · cases rest with
          | nil => exact ⟨hi, fun j h1 h2 => h.lay.2 j (by omega) h2⟩
          | cons b bs =>
            obtain ⟨h1, h2, h3, h4⟩ := h.lay
            have : b.off ≠ i := by rintro rfl; have := h3.size; have := h3.pos; omega
            exact ⟨by omega, fun j h1 h5 => h2 j (by omega) h5, h3, h4⟩
      · rw [if_pos hz]
        obtain ⟨b, bs, rfl, rfl⟩ : ∃ b bs, rest = b :: bs ∧ b.off = i := by
          cases rest with
          | nil => exact absurd (h.lay.2 i (Nat.le_refl _) hi) hz
          | cons b bs =>
            refine ⟨b, bs, rfl, Decidable.byContradiction fun hne => hz (h.lay.2.1 i (Nat.le_refl _) ?_)⟩
            have := h.lay.1; omega
        obtain ⟨_, _, hb, hl⟩ := h.lay
        have hlen : b.len = b.data.length + 3 := rfl
        have haw : bs2ws p.W (p.mem b.off) + 3 = b.len := by rw [hb.size, ← hb.words]; rfl
        have hle := hl.le
        have hp : 0 < b.len := Nat.succ_pos _
        by_cases hh : hole = b.off
        · rw [if_pos hh, haw]
          have h' : DInv p (done ++ [b]) bs (b.off + b.len) (b.off + b.len) := by
            refine ⟨hh ▸ h.pk.snoc hh.symm, ?_, fun j h1 h2 => by omega, Nat.le_refl _, hl, by simpa using h.nodup, by simpa using h.car⟩
            intro x hx
            rcases List.mem_append.1 hx with hx | hx
            · exact h.at_ x hx
            · rw [List.mem_singleton] at hx; subst hx; exact hb
          have := ih h' (by omega)
          simpa using this
        · rw [if_neg hh]
          have hlt : hole < b.off := by have := h.le; omega
          by_cases hd : need ≤ b.off - hole
          · rw [if_pos hd]
            refine ⟨done ++ b :: bs, h.pinv, rfl, fun _ => ?_, rfl, rfl, rfl⟩
            rw [find_some_hole h (Or.inr ⟨b, bs, rfl, rfl⟩) hd hn]; rfl
          · rw [if_neg hd]
            have hm := h.move hlt
            have hcell : (((p.move hole b.off (bs2ws p.W (p.mem b.off) + 3)).clear (hole + bs2ws p.W (p.mem b.off) + 3)
                (b.off - hole)).set (hole + 1) (p.base + (hole + 3) * p.W)).mem (hole + 2) = b.cell := by
              simp only [Pool.move, Pool.clear, Pool.set]
              rw [if_neg (by omega), if_neg (by omega), if_pos (by omega), show hole + 2 - hole + b.off = b.off + 2 by omega]
              exact hb.cell
            rw [hcell, haw, show hole + bs2ws p.W (p.mem b.off) + 3 = hole + b.len by omega]
            obtain ⟨bs', e1, e2, e3, e4, e5, e6⟩ := ih hm (by show p.size - _ < f; omega)
            refine ⟨bs', e1, ?_, ?_, e4, e5, e6⟩
            · rw [e2]; simp [Blk.key]
            · intro h1
              refine e3 ?_
              show need + _ ≤ p.size
              simpa [total, Blk.len] using h1
    · rw [if_neg hi]
      have hrest : rest = [] := by
        cases rest with
        | nil => rfl
        | cons b bs => have := h.lay.2.2.2.le; have := h.lay.1; have : b.len = b.data.length + 3 := rfl; omega
      subst hrest
      refine ⟨done ++ [], h.pinv, rfl, fun h1 => ?_, rfl, rfl, rfl⟩
      have := h.pk.total
      have := h.lay.1
      rw [List.append_nil] at h1
      rw [find_some_hole h (Or.inl rfl) (by omega) hn]; rfl

theorem defrag_spec {p : Pool} {bs : List Blk} {bytes : Nat} (h : PInv p bs) :
    ∃ bs', PInv (defrag p bytes) bs' ∧ bs'.map Blk.key = bs.map Blk.key ∧
      (bs2ws p.W bytes + 3 + total bs ≤ p.size → (find p.size (bs2ws p.W bytes + 3) 0 bs').isSome = true) ∧
      (defrag p bytes).W = p.W ∧ (defrag p bytes).base = p.base ∧ (defrag p bytes).size = p.size := by
  have : DInv p [] bs 0 0 := ⟨rfl, by simp, fun j h1 h2 => by omega, Nat.le_refl _, h.lay, h.nodup, h.car⟩
  exact defragLoop_spec (by omega) _ this (by omega)

end Verif.Defrag
