import Verif.Defrag.Compact

namespace Verif.Defrag

theorem find_zero {p : Pool} {need a : Nat} : ∀ {bs : List Blk} {lo : Nat}, Lay p lo bs → find p.size need lo bs = some a →
    a + need ≤ p.size ∧ ∀ j, a ≤ j → j < a + need → p.mem j = 0 := by
  intro bs
  induction bs with
  | nil =>
    intro lo h hf
    simp only [find] at hf
    split at hf
    · cases hf; have := h.1; exact ⟨by omega, fun j h1 h2 => h.2 j h1 (by omega)⟩
    · cases hf
  | cons b bs ih =>
    rintro lo ⟨h1, h2, h3, h4⟩ hf
    simp only [find] at hf
    split at hf
    · exact ih h4 hf
    · split at hf
      · cases hf; have := h4.le; exact ⟨by omega, fun j h5 h6 => h2 j h5 (by omega)⟩
      · cases hf

theorem Lay.same {p q : Pool} {bs : List Blk} {lo : Nat} (h : Lay p lo bs) (hm : p.mem = q.mem) (hW : p.W = q.W)
    (hb : p.base = q.base) (hs : p.size = q.size) : Lay q lo bs :=
  Lay.congr hW.symm hb.symm hs.symm (fun j _ _ => by rw [hm]) h

/-- The address range of the pool does not overlap the numbers below its size, so that no pointer into it can be taken for a
small size. -/
structure Sane (p : Pool) : Prop where
  W : 0 < p.W
  base : p.size ≤ p.base / p.W

theorem allocInternal_ok {p : Pool} {bs : List Blk} {bytes c : Nat} (h : PInv p bs) (hs : Sane p) (hb : 0 < bytes)
    (hc : ∀ b ∈ bs, b.cell ≠ c) :
    (∃ a pre post p', find p.size (bs2ws p.W bytes + 3) 0 bs = some a ∧ allocInternal p bytes (some c) = (p', .cell c) ∧ bs = pre ++ post ∧
      PInv p' (pre ++ ⟨a, c, bytes, List.replicate (bs2ws p.W bytes) 0⟩ :: post) ∧ p'.W = p.W ∧ p'.base = p.base ∧ p'.size = p.size) ∨
    (find p.size (bs2ws p.W bytes + 3) 0 bs = none ∧ ∃ p', allocInternal p bytes (some c) = (p', .merror) ∧ PInv p' bs ∧
      p'.flags = true ∧ p'.W = p.W ∧ p'.base = p.base ∧ p'.size = p.size) := by
  have hscan := scan_spec (need := bs2ws p.W bytes + 3) hs.W hs.base (by omega) (f := p.size + 1) (fw := 0) (fs := 0) h.lay (by omega)
  unfold allocInternal
  rw [if_neg (by omega)]
  dsimp only
  rw [hscan]
  cases hf : find p.size (bs2ws p.W bytes + 3) 0 bs with
  | none =>
    refine Or.inr ⟨rfl, _, rfl, ⟨h.lay.same rfl rfl rfl rfl, h.nodup, ?_⟩, rfl, rfl, rfl, rfl⟩
    intro b hb
    simp only [Pool.setCar]
    rw [if_neg (hc b hb)]; exact h.car b hb
  | some a =>
    obtain ⟨hle, hz⟩ := find_zero h.lay hf
    have hlen : (⟨a, c, bytes, List.replicate (bs2ws p.W bytes) 0⟩ : Blk).len = bs2ws p.W bytes + 3 := by simp [Blk.len]
    have hB : BlockAt ((((p.set a bytes).set (a + 1) (p.base + (a + 3) * p.W)).set (a + 2) c).setCar c (some a))
        ⟨a, c, bytes, List.replicate (bs2ws p.W bytes) 0⟩ := by
      refine ⟨?_, ?_, ?_, ?_, by simp [Pool.set, Pool.setCar], hb⟩
      · simp only [Pool.set, Pool.setCar]
        simp
      · simp only [Pool.set, Pool.setCar]
        simp
      · simp only [Pool.set, Pool.setCar, if_pos]
      · intro k hk
        simp only [List.length_replicate] at hk
        simp only [Pool.set, Pool.setCar, List.getElem_replicate]
        rw [if_neg (by omega), if_neg (by omega), if_neg (by omega)]
        exact hz _ (by omega) (by omega)
    obtain ⟨pre, post, e, hl, _, _⟩ := find_insert (p := p) (by rfl) (by rfl) (by rfl) hB (by
        intro j hj
        rw [hlen] at hj
        dsimp only at hj
        simp only [Pool.set, Pool.setCar]
        rw [if_neg (by omega), if_neg (by omega), if_neg (by omega)]) h.lay (by rw [hlen]; exact hf)
    refine Or.inl ⟨a, pre, post, _, rfl, rfl, e, ⟨hl, ?_, ?_⟩, rfl, rfl, rfl⟩
    · have hp : (pre ++ (⟨a, c, bytes, List.replicate (bs2ws p.W bytes) 0⟩ : Blk) :: post).Perm
          (⟨a, c, bytes, List.replicate (bs2ws p.W bytes) 0⟩ :: bs) := by rw [e]; exact List.perm_middle
      refine (hp.map (·.cell)).nodup_iff.2 (List.nodup_cons.2 ⟨?_, h.nodup⟩)
      intro hm
      obtain ⟨b, hb, hbc⟩ := List.mem_map.1 hm
      exact hc b hb hbc
    · intro b hb
      have hb' : b = ⟨a, c, bytes, List.replicate (bs2ws p.W bytes) 0⟩ ∨ b ∈ bs := by
        rw [e]; simp only [List.mem_append, List.mem_cons] at hb ⊢
        rcases hb with h1 | h1 | h1
        · exact Or.inr (Or.inl h1)
        · exact Or.inl h1
        · exact Or.inr (Or.inr h1)
      simp only [Pool.set, Pool.setCar]
      rcases hb' with rfl | hb'
      · rw [if_pos rfl]
      · rw [if_neg (hc b hb')]; exact h.car b hb'

/-- The store that the blocks represent. -/
def Rel (m : Store) (bs : List Blk) : Prop := ∀ c n d, m c = some (n, d) ↔ (c, n, d) ∈ bs.map Blk.key

theorem Rel.fresh {m : Store} {bs : List Blk} (h : Rel m bs) {c : Nat} (hc : m c = none) : ∀ b ∈ bs, b.cell ≠ c := by
  intro b hb e
  have := (h b.cell b.bytes b.data).2 (List.mem_map.2 ⟨b, hb, rfl⟩)
  rw [e, hc] at this
  cases this

theorem key_cells {bs bs' : List Blk} (h : bs'.map Blk.key = bs.map Blk.key) : bs'.map (·.cell) = bs.map (·.cell) := by
  have := congrArg (List.map Prod.fst) h
  simpa [Blk.key, Function.comp_def] using this

theorem key_total {bs bs' : List Blk} (h : bs'.map Blk.key = bs.map Blk.key) : total bs' = total bs := by
  have := congrArg (fun l => (l.map fun x : Nat × Nat × List Nat => x.2.2.length + 3).sum) h
  simp only [Blk.key, List.map_map, Function.comp_def] at this
  exact this

theorem Rel.insert {m : Store} {pre post : List Blk} {nb : Blk} (h : Rel m (pre ++ post)) (hc : m nb.cell = none) :
    Rel (upd m nb.cell (some (nb.bytes, nb.data))) (pre ++ nb :: post) := by
  intro c n d
  have h1 : (c, n, d) ∈ (pre ++ nb :: post).map Blk.key ↔ (c, n, d) = nb.key ∨ (c, n, d) ∈ (pre ++ post).map Blk.key := by
    simp only [List.map_append, List.map_cons, List.mem_append, List.mem_cons]
    constructor
    · rintro (h | h | h)
      · exact Or.inr (Or.inl h)
      · exact Or.inl h
      · exact Or.inr (Or.inr h)
    · rintro (h | h | h)
      · exact Or.inr (Or.inl h)
      · exact Or.inl h
      · exact Or.inr (Or.inr h)
  rw [h1, ← h c n d]
  unfold upd
  by_cases e : c = nb.cell
  · subst e
    rw [if_pos rfl, hc]
    simp only [Blk.key, Option.some.injEq, Prod.mk.injEq, true_and]
    constructor
    · rintro ⟨rfl, rfl⟩; exact Or.inl ⟨rfl, rfl⟩
    · rintro (⟨rfl, rfl⟩ | h)
      · exact ⟨rfl, rfl⟩
      · cases h
  · rw [if_neg e]
    constructor
    · exact Or.inr
    · rintro (h | h)
      · exact absurd (congrArg Prod.fst h) e
      · exact h

theorem alloc_zero (p : Pool) (c1 c2 : Option Nat) : alloc p 0 c1 c2 = (p, .eerror) := by
  simp [alloc, allocInternal]

/-- Allocation: the outcome, and the blocks afterwards. -/
theorem alloc_spec {p : Pool} {bs : List Blk} {bytes : Nat} {m : Store} {c1 c2 : Option Nat} (h : PInv p bs) (hs : Sane p)
    (hm : Rel m bs) (hc1 : Fresh m c1) (hc2 : Fresh m c2) :
    ∃ bs' p' r, alloc p bytes c1 c2 = (p', r) ∧ PInv p' bs' ∧ p'.W = p.W ∧ p'.base = p.base ∧ p'.size = p.size ∧
      (∀ c, r = .cell c → 0 < bytes ∧ bs2ws p.W bytes + 3 + total bs ≤ p.size ∧ (c1 = some c ∨ c2 = some c) ∧
        Rel (upd m c (some (bytes, List.replicate (bs2ws p.W bytes) 0))) bs') ∧
      ((∀ c, r ≠ .cell c) → Rel m bs' ∧
        (0 < bytes → c1.isSome → c2.isSome → p.size < bs2ws p.W bytes + 3 + total bs)) := by
  by_cases hb : bytes = 0
  · subst hb
    exact ⟨bs, p, _, alloc_zero .., h, rfl, rfl, rfl, (fun c e => by cases e), fun _ => ⟨hm, fun h => absurd h (by omega)⟩⟩
  have hb : 0 < bytes := by omega
  -- one attempt
  have one : ∀ {p : Pool} {bs : List Blk} {x : Nat}, PInv p bs → Sane p → Rel m bs → m x = none →
      (∃ p' bs', allocInternal p bytes (some x) = (p', .cell x) ∧ PInv p' bs' ∧ p'.W = p.W ∧ p'.base = p.base ∧ p'.size = p.size ∧
        bs2ws p.W bytes + 3 + total bs ≤ p.size ∧ Rel (upd m x (some (bytes, List.replicate (bs2ws p.W bytes) 0))) bs') ∨
      (find p.size (bs2ws p.W bytes + 3) 0 bs = none ∧ ∃ p', allocInternal p bytes (some x) = (p', .merror) ∧ PInv p' bs ∧
        p'.flags = true ∧ p'.W = p.W ∧ p'.base = p.base ∧ p'.size = p.size) := by
    intro p bs x h hs hm hx
    rcases allocInternal_ok h hs hb (hm.fresh hx) with ⟨a, pre, post, p', _, e, rfl, hp, hW, hB, hS⟩ | hr
    · refine Or.inl ⟨p', _, e, hp, hW, hB, hS, ?_, Rel.insert (nb := ⟨a, x, bytes, List.replicate (bs2ws p.W bytes) 0⟩) hm hx⟩
      have := hp.lay.total_le
      rw [total_append] at this ⊢
      simp only [total, List.map_cons, List.sum_cons, Blk.len, List.length_replicate] at this ⊢
      omega
    · exact Or.inr hr
  -- the second attempt
  have two : ∀ {q : Pool}, PInv q bs → q.W = p.W → q.base = p.base → q.size = p.size → ∃ bs' p' r,
      (let r2 := allocInternal (defrag q bytes) bytes c2; (({ r2.1 with flags := false } : Pool), r2.2)) = (p', r) ∧
      PInv p' bs' ∧ p'.W = p.W ∧ p'.base = p.base ∧ p'.size = p.size ∧
      (∀ c, r = .cell c → 0 < bytes ∧ bs2ws p.W bytes + 3 + total bs ≤ p.size ∧ (c1 = some c ∨ c2 = some c) ∧
        Rel (upd m c (some (bytes, List.replicate (bs2ws p.W bytes) 0))) bs') ∧
      ((∀ c, r ≠ .cell c) → Rel m bs' ∧
        (0 < bytes → c1.isSome → c2.isSome → p.size < bs2ws p.W bytes + 3 + total bs)) := by
    intro q hq hW hB hS
    obtain ⟨bs', hp, hk, hf, hW', hB', hS'⟩ := defrag_spec (bytes := bytes) hq
    have hs' : Sane (defrag q bytes) := ⟨by rw [hW', hW]; exact hs.W, by rw [hS', hB', hW', hS, hB, hW]; exact hs.base⟩
    have hm' : Rel m bs' := fun c n d => by rw [hm c n d, hk]
    cases c2 with
    | none =>
      refine ⟨bs', { defrag q bytes with flags := false }, .merror, ?_, ?_, hW'.trans hW, hB'.trans hB, hS'.trans hS, (fun c e => by cases e),
        fun _ => ⟨hm', (fun _ _ h => by cases h)⟩⟩
      · simp only [allocInternal]; rw [if_neg (by omega)]
      · exact ⟨hp.lay.same rfl rfl rfl rfl, hp.nodup, hp.car⟩
    | some x =>
      rcases one hp hs' hm' (hc2 x rfl) with ⟨p', bs'', e, hp', h1, h2, h3, h4, h5⟩ | ⟨hfn, p', e, hp', _, h1, h2, h3⟩
      · refine ⟨bs'', { p' with flags := false }, .cell x, by simp only [e],
          ⟨hp'.lay.same rfl rfl rfl rfl, hp'.nodup, hp'.car⟩,
          h1.trans (hW'.trans hW), h2.trans (hB'.trans hB), h3.trans (hS'.trans hS), ?_, fun h => absurd rfl (h x)⟩
        intro c ec
        cases ec
        rw [hW', hW, hS', hS, key_total hk] at h4
        rw [hW', hW] at h5
        exact ⟨hb, h4, Or.inr rfl, h5⟩
      · refine ⟨bs', { p' with flags := false }, .merror, by simp only [e],
          ⟨hp'.lay.same rfl rfl rfl rfl, hp'.nodup, hp'.car⟩,
          h1.trans (hW'.trans hW), h2.trans (hB'.trans hB), h3.trans (hS'.trans hS), (fun c e => by cases e), fun _ => ⟨hm', fun _ _ _ => ?_⟩⟩
        rw [hS', hW', hW, hS] at hfn
        rw [hW, hS, hfn] at hf
        exact Decidable.byContradiction fun hlt => by cases hf (by omega)
  unfold alloc
  dsimp only
  cases c1 with
  | none =>
    have e : allocInternal p bytes none = (p, .merror) := by simp only [allocInternal]; rw [if_neg (by omega)]
    rw [e]
    simp only [if_true]
    by_cases hfl : p.flags = true
    · rw [if_pos hfl]; exact two h rfl rfl rfl
    · rw [if_neg hfl]
      exact ⟨bs, p, _, rfl, h, rfl, rfl, rfl, (fun c e => by cases e), fun _ => ⟨hm, (fun _ h => by cases h)⟩⟩
  | some x =>
    rcases one h hs hm (hc1 x rfl) with ⟨p', bs', e, hp, h1, h2, h3, h4, h5⟩ | ⟨_, p', e, hp, hfl, h1, h2, h3⟩
    · rw [e]
      refine ⟨bs', p', .cell x, by simp, hp, h1, h2, h3, ?_, fun h => absurd rfl (h x)⟩
      intro c ec; cases ec
      exact ⟨hb, h4, Or.inl rfl, h5⟩
    · rw [e]
      simp only [if_true, hfl]
      exact two hp h1 h2 h3

/-! ### Death and writes -/

theorem Lay.clear {p : Pool} {b : Blk} : ∀ {pre post : List Blk} {lo : Nat}, Lay p lo (pre ++ b :: post) →
    Lay (p.clear b.off b.len) lo (pre ++ post) := by
  intro pre
  induction pre with
  | nil =>
    rintro post lo ⟨h1, h2, h3, h4⟩
    refine Lay.lower (hi := b.off + b.len) ?_ (by omega) ?_
    · refine Lay.congr (p := p) ?_ ?_ ?_ (fun j hj _ => ?_) h4
      · rfl
      · rfl
      · rfl
      · simp only [Pool.clear]; rw [if_neg (by omega)]
    · intro j hj hj'
      simp only [Pool.clear]
      split
      · rfl
      · exact h2 j hj (by omega)
  | cons x pre ih =>
    rintro post lo ⟨h1, h2, h3, h4⟩
    have hb := (h4.mem b (by simp)).1
    refine ⟨h1, fun j hj hj' => ?_, ?_, ih h4⟩
    · simp only [Pool.clear]; rw [if_neg (by omega)]; exact h2 j hj hj'
    · refine BlockAt.congr ?_ ?_ (fun j hj hj' => ?_) h3
      · rfl
      · rfl
      · simp only [Pool.clear]; rw [if_neg (by omega)]

theorem BlockAt.dataAt {p : Pool} {b : Blk} (hW : 0 < p.W) (h : BlockAt p b) (hc : p.car b.cell = some b.off) :
    dataAt p b.cell = some (b.off + 3) := by
  unfold Defrag.dataAt
  rw [hc, Option.map_some, h.ptr, Nat.add_sub_cancel_left, Nat.mul_div_cancel _ hW]

theorem Lay.write {p : Pool} {b : Blk} {k w : Nat} (hk : k < b.data.length) : ∀ {pre post : List Blk} {lo : Nat},
    Lay p lo (pre ++ b :: post) →
    Lay (p.set (b.off + 3 + k) w) lo (pre ++ { b with data := b.data.set k w } :: post) := by
  have hlen : b.len = b.data.length + 3 := rfl
  have hlen' : ({ b with data := b.data.set k w } : Blk).len = b.len := by simp [Blk.len]
  intro pre
  induction pre with
  | nil =>
    rintro post lo ⟨h1, h2, h3, h4⟩
    refine ⟨h1, fun j hj hj' => ?_, ?_, ?_⟩
    · dsimp only at hj'
      simp only [Pool.set]; rw [if_neg (by omega)]; exact h2 j hj hj'
    · refine ⟨?_, ?_, ?_, ?_, by simpa [Pool.set] using h3.words, h3.pos⟩
      · simp only [Pool.set]; rw [if_neg (by omega)]; exact h3.size
      · simp only [Pool.set]; rw [if_neg (by omega)]; exact h3.ptr
      · simp only [Pool.set]; rw [if_neg (by omega)]; exact h3.cell
      · intro i hi
        simp only [List.length_set] at hi
        simp only [Pool.set, List.getElem_set]
        by_cases e : k = i
        · subst e; rw [if_pos rfl, if_pos rfl]
        · rw [if_neg (by omega), if_neg e]; exact h3.data i hi
    · rw [hlen']
      refine Lay.congr (p := p) ?_ ?_ ?_ (fun j hj _ => ?_) h4
      · rfl
      · rfl
      · rfl
      · simp only [Pool.set]
        dsimp only at hj
        rw [if_neg (by omega)]
  | cons x pre ih =>
    rintro post lo ⟨h1, h2, h3, h4⟩
    have hb := (h4.mem b (by simp)).1
    have hx : 0 < x.len := Nat.succ_pos _
    refine ⟨h1, fun j hj hj' => ?_, ?_, ih h4⟩
    · simp only [Pool.set]; rw [if_neg (by omega)]; exact h2 j hj hj'
    · refine BlockAt.congr ?_ ?_ (fun j hj hj' => ?_) h3
      · rfl
      · rfl
      · simp only [Pool.set]; rw [if_neg (by omega)]

/-- What holds after every history. -/
structure HInv (W base nbytes : Nat) (p : Pool) (m : Store) (bs : List Blk) : Prop where
  inv : PInv p bs
  rel : Rel m bs
  W_ : p.W = W
  base_ : p.base = base
  size_ : p.size = bs2ws W nbytes

theorem HInv.get {W base nbytes : Nat} {p : Pool} {m : Store} {bs : List Blk} (h : HInv W base nbytes p m bs) {c n : Nat} {d : List Nat}
    (hc : m c = some (n, d)) : ∃ pre b post, bs = pre ++ b :: post ∧ b.cell = c ∧ b.bytes = n ∧ b.data = d := by
  obtain ⟨b, hb, e⟩ := List.mem_map.1 ((h.rel c n d).1 hc)
  obtain ⟨pre, post, rfl⟩ := List.append_of_mem hb
  simp only [Blk.key, Prod.mk.injEq] at e
  exact ⟨pre, b, post, rfl, e.1, e.2.1, e.2.2⟩

theorem wordsFor_eq {W : Nat} (hW : 0 < W) (n : Nat) : wordsFor W n = bs2ws W n := by
  unfold wordsFor bs2ws
  have h := Nat.div_add_mod n W
  split
  · next h0 =>
    have : n + W - 1 = W - 1 + W * (n / W) := by omega
    rw [this, Nat.add_mul_div_left _ _ hW, Nat.div_eq_of_lt (by omega)]; omega
  · next h0 =>
    have hlt := Nat.mod_lt n hW
    have : n + W - 1 = (n % W - 1) + W * (n / W + 1) := by rw [Nat.mul_add]; omega
    rw [this, Nat.add_mul_div_left _ _ hW, Nat.div_eq_of_lt (by omega)]; omega

theorem mem_key_iff {bs : List Blk} {c n : Nat} {d : List Nat} :
    (c, n, d) ∈ bs.map Blk.key ↔ ∃ b ∈ bs, b.cell = c ∧ b.bytes = n ∧ b.data = d := by
  simp [List.mem_map, Blk.key]

theorem Rel.replace {m : Store} {pre post : List Blk} {b nb : Blk} (h : Rel m (pre ++ b :: post))
    (hn : ((pre ++ b :: post).map (·.cell)).Nodup) (hc : nb.cell = b.cell) :
    Rel (upd m b.cell (some (nb.bytes, nb.data))) (pre ++ nb :: post) ∧ Rel (upd m b.cell none) (pre ++ post) := by
  have hnd : ∀ x ∈ pre ++ post, x.cell ≠ b.cell := by
    have hp : ((pre ++ b :: post).map (·.cell)).Perm ((b :: (pre ++ post)).map (·.cell)) := List.perm_middle.map _
    have := (List.nodup_cons.1 (hp.nodup_iff.1 hn)).1
    exact fun x hx e => this (List.mem_map.2 ⟨x, hx, e⟩)
  have h2 : Rel (upd m b.cell none) (pre ++ post) := by
    intro c n d
    unfold upd
    rw [mem_key_iff]
    by_cases e : c = b.cell
    · subst e
      rw [if_pos rfl]
      exact ⟨(fun h => by cases h), fun ⟨x, hx, hxc, _⟩ => absurd hxc (hnd x hx)⟩
    · rw [if_neg e, h c n d, mem_key_iff]
      constructor
      · rintro ⟨x, hx, rfl, hx2⟩
        refine ⟨x, ?_, rfl, hx2⟩
        simp only [List.mem_append, List.mem_cons] at hx ⊢
        rcases hx with h | rfl | h
        · exact Or.inl h
        · exact absurd rfl e
        · exact Or.inr h
      · rintro ⟨x, hx, hx2⟩
        refine ⟨x, ?_, hx2⟩
        simp only [List.mem_append, List.mem_cons] at hx ⊢
        rcases hx with h | h
        · exact Or.inl h
        · exact Or.inr (Or.inr h)
  refine ⟨?_, h2⟩
  have h3 := Rel.insert (nb := nb) h2 (by rw [hc]; unfold upd; rw [if_pos rfl])
  have : upd (upd m b.cell none) nb.cell (some (nb.bytes, nb.data)) = upd m b.cell (some (nb.bytes, nb.data)) := by
    funext x; unfold upd; rw [hc]; split <;> rfl
  rwa [this] at h3

theorem DHist.inv {W base nbytes : Nat} (hW : 0 < W) (hb : wordsFor W nbytes ≤ base / W) {p : Pool} {m : Store}
    (h : DHist W base nbytes p m) : ∃ bs, HInv W base nbytes p m bs := by
  rw [wordsFor_eq hW] at hb
  have sane : ∀ {p m bs}, HInv W base nbytes p m bs → Sane p :=
    fun h => ⟨by rw [h.W_]; exact hW, by rw [h.size_, h.base_, h.W_]; exact hb⟩
  induction h with
  | create =>
    exact ⟨[], ⟨⟨Nat.zero_le _, fun _ _ _ => rfl⟩, List.nodup_nil, (fun b h => by cases h)⟩, fun c n d => by simp, rfl, rfl, rfl⟩
  | alloc _ h1 h2 e ih =>
    obtain ⟨bs, ih⟩ := ih
    obtain ⟨bs', p', r, e', hp, hW', hB, hS, hok, _⟩ := alloc_spec ih.inv (sane ih) ih.rel h1 h2
    rw [e] at e'
    cases e'
    refine ⟨bs', hp, ?_, hW'.trans ih.W_, hB.trans ih.base_, hS.trans ih.size_⟩
    have := (hok _ rfl).2.2.2
    rwa [ih.W_, ← wordsFor_eq hW] at this
  | allocFails _ h1 h2 e hne ih =>
    obtain ⟨bs, ih⟩ := ih
    obtain ⟨bs', p', r, e', hp, hW', hB, hS, _, hno⟩ := alloc_spec ih.inv (sane ih) ih.rel h1 h2
    rw [e] at e'
    cases e'
    exact ⟨bs', hp, (hno hne).1, hW'.trans ih.W_, hB.trans ih.base_, hS.trans ih.size_⟩
  | @free p m c _ hc ih =>
    obtain ⟨bs, ih⟩ := ih
    obtain ⟨⟨n, d⟩, hc⟩ := Option.ne_none_iff_exists'.1 hc
    obtain ⟨pre, b, post, rfl, rfl, rfl, rfl⟩ := ih.get hc
    have hm := ih.inv.lay.mem b (by simp)
    have hcar := ih.inv.car b (by simp)
    have e : Defrag.free p b.cell = p.clear b.off b.len := by
      unfold Defrag.free
      rw [hcar]
      dsimp only
      rw [hm.2.2.size, ← hm.2.2.words, Nat.add_comm]; rfl
    rw [e]
    refine ⟨pre ++ post, ⟨ih.inv.lay.clear, ?_, ?_⟩, (ih.rel.replace (nb := b) ih.inv.nodup rfl).2, ih.W_, ih.base_, ih.size_⟩
    · have hp : ((pre ++ b :: post).map (·.cell)).Perm ((b :: (pre ++ post)).map (·.cell)) := List.perm_middle.map _
      exact (List.nodup_cons.1 (hp.nodup_iff.1 ih.inv.nodup)).2
    · intro x hx
      refine ih.inv.car x ?_
      simp only [List.mem_append, List.mem_cons] at hx ⊢
      rcases hx with h | h
      · exact Or.inl h
      · exact Or.inr (Or.inr h)
  | @write p m c k w n d _ hc hk ih =>
    obtain ⟨bs, ih⟩ := ih
    obtain ⟨pre, b, post, rfl, rfl, rfl, rfl⟩ := ih.get hc
    have hm := ih.inv.lay.mem b (by simp)
    have hcar := ih.inv.car b (by simp)
    have e : writeWord p b.cell k w = p.set (b.off + 3 + k) w := by
      unfold writeWord
      rw [hm.2.2.dataAt (sane ih).W hcar]
    rw [e]
    refine ⟨_, ⟨ih.inv.lay.write hk, ?_, ?_⟩, (ih.rel.replace (nb := { b with data := b.data.set k w }) ih.inv.nodup rfl).1, ih.W_, ih.base_, ih.size_⟩
    · simpa using ih.inv.nodup
    · intro x hx
      show p.car x.cell = _
      simp only [List.mem_append, List.mem_cons] at hx
      rcases hx with h | rfl | h
      · exact ih.inv.car x (by simp [h])
      · exact hcar
      · exact ih.inv.car x (by simp [h])

end Verif.Defrag
