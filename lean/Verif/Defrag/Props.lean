import Verif.Defrag.Hist

/-
C23 and C24. The statements use the specification in `Spec.lean` (a map from cells to arrays) and what a program can
observe: the size of an array, where its data is, and its words.
-/

namespace Verif.Defrag

/-- C23, contents: after every history of allocations (with the compactions they cause), deaths and writes, every live array has
the size it was allocated with and the contents last written (zero at first), whatever happened to the other arrays. -/
theorem C23_contents {W base nbytes : Nat} (hW : 0 < W) (hb : wordsFor W nbytes ≤ base / W) {p : Pool} {m : Store}
    (h : DHist W base nbytes p m) {c n : Nat} {d : List Nat} (hc : m c = some (n, d)) :
    arraySize p c = some n ∧ d.length = wordsFor W n ∧
      (∃ o, dataAt p c = some o ∧ o + d.length ≤ wordsFor W nbytes) ∧
      ∀ k, (hk : k < d.length) → readWord p c k = some d[k] := by
  obtain ⟨bs, hi⟩ := h.inv hW hb
  obtain ⟨pre, b, post, rfl, rfl, rfl, rfl⟩ := hi.get hc
  obtain ⟨_, hle, hB⟩ := hi.inv.lay.mem b (by simp)
  have hcar := hi.inv.car b (by simp)
  have hd := hB.dataAt (by rw [hi.W_]; exact hW) hcar
  have hl : b.len = b.data.length + 3 := rfl
  refine ⟨?_, ?_, ⟨_, hd, ?_⟩, ?_⟩
  · unfold arraySize; rw [hcar, Option.map_some, hB.size]
  · rw [wordsFor_eq hW, hB.words, hi.W_]
  · rw [wordsFor_eq hW, ← hi.size_]; omega
  · intro k hk
    unfold readWord
    rw [hd, Option.map_some, hB.data k hk]

theorem Lay.disjoint {p : Pool} : ∀ {bs : List Blk} {lo : Nat}, Lay p lo bs → ∀ a ∈ bs, ∀ b ∈ bs, a ≠ b →
    a.off + a.len ≤ b.off ∨ b.off + b.len ≤ a.off := by
  intro bs
  induction bs with
  | nil => intro _ _ a ha; cases ha
  | cons x bs ih =>
    intro lo h a ha b hb hab
    rcases List.mem_cons.1 ha with rfl | ha' <;> rcases List.mem_cons.1 hb with rfl | hb'
    · exact absurd rfl hab
    · exact Or.inl (h.2.2.2.mem b hb').1
    · exact Or.inr (h.2.2.2.mem a ha').1
    · exact ih h.2.2.2 a ha' b hb' hab

/-- C23, disjointness: the data of two live arrays do not overlap. -/
theorem C23_disjoint {W base nbytes : Nat} (hW : 0 < W) (hb : wordsFor W nbytes ≤ base / W) {p : Pool} {m : Store}
    (h : DHist W base nbytes p m) {c1 c2 n1 n2 : Nat} {d1 d2 : List Nat} (h1 : m c1 = some (n1, d1)) (h2 : m c2 = some (n2, d2))
    (hne : c1 ≠ c2) {o1 o2 : Nat} (ho1 : dataAt p c1 = some o1) (ho2 : dataAt p c2 = some o2) :
    o1 + d1.length ≤ o2 ∨ o2 + d2.length ≤ o1 := by
  obtain ⟨bs, hi⟩ := h.inv hW hb
  obtain ⟨b1, hb1, e1⟩ := List.mem_map.1 ((hi.rel c1 n1 d1).1 h1)
  obtain ⟨b2, hb2, e2⟩ := List.mem_map.1 ((hi.rel c2 n2 d2).1 h2)
  simp only [Blk.key, Prod.mk.injEq] at e1 e2
  obtain ⟨rfl, _, rfl⟩ := e1
  obtain ⟨rfl, _, rfl⟩ := e2
  have hW' : 0 < p.W := by rw [hi.W_]; exact hW
  rw [(hi.inv.lay.mem b1 hb1).2.2.dataAt hW' (hi.inv.car b1 hb1)] at ho1
  rw [(hi.inv.lay.mem b2 hb2).2.2.dataAt hW' (hi.inv.car b2 hb2)] at ho2
  cases ho1
  cases ho2
  have l1 : b1.len = b1.data.length + 3 := rfl
  have l2 : b2.len = b2.data.length + 3 := rfl
  rcases hi.inv.lay.disjoint b1 hb1 b2 hb2 (fun e => hne (by rw [e])) with h | h <;> omega

/-- Words that the arrays in `live` take, with a header of three words each. -/
def footprint (W : Nat) (m : Store) (live : List Nat) : Nat :=
  (live.map fun c => match m c with | some (n, _) => wordsFor W n + 3 | none => 0).sum

theorem sum_eq_of_mem {α : Type} [DecidableEq α] (f : α → Nat) : ∀ {l1 l2 : List α}, l1.Nodup → l2.Nodup → (∀ x, x ∈ l1 ↔ x ∈ l2) →
    (l1.map f).sum = (l2.map f).sum := by
  intro l1
  induction l1 with
  | nil =>
    intro l2 _ _ h
    cases l2 with
    | nil => rfl
    | cons x l2 => exact absurd ((h x).2 List.mem_cons_self) (by simp)
  | cons x l1 ih =>
    intro l2 h1 h2 h
    obtain ⟨pre, post, rfl⟩ := List.append_of_mem ((h x).1 List.mem_cons_self)
    obtain ⟨hx, h1⟩ := List.nodup_cons.1 h1
    have hp : (pre ++ x :: post).Perm (x :: (pre ++ post)) := List.perm_middle
    obtain ⟨hx2, h2⟩ := List.nodup_cons.1 (hp.nodup_iff.1 h2)
    have := ih h1 h2 (fun y => by
      have hy := h y
      rw [hp.mem_iff, List.mem_cons, List.mem_cons] at hy
      by_cases e : y = x
      · subst e; exact ⟨fun h => absurd h hx, fun h => absurd h hx2⟩
      · constructor
        · intro h; exact (hy.1 (Or.inr h)).resolve_left e
        · intro h; exact (hy.2 (Or.inr h)).resolve_left e)
    simp only [List.map_append, List.map_cons, List.sum_cons, List.sum_append] at this ⊢
    omega

theorem HInv.footprint {W base nbytes : Nat} (hW : 0 < W) {p : Pool} {m : Store} {bs : List Blk} (h : HInv W base nbytes p m bs)
    {live : List Nat} (hn : live.Nodup) (hl : ∀ c, c ∈ live ↔ m c ≠ none) : footprint W m live = total bs := by
  unfold Defrag.footprint
  rw [sum_eq_of_mem _ hn h.inv.nodup (fun c => by
    rw [hl c]
    constructor
    · intro hc
      obtain ⟨⟨n, d⟩, hc⟩ := Option.ne_none_iff_exists'.1 hc
      obtain ⟨b, hb, e⟩ := List.mem_map.1 ((h.rel c n d).1 hc)
      exact List.mem_map.2 ⟨b, hb, congrArg Prod.fst e⟩
    · intro hc
      obtain ⟨b, hb, rfl⟩ := List.mem_map.1 hc
      rw [(h.rel b.cell b.bytes b.data).2 (List.mem_map.2 ⟨b, hb, rfl⟩)]
      simp)]
  unfold total
  rw [List.map_map]
  congr 1
  refine List.map_congr_left (fun b hb => ?_)
  have hB := (h.inv.lay.mem b hb).2.2
  simp only [Function.comp_apply]
  rw [(h.rel b.cell b.bytes b.data).2 (List.mem_map.2 ⟨b, hb, rfl⟩)]
  simp only [Blk.len]
  rw [wordsFor_eq hW, hB.words, h.W_]

/-- C24: an allocation of a non-zero size, with heap cells available, succeeds exactly when the free words (those of the pool less
those of the live arrays with their headers) are enough for the data and the header, however the live arrays are scattered. -/
theorem C24_alloc_iff {W base nbytes : Nat} (hW : 0 < W) (hb : wordsFor W nbytes ≤ base / W) {p : Pool} {m : Store}
    (h : DHist W base nbytes p m) {live : List Nat} (hn : live.Nodup) (hl : ∀ c, c ∈ live ↔ m c ≠ none) {bytes c1 c2 : Nat}
    (hpos : 0 < bytes) (h1 : m c1 = none) (h2 : m c2 = none) :
    (∃ p' c, alloc p bytes (some c1) (some c2) = (p', .cell c)) ↔
      wordsFor W bytes + 3 + footprint W m live ≤ wordsFor W nbytes := by
  obtain ⟨bs, hi⟩ := h.inv hW hb
  have hs : Sane p := ⟨by rw [hi.W_]; exact hW, by rw [hi.size_, hi.base_, hi.W_, ← wordsFor_eq hW]; exact hb⟩
  obtain ⟨bs', p', r, e, _, _, _, _, hok, hno⟩ := alloc_spec (bytes := bytes) (c1 := some c1) (c2 := some c2) hi.inv hs hi.rel
    (fun x e => by cases e; exact h1) (fun x e => by cases e; exact h2)
  rw [hi.footprint hW hn hl, wordsFor_eq hW, wordsFor_eq hW, ← hi.size_, e, ← hi.W_]
  constructor
  · rintro ⟨_, c, e⟩
    cases e
    exact (hok c rfl).2.1
  · intro hle
    cases r with
    | cell c => exact ⟨_, c, rfl⟩
    | eerror => exact absurd ((hno (fun c e => by cases e)).2 hpos rfl rfl) (by omega)
    | merror => exact absurd ((hno (fun c e => by cases e)).2 hpos rfl rfl) (by omega)

/-- C24: the cell that a successful allocation returns is one of those the heap handed out. -/
theorem C24_alloc_cell {W base nbytes : Nat} (hW : 0 < W) (hb : wordsFor W nbytes ≤ base / W) {p p' : Pool} {m : Store}
    (h : DHist W base nbytes p m) {bytes c : Nat} {c1 c2 : Option Nat} (h1 : Fresh m c1) (h2 : Fresh m c2)
    (e : alloc p bytes c1 c2 = (p', .cell c)) : (c1 = some c ∨ c2 = some c) ∧ m c = none := by
  obtain ⟨bs, hi⟩ := h.inv hW hb
  have hs : Sane p := ⟨by rw [hi.W_]; exact hW, by rw [hi.size_, hi.base_, hi.W_, ← wordsFor_eq hW]; exact hb⟩
  obtain ⟨bs', p', r, e', _, _, _, _, hok, _⟩ := alloc_spec (bytes := bytes) hi.inv hs hi.rel h1 h2
  rw [e] at e'
  cases e'
  have := (hok c rfl).2.2.1
  exact ⟨this, this.elim (h1 c) (h2 c)⟩

/-! ### A concrete history -/

/-- Three arrays in a pool of 16 words; the middle one dies. -/
def demo : Pool :=
  free (alloc (writeWord (alloc (alloc (create 4 1000 64) 8 (some 1) (some 1)).1 5 (some 2) (some 2)).1 2 1 7) 4 (some 3) (some 3)).1 1

/-- What the program expects then. -/
def demoStore : Store :=
  upd (upd (upd (upd (upd (fun _ => none) 1 (some (8, List.replicate (wordsFor 4 8) 0))) 2 (some (5, List.replicate (wordsFor 4 5) 0)))
    2 (some (5, (List.replicate (wordsFor 4 5) 0).set 1 7))) 3 (some (4, List.replicate (wordsFor 4 4) 0))) 1 none

theorem demo_hist : DHist 4 1000 64 demo demoStore := by
  have h1 := DHist.alloc (c := 1) (bytes := 8) (c1 := some 1) (c2 := some 1) (DHist.create (W := 4) (base := 1000) (nbytes := 64)) (fun x e => by cases e; rfl) (fun x e => by cases e; rfl) rfl
  have h2 := DHist.alloc (c := 2) (bytes := 5) (c1 := some 2) (c2 := some 2) h1 (fun x e => by cases e; rfl) (fun x e => by cases e; rfl) rfl
  have h3 := DHist.write (c := 2) (k := 1) (w := 7) h2 rfl (by decide)
  have h4 := DHist.alloc (c := 3) (bytes := 4) (c1 := some 3) (c2 := some 3) h3 (fun x e => by cases e; rfl) (fun x e => by cases e; rfl) rfl
  exact DHist.free (c := 1) h4 (by decide)

/-- The hypotheses of C23 and C24 are met by that history: array 2 holds what was written. -/
example : demoStore 2 = some (5, [0, 7]) ∧ readWord demo 2 1 = some 7 ∧ arraySize demo 2 = some 5 ∧ wordsFor 4 64 ≤ 1000 / 4 := by
  decide

/-- There are two holes, of five and of two words; neither is enough for the seven words of an array of 16 bytes. The
allocation compacts the pool; array 2 moves, keeps its contents, and the allocation succeeds. -/
example : (alloc demo 16 (some 5) (some 6)).2 = .cell 6 ∧ dataAt demo 2 = some 8 ∧ dataAt (alloc demo 16 (some 5) (some 6)).1 2 = some 3 ∧
    readWord (alloc demo 16 (some 5) (some 6)).1 2 1 = some 7 ∧ footprint 4 demoStore [2, 3] = 9 ∧ (alloc demo 20 (some 5) (some 6)).2 = .merror := by
  decide

/-- The search alone looks only at the first hole: it passes over a later hole that is big enough. Only the compaction that
follows makes the allocation succeed. -/
theorem C24_search_only_first_hole : ∃ (p : Pool) (m : Store), DHist 4 1000 80 p m ∧ (allocInternal p 8 (some 5)).2 = .merror ∧
    (∀ j < 7, p.mem (13 + j) = 0) ∧ (alloc p 8 (some 5) (some 6)).2 = .cell 6 := by
  have h1 := DHist.alloc (c := 1) (bytes := 4) (c1 := some 1) (c2 := some 1) (DHist.create (W := 4) (base := 1000) (nbytes := 80)) (fun x e => by cases e; rfl) (fun x e => by cases e; rfl) rfl
  have h2 := DHist.alloc (c := 2) (bytes := 24) (c1 := some 2) (c2 := some 2) h1 (fun x e => by cases e; rfl) (fun x e => by cases e; rfl) rfl
  have h3 := DHist.free (c := 1) h2 (by decide)
  exact ⟨_, _, h3, by decide, by decide, by decide⟩

/-- C23 fails when the pool itself is collected: arrays do not keep their pool alive. The sweep that frees the pool
turns the cells of its live arrays into (nil . nil), so that a later access to such an array, which the program still holds, goes
through a null header. -/
theorem C23_pool_collected_violated : ∃ (p : Pool) (m : Store), DHist 4 1000 64 p m ∧ m 2 = some (5, [0, 7]) ∧
    arraySize p 2 = some 5 ∧ arraySize (destroy p) 2 = none :=
  ⟨demo, demoStore, demo_hist, by decide, by decide, by decide⟩

end Verif.Defrag
