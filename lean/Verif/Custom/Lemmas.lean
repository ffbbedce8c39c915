import Verif.Custom.Spec
import Verif.Heap.Props

/-
The invariant of the histories of custom values.
-/

namespace Verif.Custom

open Verif.Heap

section Flat

variable {α : Type} [BEq α] [LawfulBEq α]

theorem flat_congr {f g : Nat → List α} : ∀ {n : Nat}, (∀ j < n, g j = f j) →
    (List.range n).flatMap g = (List.range n).flatMap f := by
  intro n
  induction n with
  | zero => intro _; rfl
  | succ n ih =>
    intro h
    rw [List.range_succ, List.flatMap_append, List.flatMap_append, ih fun j hj => h j (by omega)]
    simp [h n (by omega)]

theorem flat_nil (n : Nat) : ((List.range n).flatMap fun _ => ([] : List α)) = [] := by
  induction n with
  | zero => rfl
  | succ n ih => rw [List.range_succ, List.flatMap_append, ih]; rfl

/-- Changing one entry of a list of lists changes the counts by that entry. -/
theorem count_flat_set {f g : Nat → List α} {i : Nat} (hne : ∀ j, j ≠ i → g j = f j) (x : α) : ∀ n, i < n →
    ((List.range n).flatMap g).count x + (f i).count x = ((List.range n).flatMap f).count x + (g i).count x := by
  intro n
  induction n with
  | zero => intro h; omega
  | succ n ih =>
    intro hi
    rw [List.range_succ, List.flatMap_append, List.flatMap_append, List.count_append, List.count_append]
    simp only [List.flatMap_cons, List.flatMap_nil, List.append_nil]
    by_cases h : i = n
    · subst h
      have : ∀ m, m ≤ i → (List.range m).flatMap g = (List.range m).flatMap f := by
        intro m hm
        exact flat_congr fun j hj => hne j (by omega)
      rw [this i (Nat.le_refl _)]; omega
    · have := ih (by omega)
      rw [hne n (fun e => h e.symm)]; omega

theorem count_flat_one {f : Nat → List α} {i n : Nat} (x : α) (hi : i < n) :
    (f i).count x ≤ ((List.range n).flatMap f).count x := by
  have := count_flat_set (f := f) (g := fun j => if j = i then [] else f j) (i := i) (by intro j hj; simp [hj]) x n hi
  simp at this; omega

/-- Two entries that differ in place contribute separately. -/
theorem count_flat_two {f : Nat → List α} {i j n : Nat} (x : α) (hi : i < n) (hj : j < n) (hij : i ≠ j) :
    (f i).count x + (f j).count x ≤ ((List.range n).flatMap f).count x := by
  have h1 := count_flat_set (f := f) (g := fun k => if k = i then [] else f k) (i := i) (by intro k hk; simp [hk]) x n hi
  have h2 := count_flat_one (f := fun k => if k = i then [] else f k) x hj
  simp [Ne.symm hij] at h1 h2; omega

theorem count_flat_filter (p : Nat → Prop) [DecidablePred p] {f : Nat → List α} (x : α) : ∀ n,
    (((List.range n).filter fun i => ¬ p i).flatMap f).count x + ((List.range n).flatMap fun i => if p i then f i else []).count x =
      ((List.range n).flatMap f).count x := by
  intro n
  induction n with
  | zero => simp
  | succ n ih =>
    rw [List.range_succ, List.filter_append, List.flatMap_append, List.flatMap_append, List.flatMap_append]
    simp only [List.count_append]
    by_cases h : p n
    · simp [h] at ih ⊢; omega
    · simp [h] at ih ⊢; omega

end Flat

/-- What holds throughout a history. -/
structure Inv (n cap : Nat) (w : World) (made : List (Nat × Nat)) (live cust : Nat → Prop) : Prop where
  heap : Heap.Hist n cap w.heap live
  nodup : w.inUse.Nodup
  own : ∀ r, ((List.range n).flatMap fun i => blocks (w.heap.cells i).content).count r ≤ w.inUse.count r
  once : ∀ p, made.count p = w.log.count p + (existing w).count p
  kind : ∀ i, cust i → live i ∧ (Content.isCustom (w.heap.cells i).content = true ∨ (w.heap.cells i).content = .pair nil nil)
  all : ∀ i < n, Content.isCustom (w.heap.cells i).content = true → cust i

theorem release_append : ∀ (l l' : List Release) (w : World),
    release w (l ++ l') = (release w l).bind fun w1 => release w1 l' := by
  intro l
  induction l with
  | nil => intro l' w; rfl
  | cons r l ih =>
    intro l' w
    cases r <;> simp only [List.cons_append, release]
    all_goals first
      | rfl
      | (split <;> simp_all)

theorem count_erase_of {l : List Release} (r x : Release) : (l.erase r).count x = l.count x - if x = r then 1 else 0 := by
  by_cases h : x = r
  · subst h; simp [List.count_erase_self]
  · rw [List.count_erase_of_ne h]; simp [h]

/-- A release that is a call of one of the memory managers with a block. -/
def isBlock : Release → Bool
  | .destroy _ => false
  | .word _ => false
  | _ => true

/-- Giving back blocks that are in use. -/
theorem release_blocks : ∀ (rs : List Release) (w : World), (∀ r ∈ rs, isBlock r = true) → (∀ r, rs.count r ≤ w.inUse.count r) →
    ∃ u, release w rs = some { w with inUse := u } ∧ ∀ r, u.count r + rs.count r = w.inUse.count r := by
  intro rs
  induction rs with
  | nil => intro w _ _; exact ⟨w.inUse, rfl, by simp⟩
  | cons r rs ih =>
    intro w hb hc
    have hm : r ∈ w.inUse := by
      have := hc r
      simp only [List.count_cons_self] at this
      exact List.count_pos_iff.1 (by omega)
    have hr : release w (r :: rs) = release { w with inUse := w.inUse.erase r } rs := by
      have := hb r (by simp)
      cases r <;> simp_all [release, free, isBlock]
    obtain ⟨u, h1, h2⟩ := ih { w with inUse := w.inUse.erase r } (fun x hx => hb x (by simp [hx])) (by
      intro x
      have := hc x
      simp only [List.count_cons] at this
      rw [count_erase_of]
      by_cases e : x = r
      · subst e; simp at this ⊢; omega
      · simp [e, Ne.symm e] at this ⊢; omega)
    refine ⟨u, by rw [hr, h1], ?_⟩
    intro x
    have h3 := h2 x
    have := hc x
    rw [count_erase_of] at h3
    simp only [List.count_cons] at this ⊢
    by_cases e : x = r
    · subst e; simp at h3 this ⊢; omega
    · simp [e, Ne.symm e] at h3 this ⊢; omega

/-- The destructor and the value of the custom value that a cell with this content holds. -/
def dueOf (w : World) : Content → List (Nat × Nat)
  | .custom a => [((w.words a).destructor, (w.words a).value)]
  | _ => []

/-- Releasing what one cell owns. -/
theorem release_content {w : World} {c : Content} (h : ∀ r, (blocks c).count r ≤ w.inUse.count r) :
    ∃ u, release w c.owned = some { w with inUse := u, log := w.log ++ dueOf w c } ∧
      ∀ r, u.count r + (blocks c).count r = w.inUse.count r := by
  by_cases hc : ∃ a, c = .custom a
  · obtain ⟨a, rfl⟩ := hc
    have hb : blocks (.custom a) = [.mem a] := rfl
    rw [hb] at h ⊢
    have hm : (.mem a : Release) ∈ w.inUse := by
      have := h (.mem a)
      simp only [List.count_cons_self] at this
      exact List.count_pos_iff.1 (by omega)
    obtain ⟨u, h1, h2⟩ := release_blocks [.mem a] { w with log := w.log ++ dueOf w (.custom a) } (by simp [isBlock]) h
    refine ⟨u, ?_, h2⟩
    simp only [Content.owned, release, destroy, hm, if_true]
    exact h1
  · have hd : dueOf w c = [] := by
      cases c <;> simp_all [dueOf]
    have ho : blocks c = c.owned ∧ ∀ r ∈ c.owned, isBlock r = true := by
      cases c with
      | channel ch dep => cases ch <;> simp [blocks, Content.owned, isBlock]
      | custom a => exact absurd ⟨a, rfl⟩ hc
      | _ => simp [blocks, Content.owned, isBlock]
    rw [ho.1] at h ⊢
    obtain ⟨u, h1, h2⟩ := release_blocks c.owned w ho.2 h
    exact ⟨u, by rw [h1, hd, List.append_nil], h2⟩

/-- Releasing what a list of cells owns. -/
theorem release_cells (c : Nat → Content) : ∀ (l : List Nat) (w : World),
    (∀ r, (l.flatMap fun i => blocks (c i)).count r ≤ w.inUse.count r) →
    ∃ u, release w (l.flatMap fun i => (c i).owned) = some { w with inUse := u, log := w.log ++ l.flatMap fun i => dueOf w (c i) } ∧
      ∀ r, u.count r + (l.flatMap fun i => blocks (c i)).count r = w.inUse.count r := by
  intro l
  induction l with
  | nil => intro w _; exact ⟨w.inUse, by simp [release], by simp⟩
  | cons i l ih =>
    intro w h
    have h' : ∀ r, (blocks (c i)).count r + (l.flatMap fun i => blocks (c i)).count r ≤ w.inUse.count r := by
      intro r; have := h r; simpa [List.flatMap_cons, List.count_append] using this
    obtain ⟨u, h1, h2⟩ := release_content (w := w) (c := c i) (fun r => by have := h' r; omega)
    obtain ⟨u', h3, h4⟩ := ih { w with inUse := u, log := w.log ++ dueOf w (c i) } (fun r => by
      have := h' r; have := h2 r; simp only; omega)
    refine ⟨u', ?_, ?_⟩
    · rw [List.flatMap_cons, release_append, h1, Option.bind_some, h3]
      simp only [List.flatMap_cons, List.append_assoc]
      rfl
    · intro r
      have a1 := h4 r; have a2 := h2 r
      simp only [List.flatMap_cons, List.count_append] at a1 ⊢
      omega

theorem existing_eq (w : World) : existing w = (List.range w.heap.size).flatMap fun i => dueOf w (w.heap.cells i).content := by
  unfold existing
  apply flat_congr
  intro i _
  unfold valueAt dueOf
  cases (w.heap.cells i).content <;> rfl

theorem freeChain_pair {h : Heap} : ∀ {l : List Nat} {v : Val}, FreeChain h v l → ∀ i ∈ l, ∃ a d, (h.cells i).content = .pair a d := by
  intro l
  induction l with
  | nil => intro v _ i hi; cases hi
  | cons x xs ih =>
    intro v hf i hi
    obtain ⟨_, _, a, d, hc, hr⟩ := hf
    rcases List.mem_cons.1 hi with rfl | hi
    · exact ⟨a, d, hc⟩
    · exact ih hr i hi

open Classical in
/-- A collection, seen from outside. -/
theorem collect_ok {w : World} {n cap fuel : Nat} {made : List (Nat × Nat)} {live cust : Nat → Prop} {pre glob : List Val}
    {ctxs : List CtxRoots} (hcap : 0 < cap) (hi : Inv n cap w made live cust) (hw : WF w.heap) (ho : RootsOK w.heap pre glob ctxs)
    (hplain : ∀ i < w.heap.size, ¬ Reachable w.heap (rootsOf w.heap pre glob ctxs) i → PlainContent (w.heap.cells i).content)
    {h' : Heap} {rel : List Release} (hgc : gc fuel w.heap pre glob ctxs = some (.ok (h', rel))) (hd : h'.dropped = false) :
    ∃ u, collect fuel w pre glob ctxs = some (.ok { w with heap := h', inUse := u, log := w.log ++
        ((List.range n).filter fun i => ¬ Reachable w.heap (rootsOf w.heap pre glob ctxs) i).flatMap fun i => dueOf w (w.heap.cells i).content }) ∧
      (∀ r, u.count r + (((List.range n).filter fun i => ¬ Reachable w.heap (rootsOf w.heap pre glob ctxs) i).flatMap
        fun i => blocks (w.heap.cells i).content).count r = w.inUse.count r) ∧
      (∀ i < n, ¬ Reachable w.heap (rootsOf w.heap pre glob ctxs) i → ∃ a d, (h'.cells i).content = .pair a d) ∧
      (∀ i, Reachable w.heap (rootsOf w.heap pre glob ctxs) i → i < n ∧ h'.cells i = w.heap.cells i) ∧ h'.size = n := by
  obtain ⟨l0, _, _, _, hs, hc⟩ := Heap.hist_inv hcap hi.heap
  obtain ⟨l, hf, hl, _, _, hrel⟩ := gc_reclaims hw (by rw [hc]; exact hcap) ho hplain hgc hd
  obtain ⟨hk, _, hsz, _, _⟩ := gc_preserves hw (by rw [hc]; exact hcap) ho hplain hgc hd
  rw [hs] at hrel hl
  have hle : ∀ r, (((List.range n).filter fun i => ¬ Reachable w.heap (rootsOf w.heap pre glob ctxs) i).flatMap
        fun i => blocks (w.heap.cells i).content).count r ≤ w.inUse.count r := by
    intro r
    have h1 := hi.own r
    have h2 := count_flat_filter (fun i => Reachable w.heap (rootsOf w.heap pre glob ctxs) i)
      (f := fun i => blocks (w.heap.cells i).content) r n
    omega
  obtain ⟨u, h1, h2⟩ := release_cells (fun i => (w.heap.cells i).content) _ { w with heap := h' } hle
  refine ⟨u, ?_, h2, ?_, ?_, by rw [hsz, hs]⟩
  · unfold collect
    rw [hgc]
    simp only
    rw [hrel, h1]
    rfl
  · intro i hin hr
    exact freeChain_pair hf.1 i ((hl i).2 ⟨hin, hr⟩)
  · intro i hr
    refine ⟨?_, hk i hr⟩
    have := reachable_lt hw.typed (fun t i hm => (roots_okRef ho _ hm).1) hr
    rwa [hs] at this

/-- The block of a custom value is in use. -/
theorem Inv.block {n cap : Nat} {w : World} {made : List (Nat × Nat)} {live cust : Nat → Prop} (hi : Inv n cap w made live cust)
    {i a : Nat} (hin : i < n) (hc : (w.heap.cells i).content = .custom a) : .mem a ∈ w.inUse := by
  have h1 := hi.own (.mem a)
  have h2 := count_flat_one (f := fun i => blocks (w.heap.cells i).content) (.mem a) hin
  have h3 : (blocks (w.heap.cells i).content).count (.mem a) = 1 := by rw [hc]; simp [blocks, Content.owned]
  exact List.count_pos_iff.1 (by omega)

theorem Inv.size {n cap : Nat} {w : World} {made : List (Nat × Nat)} {live cust : Nat → Prop} (hcap : 0 < cap)
    (hi : Inv n cap w made live cust) : w.heap.size = n := by
  obtain ⟨_, _, _, _, hs, _⟩ := Heap.hist_inv hcap hi.heap
  exact hs

/-- Other words in blocks that are not in use. -/
theorem due_words {w : World} {words' : Nat → Words} {c : Content} (h : ∀ a, c = .custom a → words' a = w.words a) :
    dueOf { w with words := words' } c = dueOf w c := by
  cases c with
  | custom a => simp [dueOf, h a rfl]
  | _ => rfl

theorem blocks_pair (a d : Val) : blocks (.pair a d) = [] := rfl

theorem due_not (w : World) {c : Content} (h : Content.isCustom c = false) : dueOf w c = [] := by
  cases c <;> simp_all [dueOf, Content.isCustom]

/-- A successful allocation takes a free cell. -/
theorem alloc_free {n cap : Nat} {h h' : Heap} {live : Nat → Prop} (hcap : 0 < cap) (hh : Heap.Hist n cap h live) {t t' : PTy} {c : Content} {i : Nat}
    (ha : allocateCell h t c = (h', .ptr t' false i)) :
    t' = t ∧ i < n ∧ ¬ live i ∧ (∃ a d, (h.cells i).content = .pair a d) ∧ h'.cells i = { content := c } ∧
      (∀ j, j ≠ i → h'.cells j = h.cells j) ∧ h'.size = h.size := by
  obtain ⟨l, hf, hl, hlt, hs, hc⟩ := Heap.hist_inv hcap hh
  cases l with
  | nil => rw [allocateCell_full hf] at ha; simp [merror] at ha
  | cons k l =>
    obtain ⟨h2, e1, e2, e3, e4, e5, e6, e7, e8, e9⟩ := allocateCell_spec hf t c
    rw [e1] at ha
    simp only [Prod.mk.injEq, Val.ptr.injEq] at ha
    obtain ⟨rfl, rfl, _, rfl⟩ := ha
    have hk := freeOK_cons hf
    exact ⟨rfl, by rw [← hs]; exact hk.2.1, (hl _ hk.2.1).1 (by simp), freeChain_pair hf.1 _ (by simp), e8, e9, e3⟩

/-- An allocation fails only when it says so. -/
theorem alloc_val {n cap : Nat} {h : Heap} {live : Nat → Prop} (hcap : 0 < cap) (hh : Heap.Hist n cap h live) (t : PTy) (c : Content) :
    allocateCell h t c = (h, merror) ∨ ∃ h' i, allocateCell h t c = (h', .ptr t false i) := by
  obtain ⟨l, hf, _⟩ := Heap.hist_inv hcap hh
  cases l with
  | nil => exact .inl (allocateCell_full hf t c)
  | cons k l =>
    obtain ⟨h2, e1, _⟩ := allocateCell_spec hf t c
    exact .inr ⟨h2, k, e1⟩

theorem count_due_set {w w' : World} {n i : Nat} (hs : w.heap.size = n) (hs' : w'.heap.size = n) (hin : i < n)
    (hne : ∀ j, j < n → j ≠ i → dueOf w' (w'.heap.cells j).content = dueOf w (w.heap.cells j).content) (p : Nat × Nat) :
    (existing w').count p + (dueOf w (w.heap.cells i).content).count p =
      (existing w).count p + (dueOf w' (w'.heap.cells i).content).count p := by
  rw [existing_eq, existing_eq, hs, hs']
  have := count_flat_set (f := fun j => dueOf w (w.heap.cells j).content)
    (g := fun j => if j < n then dueOf w' (w'.heap.cells j).content else dueOf w (w.heap.cells j).content) (i := i) (by
      intro j hj
      by_cases h : j < n
      · simp [h, hne j h hj]
      · simp [h]) p n hin
  rw [flat_congr (f := fun j => dueOf w' (w'.heap.cells j).content) (by intro j hj; simp [hj])] at this
  simpa [hin] using this

open Classical in
theorem hist_inv {n cap : Nat} {w : World} {made : List (Nat × Nat)} {live cust : Nat → Prop} (hcap : 0 < cap)
    (hh : Hist n cap w made live cust) : Inv n cap w made live cust := by
  induction hh with
  | @init words hn =>
    have hc : ∀ i, ∃ a d, ((Heap.init n cap).cells i).content = .pair a d := by
      intro i; simp only [Heap.init]; split <;> exact ⟨_, _, rfl⟩
    refine ⟨.init hn, by simp, ?_, ?_, fun i h => h.elim, ?_⟩
    · intro r
      rw [flat_congr (f := fun _ => []) (by intro i _; obtain ⟨a, d, e⟩ := hc i; simp only [e, blocks_pair]), flat_nil]
      simp
    · intro p
      rw [existing_eq, flat_congr (f := fun _ => []) (by intro i _; obtain ⟨a, d, e⟩ := hc i; simp only [e, dueOf]), flat_nil]
      simp
    · intro i _ h
      obtain ⟨a, d, e⟩ := hc i
      simp only [e, Content.isCustom] at h; cases h
  | @make w w' made live cust t value dtor desc i _ hfr hcr ih =>
    have hs := ih.size hcap
    simp only [create] at hcr
    rcases alloc_val hcap ih.heap .custom (.custom t) with he | ⟨h', k, he⟩
    · rw [he] at hcr; simp at hcr
    · rw [he] at hcr
      simp only [merror, reduceCtorEq, if_false, Prod.mk.injEq, Option.some.injEq, Val.ptr.injEq, true_and] at hcr
      obtain ⟨rfl, rfl⟩ := hcr
      obtain ⟨_, hkn, hkl, ⟨a, d, hold⟩, hnew, hoth, hsz⟩ := alloc_free hcap ih.heap he
      refine ⟨.alloc ih.heap he, List.nodup_cons.2 ⟨hfr, ih.nodup⟩, ?_, ?_, ?_, ?_⟩
      · intro r
        have h1 := count_flat_set (f := fun j => blocks (w.heap.cells j).content) (g := fun j => blocks (h'.cells j).content)
          (i := k) (by intro j hj; simp only [hoth j hj]) r n hkn
        have h2 := ih.own r
        simp only [hold, blocks_pair, hnew, List.count_nil, Nat.add_zero] at h1
        rw [h1]
        have h3 : (blocks (.custom t)).count r = if Release.mem t == r then 1 else 0 := by
          rw [show blocks (.custom t) = [.mem t] from rfl, List.count_cons]; simp
        simp only [List.count_cons]
        omega
      · intro p
        have h1 := count_due_set (w := w) (w' := ⟨h', fun a => if a = t then ⟨value, desc, dtor⟩ else w.words a, .mem t :: w.inUse, w.log⟩) hs (by simp only; omega) hkn (by
          intro j hj hne
          simp only [hoth j hne]
          apply due_words (w := w)
          intro a ha
          have := ih.block hj ha
          have : a ≠ t := fun e => hfr (e ▸ this)
          simp [this]) p
        simp only [hold, hnew, dueOf, List.count_nil, Nat.add_zero, if_true] at h1
        rw [h1, List.count_cons, ih.once p, List.count_cons]
        simp; omega
      · rintro j (hj | rfl)
        · have := ih.kind j hj
          have hne : j ≠ k := fun e => hkl (e ▸ this.1)
          exact ⟨.inl this.1, by simp only [hoth j hne]; exact this.2⟩
        · exact ⟨.inr rfl, .inl (by simp only [hnew]; rfl)⟩
      · intro j hj hc
        by_cases hne : j = k
        · exact .inr hne
        · simp only [hoth j hne] at hc
          exact .inl (ih.all j hj hc)
  | @fail w w' made live cust blk value dtor desc r _ hfr hcr ih =>
    cases blk with
    | none => simp only [create, Prod.mk.injEq] at hcr; obtain ⟨rfl, _⟩ := hcr; exact ih
    | some t =>
      have hft := hfr t rfl
      simp only [create] at hcr
      rcases alloc_val hcap ih.heap .custom (.custom t) with he | ⟨h', k, he⟩
      · rw [he] at hcr
        simp only [if_true, List.erase_cons_head, Prod.mk.injEq, true_and] at hcr
        obtain ⟨rfl, _⟩ := hcr
        refine ⟨ih.heap, ih.nodup, ih.own, ?_, ih.kind, ih.all⟩
        intro p
        rw [ih.once p, existing_eq, existing_eq, ih.size hcap]
        congr 2
        apply flat_congr
        intro j hj
        symm
        apply due_words (w := w)
        intro a ha
        have : a ≠ t := fun e => hft (e ▸ ih.block hj ha)
        simp [this]
      · rw [he] at hcr; simp [merror] at hcr
  | @alloc w made live cust t c h i _ hnc hnd hfr ha ih =>
    have hs := ih.size hcap
    obtain ⟨_, hkn, hkl, ⟨a, d, hold⟩, hnew, hoth, hsz⟩ := alloc_free hcap ih.heap ha
    refine ⟨.alloc ih.heap ha, List.nodup_append.2 ⟨hnd, ih.nodup, fun x hx y hy e => hfr x hx (e ▸ hy)⟩, ?_, ?_, ?_, ?_⟩
    · intro r
      have h1 := count_flat_set (f := fun j => blocks (w.heap.cells j).content) (g := fun j => blocks (h.cells j).content)
        (i := i) (by intro j hj; simp only [hoth j hj]) r n hkn
      have h2 := ih.own r
      simp only [hold, blocks_pair, hnew, List.count_nil, Nat.add_zero] at h1
      rw [h1, List.count_append]; omega
    · intro p
      have h1 := count_due_set (w := w) (w' := { w with heap := h, inUse := blocks c ++ w.inUse }) hs (by simp only; omega) hkn (by
        intro j hj hne; simp only [hoth j hne]; rfl) p
      simp only [hold, hnew, due_not _ hnc, List.count_nil, Nat.add_zero] at h1
      simp only [dueOf, List.count_nil, Nat.add_zero] at h1
      rw [h1]; exact ih.once p
    · intro j hj
      have := ih.kind j hj
      have hne : j ≠ i := fun e => hkl (e ▸ this.1)
      exact ⟨.inl this.1, by simp only [hoth j hne]; exact this.2⟩
    · intro j hj hc
      by_cases hne : j = i
      · subst hne; simp only [hnew] at hc; rw [hnc] at hc; cases hc
      · simp only [hoth j hne] at hc; exact ih.all j hj hc
  | @write w made live cust i c _ hl hncu hnc hb ih =>
    have hs := ih.size hcap
    obtain ⟨_, _, _, hlt, _⟩ := Heap.hist_inv hcap ih.heap
    have hin : i < n := by rw [← hs]; exact hlt i hl
    have hold : Content.isCustom (w.heap.cells i).content = false := by
      cases h : Content.isCustom (w.heap.cells i).content
      · rfl
      · exact absurd (ih.all i hin h) hncu
    have hoth : ∀ j, j ≠ i → (w.heap.setCell i { w.heap.cells i with content := c }).cells j = w.heap.cells j := by
      intro j hj; simp [Heap.setCell, hj]
    have hnew : ((w.heap.setCell i { w.heap.cells i with content := c }).cells i).content = c := by simp [Heap.setCell]
    refine ⟨.write ih.heap hl, ih.nodup, ?_, ?_, ?_, ?_⟩
    · intro r
      have h1 := count_flat_set (f := fun j => blocks (w.heap.cells j).content)
        (g := fun j => blocks ((w.heap.setCell i { w.heap.cells i with content := c }).cells j).content)
        (i := i) (by intro j hj; simp only [hoth j hj]) r n hin
      have h2 := ih.own r
      simp only [hnew, hb] at h1
      simp only; omega
    · intro p
      have h1 := count_due_set (w := w) (w' := { w with heap := w.heap.setCell i { w.heap.cells i with content := c } }) hs hs hin (by
        intro j hj hne; simp only [hoth j hne]; rfl) p
      simp only [hnew, due_not _ hnc, due_not _ hold, List.count_nil, Nat.add_zero] at h1
      rw [h1]; exact ih.once p
    · intro j hj
      have hne : j ≠ i := fun e => hncu (e ▸ hj)
      simp only [hoth j hne]; exact ih.kind j hj
    · intro j hj hc
      by_cases hne : j = i
      · subst hne; simp only [hnew] at hc; rw [hnc] at hc; cases hc
      · simp only [hoth j hne] at hc; exact ih.all j hj hc
  | @destruct w w' made live cust i r _ hci hd ih =>
    have hs := ih.size hcap
    obtain ⟨_, _, _, hlt, _⟩ := Heap.hist_inv hcap ih.heap
    have hl := (ih.kind i hci).1
    have hin : i < n := by rw [← hs]; exact hlt i hl
    have hoth : ∀ j, j ≠ i → (w.heap.setCell i { w.heap.cells i with content := .pair nil nil }).cells j = w.heap.cells j := by
      intro j hj; simp [Heap.setCell, hj]
    have hnew : ((w.heap.setCell i { w.heap.cells i with content := .pair nil nil }).cells i).content = .pair nil nil := by simp [Heap.setCell]
    rcases (ih.kind i hci).2 with hk | hk
    · obtain ⟨a, ha⟩ : ∃ a, (w.heap.cells i).content = .custom a := by
        cases h : (w.heap.cells i).content with
        | custom a => exact ⟨a, rfl⟩
        | _ => rw [h] at hk; cases hk
      have hm := ih.block hin ha
      simp only [customDestruct, ha, destroy, hm, if_true, Out.ok.injEq, Prod.mk.injEq] at hd
      obtain ⟨rfl, _⟩ := hd
      refine ⟨.write ih.heap hl, ih.nodup, ?_, ?_, ?_, ?_⟩
      · intro r
        have h1 := count_flat_set (f := fun j => blocks (w.heap.cells j).content)
          (g := fun j => blocks ((w.heap.setCell i { w.heap.cells i with content := .pair nil nil }).cells j).content)
          (i := i) (by intro j hj; simp only [hoth j hj]) r n hin
        have h2 := ih.own r
        simp only [hnew, blocks_pair, List.count_nil, Nat.add_zero] at h1
        simp only; omega
      · intro p
        have h1 := count_due_set (w := w) (w' := ⟨w.heap.setCell i { w.heap.cells i with content := .pair nil nil }, w.words, w.inUse, w.log ++ [((w.words a).destructor, (w.words a).value)]⟩) hs hs hin (by
          intro j hj hne; simp only [hoth j hne]; rfl) p
        simp only [hnew, ha, dueOf, List.count_nil, Nat.add_zero] at h1
        rw [ih.once p, List.count_append]; omega
      · intro j hj
        by_cases hne : j = i
        · subst hne; exact ⟨hl, .inr hnew⟩
        · simp only [hoth j hne]; exact ih.kind j hj
      · intro j hj hc
        by_cases hne : j = i
        · subst hne; exact hci
        · simp only [hoth j hne] at hc; exact ih.all j hj hc
    · simp only [customDestruct, hk, nil, Out.ok.injEq, Prod.mk.injEq] at hd
      obtain ⟨rfl, _⟩ := hd
      exact ih
  | @gc w w' made live cust fuel pre glob ctxs _ hw ho hplain hc hd ih =>
    have hs := ih.size hcap
    cases hg : Heap.gc fuel w.heap pre glob ctxs with
    | none => simp [collect, hg] at hc
    | some o =>
      cases o with
      | critical => simp [collect, hg] at hc
      | ub => simp [collect, hg] at hc
      | ok q =>
        obtain ⟨h', rel⟩ := q
        have hd' : h'.dropped = false := by
          have : ∀ (l : List Release) (v v' : World), release v l = some v' → v'.heap = v.heap := by
            intro l
            induction l with
            | nil => intro v v' h; simp [release] at h; rw [h]
            | cons r l ih =>
              intro v v' h
              cases r <;> simp only [release, free, destroy] at h <;> (try cases h) <;> split at h <;> (try cases h) <;>
                (rename_i hq; split at hq <;> cases hq; have := ih _ _ h; simpa using this)
          simp only [collect, hg] at hc
          split at hc
          · cases hc
          · rename_i w1 hr
            simp only [Option.some.injEq, Out.ok.injEq] at hc
            subst hc
            have := this _ _ _ hr
            rw [this] at hd; exact hd
        obtain ⟨u, e, hu, hfree, hkeep, hsz⟩ := collect_ok hcap ih hw ho hplain hg hd'
        rw [e] at hc
        simp only [Option.some.injEq, Out.ok.injEq] at hc
        subst hc
        have hcell : ∀ i < n, (if Reachable w.heap (rootsOf w.heap pre glob ctxs) i then blocks (w.heap.cells i).content else []) =
            blocks (h'.cells i).content := by
          intro i hin
          split
          · rename_i hr; rw [(hkeep i hr).2]
          · rename_i hr; obtain ⟨a, d, e⟩ := hfree i hin hr; rw [e, blocks_pair]
        refine ⟨.gc ih.heap hw ho hplain hg hd', ?_, ?_, ?_, ?_, ?_⟩
        · rw [List.nodup_iff_count]
          intro r
          have h1 := hu r
          have h2 := List.nodup_iff_count.1 ih.nodup r
          simp only; omega
        · intro r
          have h1 := hu r
          have h2 := ih.own r
          have h3 := count_flat_filter (fun i => Reachable w.heap (rootsOf w.heap pre glob ctxs) i)
            (f := fun i => blocks (w.heap.cells i).content) r n
          rw [flat_congr (f := fun i => blocks (h'.cells i).content) hcell] at h3
          simp only; omega
        · intro p
          have h3 := count_flat_filter (fun i => Reachable w.heap (rootsOf w.heap pre glob ctxs) i)
            (f := fun i => dueOf w (w.heap.cells i).content) p n
          rw [flat_congr (f := fun i => dueOf w (h'.cells i).content) (by
            intro i hin
            split
            · rename_i hr; rw [(hkeep i hr).2]
            · rename_i hr; obtain ⟨a, d, e⟩ := hfree i hin hr; rw [e]; rfl)] at h3
          rw [ih.once p, existing_eq, existing_eq, hs]
          simp only [hsz, List.count_append]
          rw [← h3]
          have : ∀ c, dueOf { w with heap := h', inUse := u, log := w.log ++ ((List.range n).filter fun i => ¬ Reachable w.heap
            (rootsOf w.heap pre glob ctxs) i).flatMap fun i => dueOf w (w.heap.cells i).content } c = dueOf w c := by
            intro c; cases c <;> rfl
          simp only [this]; omega
        · intro i hi
          have := ih.kind i hi.1
          refine ⟨hi.2, ?_⟩
          simp only [(hkeep i hi.2).2]; exact this.2
        · intro i hin hcu
          by_cases hr : Reachable w.heap (rootsOf w.heap pre glob ctxs) i
          · simp only [(hkeep i hr).2] at hcu
            exact ⟨ih.all i hin hcu, hr⟩
          · obtain ⟨a, d, e⟩ := hfree i hin hr
            simp only [e, Content.isCustom] at hcu; cases hcu

end Verif.Custom
