import Verif.Bufs.Model
import Verif.Mem.Props

/-! C120: byte arrays that the program frees itself. -/

namespace Verif.Bufs
open Verif.Mem

/-! ## Specification -/

/-- The blocks of an array with the header `p`: the header, and the data if the array is not empty. -/
def blocksAt (s : Bufs) (w p : Nat) : List Block :=
  (p, 2) :: if s.word p = 0 then [] else [(s.word (p + 1) - 1, bytesToWords w (s.word p))]

/-- The blocks of all arrays. -/
def owned (s : Bufs) (w : Nat) : List Block := s.cells.flatMap fun c => match c with | none => [] | some p => blocksAt s w p

/-- States that occur: arrays are created, freed by the program, swept by the collector and written to, in any order. In between, other parts
of the system use the memory as they like, but neither free the blocks of the arrays nor write to them. -/
inductive BReach (w size : Nat) : Bufs → Prop
  | init {m : Mem} {live : List Block} {f : Nat → Nat} : Reach true w size m live → BReach w size ⟨m, f, []⟩
  | other {s : Bufs} {m : Mem} {f : Nat → Nat} {live rest : List Block} : BReach w size s → Reach true w size m live → live.Perm (owned s w ++ rest) →
      (∀ b ∈ owned s w, ∀ i, b.covers i → f i = s.word i) → BReach w size ⟨m, f, s.cells⟩
  | create {s s' : Bufs} {n : Nat} {cell : Bool} {r : Option Nat} : BReach w size s → n < 2 ^ w → create s n cell = some (s', r) → BReach w size s'
  | free {s : Bufs} (i : Nat) : BReach w size s → BReach w size (freeArr s i).1
  | sweep {s : Bufs} (i : Nat) : BReach w size s → BReach w size (sweep s i)
  | write {s : Bufs} (i k v : Nat) : BReach w size s → BReach w size (write s i k v)

/-- What is read at byte `k` of array `i`: the word that holds the byte. -/
def contents (s : Bufs) (i k : Nat) : Option Nat := (access s i k).map s.word

/-! ## The invariant -/

/-- The blocks of the arrays are live blocks, each of them once, and the data pointer of an empty array is NULL, that of another one not. -/
structure Good (w size : Nat) (s : Bufs) (rest : List Block) : Prop where
  inv : Inv true w size s.mem (owned s w ++ rest)
  ptr : ∀ p, some p ∈ s.cells → (s.word p = 0 ↔ s.word (p + 1) = 0)

theorem owned_congr {s s' : Bufs} {w : Nat} (hc : s'.cells = s.cells) (h : ∀ b ∈ owned s w, ∀ i, b.covers i → s'.word i = s.word i) : owned s' w = owned s w := by
  unfold owned at h ⊢
  rw [hc]
  have : ∀ l : List (Option Nat), (∀ c ∈ l, c ∈ s.cells) → l.flatMap (fun c => match c with | none => [] | some p => blocksAt s' w p) =
      l.flatMap (fun c => match c with | none => [] | some p => blocksAt s w p) := by
    intro l
    induction l with
    | nil => intro _; rfl
    | cons c l ih =>
      intro hl
      rw [List.flatMap_cons, List.flatMap_cons, ih fun c hc => hl c (List.mem_cons_of_mem _ hc)]
      congr 1
      cases c with
      | none => rfl
      | some p =>
        have hm : ((p, 2) : Block) ∈ s.cells.flatMap (fun c => match c with | none => [] | some p => blocksAt s w p) :=
          List.mem_flatMap.2 ⟨some p, hl _ List.mem_cons_self, by simp [blocksAt]⟩
        have h1 := h _ hm p ⟨Nat.le_refl _, by show p < p + 2; omega⟩
        have h2 := h _ hm (p + 1) ⟨by show p ≤ p + 1; omega, by show p + 1 < p + 2; omega⟩
        simp only [blocksAt, h1, h2]
  exact this s.cells fun _ h => h

theorem header_mem {s : Bufs} {i p : Nat} (h : header s i = some p) : ∃ hi : i < s.cells.length, s.cells[i] = some p := by
  unfold header at h
  cases e : s.cells[i]? with
  | none => rw [e] at h; cases h
  | some c =>
    rw [e] at h
    simp only [Option.join_some] at h
    rw [List.getElem?_eq_some_iff] at e
    obtain ⟨hi, e⟩ := e
    exact ⟨hi, e.trans h⟩

theorem set_perm {α β : Type} (g : α → List β) : ∀ (l : List α) (i : Nat) (hi : i < l.length) (y : α), g y = [] → (l.flatMap g).Perm (g l[i] ++ (l.set i y).flatMap g)
  | x :: l, 0, _, y, hy => by simp [List.flatMap_cons, hy]
  | x :: l, i + 1, hi, y, hy => by
    have ih := set_perm g l i (by simpa using hi) y hy
    simp only [List.flatMap_cons, List.getElem_cons_succ, List.set_cons_succ]
    refine (ih.append_left (g x)).trans ?_
    rw [← List.append_assoc, ← List.append_assoc]
    exact List.perm_append_comm.append_right _

/-- The blocks of an array and those of the others. -/
theorem owned_split {s : Bufs} {w i p : Nat} (h : header s i = some p) :
    (owned s w).Perm (blocksAt s w p ++ owned ⟨s.mem, s.word, s.cells.set i none⟩ w) := by
  obtain ⟨hi, e⟩ := header_mem h
  have := set_perm (fun c => match c with | none => [] | some p => blocksAt s w p) s.cells i hi none rfl
  rw [e] at this
  exact this

/-- Giving back the blocks of an array. -/
theorem release {w size : Nat} (hw : size < 2 ^ w) {s : Bufs} {p : Nat} {rest : List Block} (hp : s.word p = 0 ↔ s.word (p + 1) = 0)
    (h : Inv true w size s.mem (blocksAt s w p ++ rest)) :
    Inv true w size (free (freePtr s.mem (s.word (p + 1))) p).1 rest ∧
      (free (freePtr s.mem (s.word (p + 1))) p).1.numFree = s.mem.numFree + liveWords (blocksAt s w p) := by
  by_cases h0 : s.word p = 0
  · have e : blocksAt s w p = [(p, 2)] := by simp [blocksAt, h0]
    rw [e] at h
    rw [hp.1 h0, e]
    have := free_result hw h (p := p) (k := 2) (by simp)
    simp only [List.singleton_append, List.erase_cons_head] at this
    exact ⟨this.2.1, by simp [freePtr, liveWords, this.2.2.1]⟩
  · have e : blocksAt s w p = [(p, 2), (s.word (p + 1) - 1, bytesToWords w (s.word p))] := by simp [blocksAt, h0]
    have h1 : s.word (p + 1) ≠ 0 := fun h => h0 (hp.2 h)
    obtain ⟨d, hd⟩ : ∃ d, s.word (p + 1) = d + 1 := ⟨s.word (p + 1) - 1, by omega⟩
    rw [e] at h
    rw [hd] at h e ⊢
    simp only [Nat.add_sub_cancel] at h e
    rw [e]
    have h' := h.perm (live' := (d, bytesToWords w (s.word p)) :: (p, 2) :: rest) (by simpa using List.Perm.swap _ _ rest)
    have f1 := free_result hw h' (p := d) (k := bytesToWords w (s.word p)) (by simp)
    rw [List.erase_cons_head] at f1
    have f2 := free_result hw f1.2.1 (p := p) (k := 2) (by simp)
    rw [List.erase_cons_head] at f2
    refine ⟨f2.2.1, ?_⟩
    simp only [freePtr, liveWords]
    rw [f2.2.2.1, f1.2.2.1]
    simp
    omega

theorem good_release {w size : Nat} (hw : size < 2 ^ w) {s : Bufs} {rest : List Block} (h : Good w size s rest) {i p : Nat} (hp : header s i = some p) :
    Good w size ⟨(free (freePtr s.mem (s.word (p + 1))) p).1, s.word, s.cells.set i none⟩ rest ∧
      (free (freePtr s.mem (s.word (p + 1))) p).1.numFree = s.mem.numFree + liveWords (blocksAt s w p) := by
  obtain ⟨hi, e⟩ := header_mem hp
  have hm : some p ∈ s.cells := e ▸ List.getElem_mem hi
  have h1 := h.inv.perm (live' := blocksAt s w p ++ (owned ⟨s.mem, s.word, s.cells.set i none⟩ w ++ rest)) (by
    rw [← List.append_assoc]; exact ((owned_split hp).append_right rest).symm)
  obtain ⟨h2, h3⟩ := release hw (h.ptr p hm) h1
  refine ⟨⟨h2, fun q hq => h.ptr q ?_⟩, h3⟩
  rcases List.mem_or_eq_of_mem_set hq with hq | hq
  · exact hq
  · cases hq

/-- Words outside of the blocks of the arrays do not matter. -/
theorem Good.congr {w size : Nat} {s : Bufs} {rest : List Block} (h : Good w size s rest) {f : Nat → Nat} (hf : ∀ b ∈ owned s w, ∀ i, b.covers i → f i = s.word i) :
    Good w size ⟨s.mem, f, s.cells⟩ rest := by
  refine ⟨?_, fun p hp => ?_⟩
  · rw [owned_congr (s := s) (s' := ⟨s.mem, f, s.cells⟩) rfl hf]; exact h.inv
  · have hm : ((p, 2) : Block) ∈ owned s w := List.mem_flatMap.2 ⟨some p, hp, by simp [blocksAt]⟩
    have h1 := hf _ hm p ⟨Nat.le_refl _, by show p < p + 2; omega⟩
    have h2 := hf _ hm (p + 1) ⟨by show p ≤ p + 1; omega, by show p + 1 < p + 2; omega⟩
    simp only [h1, h2]
    exact h.ptr p hp

theorem malloc_inv {w size : Nat} (hw : size < 2 ^ w) {m : Mem} {live : List Block} (h : Inv true w size m live) (hmw : m.w = w) {n : Nat} (hn : n ≠ 0) :
    (∃ m' p, malloc m n = some (m', some p) ∧ Inv true w size m' ((p, bytesToWords w n) :: live)) ∨ (∃ m', malloc m n = some (m', none) ∧ Inv true w size m' live) := by
  unfold malloc
  rw [if_neg hn, hmw]
  rcases allocate_inv hw h (bytesToWords w n) with ⟨m', p, e, _, h1, _⟩ | ⟨m', e, h1, _⟩
  · exact .inl ⟨m', p, e, h1⟩
  · exact .inr ⟨m', e, h1⟩

theorem inv_w {w size : Nat} {m : Mem} {live : List Block} (h : Inv true w size m live) : m.w = w := by obtain ⟨_, h⟩ := h; exact h.hw

/-- A block that is beside the arrays in the list of live blocks has no word of theirs. -/
theorem apart {w size : Nat} {m : Mem} {b : Block} {l : List Block} (h : Inv true w size m (b :: l)) {c : Block} (hc : c ∈ l) {i : Nat} (hb : b.covers i) : ¬ c.covers i := by
  have := inv_pairwise h
  rw [List.pairwise_cons] at this
  exact fun hci => this.1 c hc i ⟨hb, hci⟩

theorem two_words {w : Nat} (hw8 : 8 ≤ w) : bytesToWords w (2 * (w / 8)) = 2 := by
  have hp : 0 < w / 8 := by omega
  simp only [bytesToWords, Nat.mul_mod_left, if_true, Nat.mul_div_cancel 2 hp, Nat.add_zero]

/-- The end of the creation, from memory with the two blocks of the new array. -/
theorem finish_good {w size : Nat} (hw : size < 2 ^ w) {s : Bufs} {rest : List Block} {m : Mem} {f : Nat → Nat} {p : Nat} (cell : Bool)
    (hg : Good w size s rest) (hf : ∀ b ∈ owned s w, ∀ i, b.covers i → f i = s.word i) (hp : f p = 0 ↔ f (p + 1) = 0)
    (hi : Inv true w size m (blocksAt ⟨m, f, s.cells⟩ w p ++ (owned s w ++ rest))) : Good w size (finish m f s.cells p cell).1 rest ∧ (finish m f s.cells p cell).1.word = f ∧
      (((finish m f s.cells p cell).2 = none ∧ (finish m f s.cells p cell).1.cells = s.cells) ∨
        ((finish m f s.cells p cell).2 = some s.cells.length ∧ cell = true ∧ (finish m f s.cells p cell).1.cells = s.cells ++ [some p])) := by
  have he : owned ⟨m, f, s.cells⟩ w = owned s w := owned_congr (s := s) (s' := ⟨m, f, s.cells⟩) rfl hf
  have hpt : ∀ q, some q ∈ s.cells → (f q = 0 ↔ f (q + 1) = 0) := by
    intro q hq
    exact (hg.congr hf).ptr q hq
  unfold finish
  cases cell with
  | true =>
    rw [if_pos rfl]
    refine ⟨⟨hi.perm ?_, fun q hq => ?_⟩, rfl, .inr ⟨rfl, rfl, rfl⟩⟩
    · have e : owned ⟨m, f, s.cells ++ [some p]⟩ w = owned ⟨m, f, s.cells⟩ w ++ blocksAt ⟨m, f, s.cells⟩ w p := by
        unfold owned
        rw [List.flatMap_append]
        simp [blocksAt]
      simp only
      rw [e, he, ← List.append_assoc]
      exact List.perm_append_comm.append_right rest
    · simp only [List.mem_append, List.mem_singleton, Option.some.injEq] at hq
      rcases hq with hq | rfl
      · exact hpt q hq
      · exact hp
  | false =>
    rw [if_neg (by decide)]
    have h1 := release (s := ⟨m, f, s.cells⟩) hw (p := p) hp hi
    refine ⟨⟨?_, hpt⟩, rfl, .inl ⟨rfl, rfl⟩⟩
    have e : owned ⟨(free (freePtr m (f (p + 1))) p).1, f, s.cells⟩ w = owned s w := owned_congr (s := s) rfl hf
    simp only
    rw [e]
    exact h1.1

theorem create_spec {w size : Nat} (hw : size < 2 ^ w) (hw8 : 8 ≤ w) {s : Bufs} {rest : List Block} (hg : Good w size s rest) (n : Nat) (cell : Bool) :
    ∃ s' r, create s n cell = some (s', r) ∧ Good w size s' rest ∧ (∀ b ∈ owned s w ++ rest, ∀ i, b.covers i → s'.word i = s.word i) ∧
      ((r = none ∧ s'.cells = s.cells) ∨ ∃ p, r = some s.cells.length ∧ cell = true ∧ s'.cells = s.cells ++ [some p] ∧ s'.word p = n ∧
        ∀ j, Block.covers (s'.word (p + 1) - 1, bytesToWords w n) j → s'.word j = 0) := by
  have hmw := inv_w hg.inv
  unfold create
  rw [hmw]
  have hne : 2 * (w / 8) ≠ 0 := by omega
  rcases malloc_inv hw hg.inv hmw hne with ⟨m, p, e, h1⟩ | ⟨m, e, h1⟩
  · rw [e, Option.bind_some]
    rw [two_words hw8] at h1
    have hout : ∀ b ∈ owned s w ++ rest, ∀ i, b.covers i → i ≠ p ∧ i ≠ p + 1 := by
      intro b hb i hc
      have := apart h1 (c := b) (i := i) hb
      constructor
      · rintro rfl; exact this ⟨Nat.le_refl _, by show i < i + 2; omega⟩ hc
      · rintro rfl; exact this ⟨by show p ≤ p + 1; omega, by show p + 1 < p + 2; omega⟩ hc
    simp only
    by_cases h0 : n = 0
    · rw [if_pos h0]
      have hf : ∀ b ∈ owned s w ++ rest, ∀ i, b.covers i → setWord (setWord s.word (p + 1) 0) p 0 i = s.word i := by
        intro b hb i hc
        have := hout b hb i hc
        simp only [setWord]; rw [if_neg this.1, if_neg this.2]
      obtain ⟨g1, g2, g3⟩ := finish_good (m := m) (f := setWord (setWord s.word (p + 1) 0) p 0) (p := p) hw cell hg (fun b hb => hf b (List.mem_append_left _ hb)) (by simp [setWord]) (by simpa [blocksAt, setWord] using h1)
      refine ⟨(finish m (setWord (setWord s.word (p + 1) 0) p 0) s.cells p cell).1, (finish m (setWord (setWord s.word (p + 1) 0) p 0) s.cells p cell).2, rfl, g1, fun b hb i hc => by rw [g2]; exact hf b hb i hc, ?_⟩
      rcases g3 with g3 | ⟨g3, g4, g5⟩
      · exact .inl g3
      · refine .inr ⟨p, g3, g4, g5, by rw [g2, h0]; simp [setWord], fun j hj => ?_⟩
        have : bytesToWords w n = 0 := by rw [h0]; simp [bytesToWords]
        rw [this] at hj
        have h1 := hj.1
        have h2 := hj.2
        simp only at h1 h2
        omega
    · rw [if_neg h0]
      rcases malloc_inv hw h1 (inv_w h1) h0 with ⟨m2, d, e2, h2⟩ | ⟨m2, e2, h2⟩
      · rw [e2, Option.bind_some]
        simp only
        have hout2 : ∀ b ∈ owned s w ++ rest, ∀ i, b.covers i → ¬ (d ≤ i ∧ i < d + bytesToWords w n) := by
          intro b hb i hc hd
          exact apart h2 (c := b) (i := i) (List.mem_cons_of_mem _ hb) hd hc
        have hpd : ∀ i, Block.covers (p, 2) i → ¬ (d ≤ i ∧ i < d + bytesToWords w n) := fun i hi hd => apart h2 (c := (p, 2)) (i := i) List.mem_cons_self hd hi
        have hpd1 := hpd (p + 1) ⟨by show p ≤ p + 1; omega, by show p + 1 < p + 2; omega⟩
        have hpd0 := hpd p ⟨Nat.le_refl _, by show p < p + 2; omega⟩
        have k1 : setWord (zero (setWord s.word (p + 1) (d + 1)) d (bytesToWords w n)) p n p = n := by simp [setWord]
        have k2 : setWord (zero (setWord s.word (p + 1) (d + 1)) d (bytesToWords w n)) p n (p + 1) = d + 1 := by
          simp only [setWord, zero]; rw [if_neg (by omega), if_neg hpd1]; simp
        have hf : ∀ b ∈ owned s w ++ rest, ∀ i, b.covers i → setWord (zero (setWord s.word (p + 1) (d + 1)) d (bytesToWords w n)) p n i = s.word i := by
          intro b hb i hc
          have := hout b hb i hc
          simp only [setWord, zero]; rw [if_neg this.1, if_neg (hout2 b hb i hc), if_neg this.2]
        obtain ⟨g1, g2, g3⟩ := finish_good (m := m2) (f := setWord (zero (setWord s.word (p + 1) (d + 1)) d (bytesToWords w n)) p n) (p := p) hw cell hg (fun b hb => hf b (List.mem_append_left _ hb)) (by rw [k1, k2]; omega) (by
          have eb : blocksAt ⟨m2, setWord (zero (setWord s.word (p + 1) (d + 1)) d (bytesToWords w n)) p n, s.cells⟩ w p = [(p, 2), (d, bytesToWords w n)] := by
            simp only [blocksAt]
            rw [k1, k2, if_neg h0, Nat.add_sub_cancel]
          rw [eb]
          exact h2.perm (by simpa using List.Perm.swap _ _ _))
        refine ⟨(finish m2 (setWord (zero (setWord s.word (p + 1) (d + 1)) d (bytesToWords w n)) p n) s.cells p cell).1, (finish m2 (setWord (zero (setWord s.word (p + 1) (d + 1)) d (bytesToWords w n)) p n) s.cells p cell).2, rfl, g1, fun b hb i hc => by rw [g2]; exact hf b hb i hc, ?_⟩
        rcases g3 with g3 | ⟨g3, g4, g5⟩
        · exact .inl g3
        · refine .inr ⟨p, g3, g4, g5, by rw [g2, k1], fun j hj => ?_⟩
          rw [g2, k2, Nat.add_sub_cancel] at hj
          have hjp : j ≠ p := fun e => hpd0 (e ▸ hj)
          rw [g2]
          unfold setWord zero
          rw [if_neg hjp]
          exact if_pos hj
      · rw [e2, Option.bind_some]
        simp only
        have hf : ∀ b ∈ owned s w ++ rest, ∀ i, b.covers i → setWord s.word (p + 1) 0 i = s.word i := by
          intro b hb i hc
          have := hout b hb i hc
          simp only [setWord]; rw [if_neg this.2]
        have hr := free_result hw h2 (p := p) (k := 2) (by simp)
        rw [List.erase_cons_head] at hr
        refine ⟨_, _, rfl, ⟨?_, (hg.congr fun b hb => hf b (List.mem_append_left _ hb)).ptr⟩, hf, .inl ⟨rfl, rfl⟩⟩
        rw [owned_congr (s := s) (s' := ⟨(free m2 p).1, setWord s.word (p + 1) 0, s.cells⟩) rfl fun b hb => hf b (List.mem_append_left _ hb)]
        exact hr.2.1
  · rw [e, Option.bind_some]
    exact ⟨_, _, rfl, ⟨h1, hg.ptr⟩, fun _ _ _ _ => rfl, .inl ⟨rfl, rfl⟩⟩

/-- The data block of an array that has bytes. -/
theorem data_block {w size : Nat} {s : Bufs} {rest : List Block} (hg : Good w size s rest) {i k a : Nat} (hw8 : 8 ≤ w) (h : access s i k = some a) :
    ∃ p, header s i = some p ∧ k < s.word p ∧ s.word p ≠ 0 ∧ a = s.word (p + 1) - 1 + k / (w / 8) ∧
      Block.covers (s.word (p + 1) - 1, bytesToWords w (s.word p)) a := by
  unfold access at h
  rw [inv_w hg.inv] at h
  cases e : header s i with
  | none => rw [e] at h; cases h
  | some p =>
    rw [e] at h
    simp only at h
    split at h
    · rename_i hk
      cases h
      refine ⟨p, rfl, hk, by omega, rfl, Nat.le_add_right _ _, ?_⟩
      show s.word (p + 1) - 1 + k / (w / 8) < s.word (p + 1) - 1 + bytesToWords w (s.word p)
      have hp : 0 < w / 8 := by omega
      have : k / (w / 8) < bytesToWords w (s.word p) := by
        unfold bytesToWords
        rw [Nat.div_lt_iff_lt_mul hp]
        have h1 := Nat.div_add_mod (s.word p) (w / 8)
        have h2 := Nat.mod_lt (s.word p) hp
        rw [Nat.mul_comm] at h1
        split
        · rw [Nat.add_zero]; omega
        · rw [Nat.add_mul]; omega
      omega
    · cases h

theorem good_write {w size : Nat} (hw8 : 8 ≤ w) {s : Bufs} {rest : List Block} (hg : Good w size s rest) (i k v : Nat) : Good w size (write s i k v) rest := by
  unfold write
  cases e : access s i k with
  | none => exact hg
  | some a =>
    obtain ⟨p, hp, hk, h0, -, hc⟩ := data_block hg hw8 e
    have hs := owned_split (w := w) hp
    have hpw : (owned s w).Pairwise Block.disjoint := (List.pairwise_append.1 (inv_pairwise hg.inv)).1
    -- headers are not in the data block
    have hh : ∀ q, some q ∈ s.cells → ¬ Block.covers (q, 2) a := by
      intro q hq hqc
      have hmq : ((q, 2) : Block) ∈ owned s w := List.mem_flatMap.2 ⟨some q, hq, by simp [blocksAt]⟩
      have hpw2 := (hs.pairwise_iff (fun h => Block.disjoint_symm h)).1 hpw
      have eb : blocksAt s w p = [(p, 2), (s.word (p + 1) - 1, bytesToWords w (s.word p))] := by simp [blocksAt, h0]
      rw [eb] at hpw2
      have hmem := hs.mem_iff.1 hmq
      rw [eb] at hmem
      simp only [List.cons_append, List.nil_append, List.mem_cons] at hmem
      rw [List.cons_append, List.pairwise_cons, List.cons_append, List.pairwise_cons] at hpw2
      rcases hmem with e | e | e
      · exact hpw2.1 _ List.mem_cons_self a ⟨e ▸ hqc, hc⟩
      · -- the data block is the header of another array
        have hcnt : (q, 2) ∈ owned ⟨s.mem, s.word, s.cells.set i none⟩ w ∨ q = p := by
          by_cases hqp : q = p
          · exact .inr hqp
          · left
            obtain ⟨j, hj, ej⟩ := List.getElem_of_mem hq
            obtain ⟨hi, ei⟩ := header_mem hp
            have hji : j ≠ i := by
              rintro rfl
              rw [ej] at ei
              exact hqp (by simpa using ei)
            refine List.mem_flatMap.2 ⟨some q, ?_, by simp [blocksAt]⟩
            have : (s.cells.set i none)[j]'(by simpa using hj) = some q := by rw [List.getElem_set_ne (Ne.symm hji), ej]
            exact this ▸ List.getElem_mem _
        rcases hcnt with h | h
        · exact hpw2.2.1 _ (by simpa using h) a ⟨hc, hqc⟩
        · subst h
          exact hpw2.1 _ List.mem_cons_self a ⟨hqc, hc⟩
      · exact hpw2.2.1 _ (by simpa using e) a ⟨hc, hqc⟩
    have key : ∀ q, some q ∈ s.cells → setWord s.word a v q = s.word q ∧ setWord s.word a v (q + 1) = s.word (q + 1) := by
      intro q hq
      have := hh q hq
      simp only [Block.covers] at this
      constructor
      · simp only [setWord]; rw [if_neg (by omega)]
      · simp only [setWord]; rw [if_neg (by omega)]
    have eo : owned { s with word := setWord s.word a v } w = owned s w := by
      unfold owned
      have : ∀ l : List (Option Nat), (∀ c ∈ l, c ∈ s.cells) → l.flatMap (fun c => match c with | none => [] | some p => blocksAt { s with word := setWord s.word a v } w p) =
          l.flatMap (fun c => match c with | none => [] | some p => blocksAt s w p) := by
        intro l
        induction l with
        | nil => intro _; rfl
        | cons c l ih =>
          intro hl
          rw [List.flatMap_cons, List.flatMap_cons, ih fun c hc => hl c (List.mem_cons_of_mem _ hc)]
          congr 1
          cases c with
          | none => rfl
          | some q =>
            obtain ⟨h1, h2⟩ := key q (hl _ List.mem_cons_self)
            simp only [blocksAt, h1, h2]
      exact this _ fun _ h => h
    refine ⟨by simp only; rw [eo]; exact hg.inv, fun q hq => ?_⟩
    obtain ⟨h1, h2⟩ := key q hq
    simp only [h1, h2]
    exact hg.ptr q hq

theorem breach_good {w size : Nat} (hs : 0 < size) (hw : size < 2 ^ w) (hw8 : 8 ≤ w) {s : Bufs} (h : BReach w size s) : ∃ rest, Good w size s rest := by
  induction h with
  | @init m live f h => exact ⟨live, by simpa [owned] using reach_inv hs hw h, fun p hp => by simp at hp⟩
  | @other s m f live rest _ h hp hf ih =>
    obtain ⟨r, hg⟩ := ih
    have hI := (reach_inv hs hw h).perm hp.symm
    exact ⟨rest, Good.congr (s := ⟨m, s.word, s.cells⟩) ⟨hI, hg.ptr⟩ hf⟩
  | @create s s' n cell r0 _ _ e ih =>
    obtain ⟨r, hg⟩ := ih
    obtain ⟨s1, r1, e1, h1, _⟩ := create_spec hw hw8 hg n cell
    rw [e] at e1; cases e1
    exact ⟨r, h1⟩
  | @free s i _ ih =>
    obtain ⟨r, hg⟩ := ih
    refine ⟨r, ?_⟩
    unfold freeArr
    cases e : header s i with
    | none => exact hg
    | some p => exact (good_release hw hg e).1
  | @sweep s i _ ih =>
    obtain ⟨r, hg⟩ := ih
    refine ⟨r, ?_⟩
    unfold Bufs.sweep
    cases e : header s i with
    | none => exact hg
    | some p => exact (good_release hw hg e).1
  | @write s i k v _ ih => obtain ⟨r, hg⟩ := ih; exact ⟨r, good_write hw8 hg i k v⟩

/-! ## C120 -/

theorem header_set {s : Bufs} {i j : Nat} (h : j ≠ i) (m : Mem) (f : Nat → Nat) : header ⟨m, f, s.cells.set i none⟩ j = header s j := by
  unfold header
  simp only
  rw [List.getElem?_set_ne (Ne.symm h)]

theorem header_self {s : Bufs} {i p : Nat} (h : header s i = some p) (m : Mem) (f : Nat → Nat) : header ⟨m, f, s.cells.set i none⟩ i = none := by
  obtain ⟨hi, _⟩ := header_mem h
  unfold header
  simp only
  rw [List.getElem?_set_self hi]
  rfl

theorem owned_of_header {s : Bufs} {w j q : Nat} (h : header s j = some q) {b : Block} (hb : b ∈ blocksAt s w q) : b ∈ owned s w := by
  obtain ⟨hj, e⟩ := header_mem h
  exact List.mem_flatMap.2 ⟨some q, e ▸ List.getElem_mem hj, hb⟩

/-- Different arrays have different words. -/
theorem arrays_apart {w size : Nat} {s : Bufs} {rest : List Block} (hg : Good w size s rest) {i j p q : Nat} (hi : header s i = some p) (hj : header s j = some q) (hne : j ≠ i)
    {b c : Block} (hb : b ∈ blocksAt s w p) (hc : c ∈ blocksAt s w q) : Block.disjoint b c := by
  have hpw : (owned s w).Pairwise Block.disjoint := (List.pairwise_append.1 (inv_pairwise hg.inv)).1
  have h2 := ((owned_split (w := w) hi).pairwise_iff (fun h => Block.disjoint_symm h)).1 hpw
  have hc' : c ∈ owned ⟨s.mem, s.word, s.cells.set i none⟩ w := owned_of_header (s := ⟨s.mem, s.word, s.cells.set i none⟩) ((header_set hne _ _).trans hj) hc
  exact (List.pairwise_append.1 h2).2.2 b hb c hc'

theorem data_mem {s : Bufs} {w p : Nat} (h : s.word p ≠ 0) : (s.word (p + 1) - 1, bytesToWords w (s.word p)) ∈ blocksAt s w p := by simp [blocksAt, h]

/-- C120: in every state that occurs, a byte that can be accessed is in the memory, in a word that is not free: no allocation gives it to somebody else. It is
in no other array, and it is no part of a header. -/
theorem C120_access {w size : Nat} (hs : 0 < size) (hw : size < 2 ^ w) (hw8 : 8 ≤ w) {s : Bufs} (h : BReach w size s) {i k a : Nat} (ha : access s i k = some a) :
    a < size ∧ (∀ n m q, allocate s.mem n = some (m, some q) → ¬ (q ≤ a ∧ a < q + n)) ∧ (∀ j k', j ≠ i → access s j k' ≠ some a) ∧
      ∀ j q, header s j = some q → a ≠ q ∧ a ≠ q + 1 := by
  obtain ⟨rest, hg⟩ := breach_good hs hw hw8 h
  obtain ⟨p, hp, hk, h0, -, hc⟩ := data_block hg hw8 ha
  have hm := owned_of_header (w := w) hp (data_mem h0)
  have hl := List.mem_append_left rest hm
  refine ⟨?_, fun n m q e hq => ?_, fun j k' hj e => ?_, fun j q hq => ?_⟩
  · have := (inv_inside hg.inv hl).1
    have := hc.2
    simp only at *
    omega
  · rcases allocate_inv hw hg.inv n with ⟨m', p', e', _, h1, h2, _⟩ | ⟨m', e', _⟩
    · rw [e] at e'; cases e'
      exact apart h1 hl (b := (q, n)) (i := a) hq hc
    · rw [e] at e'; cases e'
  · obtain ⟨q, hq, _, h0', -, hc'⟩ := data_block hg hw8 e
    exact arrays_apart hg hp hq hj (data_mem h0) (data_mem h0') a ⟨hc, hc'⟩
  · have key : ¬ Block.covers (q, 2) a := by
      intro hqc
      by_cases hj : j = i
      · subst hj
        rw [hp] at hq; cases hq
        have h2 := (List.pairwise_append.1 (((owned_split (w := w) hp).pairwise_iff (fun h => Block.disjoint_symm h)).1 (List.pairwise_append.1 (inv_pairwise hg.inv)).1)).1
        unfold blocksAt at h2
        rw [if_neg h0, List.pairwise_cons] at h2
        exact h2.1 _ List.mem_cons_self a ⟨hqc, hc⟩
      · exact arrays_apart hg hp hq hj (data_mem h0) (show ((q, 2) : Block) ∈ blocksAt s w q by simp [blocksAt]) a ⟨hc, hqc⟩
    simp only [Block.covers] at key
    omega

/-- C120: a reference to an array that was not freed can be freed. Its words are free then, it cannot be accessed and not freed again, through no reference (all references
lead to the same cell), and all other arrays are as before. -/
theorem C120_free {w size : Nat} (hs : 0 < size) (hw : size < 2 ^ w) (hw8 : 8 ≤ w) {s : Bufs} (h : BReach w size s) {i p : Nat} (hp : header s i = some p) :
    (freeArr s i).2 = .true_ ∧ (freeArr s i).1.mem.numFree = s.mem.numFree + 2 + bytesToWords w (s.word p) ∧
      (∀ k, access (freeArr s i).1 i k = none) ∧ freeArr (freeArr s i).1 i = ((freeArr s i).1, .terror) ∧
      ∀ j, j ≠ i → header (freeArr s i).1 j = header s j ∧ ∀ k, access (freeArr s i).1 j k = access s j k ∧ contents (freeArr s i).1 j k = contents s j k := by
  obtain ⟨rest, hg⟩ := breach_good hs hw hw8 h
  obtain ⟨g, hn⟩ := good_release hw hg hp
  have e : freeArr s i = (⟨(free (freePtr s.mem (s.word (p + 1))) p).1, s.word, s.cells.set i none⟩, .true_) := by unfold freeArr; rw [hp]
  rw [e]
  have hz : header ⟨(free (freePtr s.mem (s.word (p + 1))) p).1, s.word, s.cells.set i none⟩ i = none := header_self hp _ _
  refine ⟨rfl, ?_, fun k => ?_, ?_, fun j hj => ?_⟩
  · simp only
    rw [hn]
    unfold blocksAt liveWords
    split
    · rename_i h0
      rw [h0]
      have : bytesToWords w 0 = 0 := by simp [bytesToWords]
      rw [this]; rfl
    · simp only [List.map_cons, List.sum_cons, List.map_nil, List.sum_nil]; omega
  · unfold access; rw [hz]
  · unfold freeArr; rw [hz]
  · have hh := header_set (s := s) hj (free (freePtr s.mem (s.word (p + 1))) p).1 s.word
    have ha : ∀ k, access ⟨(free (freePtr s.mem (s.word (p + 1))) p).1, s.word, s.cells.set i none⟩ j k = access s j k := by
      intro k
      unfold access
      simp only
      rw [hh, show (free (freePtr s.mem (s.word (p + 1))) p).1.w = s.mem.w from (inv_w g.inv).trans (inv_w hg.inv).symm]
    exact ⟨hh, fun k => ⟨ha k, by unfold contents; rw [ha k]⟩⟩

/-- C120: a write changes no other array. -/
theorem C120_write {w size : Nat} (hs : 0 < size) (hw : size < 2 ^ w) (hw8 : 8 ≤ w) {s : Bufs} (h : BReach w size s) (i k v : Nat) :
    (∀ j, header (write s i k v) j = header s j) ∧ (∀ j k', access (write s i k v) j k' = access s j k') ∧
      (∀ a, access s i k = some a → contents (write s i k v) i k = some v) ∧ ∀ j, j ≠ i → ∀ k', contents (write s i k v) j k' = contents s j k' := by
  unfold write
  cases e : access s i k with
  | none => exact ⟨fun _ => rfl, fun _ _ => rfl, (fun a ha => by cases ha), fun _ _ _ => rfl⟩
  | some a =>
    simp only
    obtain ⟨_, _, h3, h4⟩ := C120_access hs hw hw8 h e
    have hh : ∀ j, header { s with word := setWord s.word a v } j = header s j := fun _ => rfl
    have ha : ∀ j k', access { s with word := setWord s.word a v } j k' = access s j k' := by
      intro j k'
      unfold access
      rw [hh]
      cases eq : header s j with
      | none => rfl
      | some q =>
        have := h4 j q eq
        have e1 : setWord s.word a v q = s.word q := by unfold setWord; rw [if_neg (Ne.symm this.1)]
        have e2 : setWord s.word a v (q + 1) = s.word (q + 1) := by unfold setWord; rw [if_neg (Ne.symm this.2)]
        simp only [e1, e2]
    refine ⟨hh, ha, fun a' ha' => ?_, fun j hj k' => ?_⟩
    · unfold contents
      rw [ha, e]
      simp [setWord]
    · unfold contents
      rw [ha]
      cases ej : access s j k' with
      | none => rfl
      | some b =>
        have : b ≠ a := fun hb => h3 j k' hj (hb ▸ ej)
        simp [setWord, this]

/-- C120: a new array has the size that was asked for and is zero, and all other arrays are as before. If there is no memory, or no cell, nothing changes but the
memory, in which as much is free as before. -/
theorem C120_create {w size : Nat} (hs : 0 < size) (hw : size < 2 ^ w) (hw8 : 8 ≤ w) {s : Bufs} (h : BReach w size s) (n : Nat) (cell : Bool) :
    ∃ s' r, create s n cell = some (s', r) ∧ (∀ j, j < s.cells.length → header s' j = header s j ∧ ∀ k, access s' j k = access s j k ∧ contents s' j k = contents s j k) ∧
      (∀ i, r = some i → cell = true ∧ i = s.cells.length ∧ ∀ k, contents s' i k = if k < n then some 0 else none) ∧
      (r = none → s'.cells = s.cells ∧ s'.mem.numFree = s.mem.numFree) := by
  obtain ⟨rest, hg⟩ := breach_good hs hw hw8 h
  obtain ⟨s', r, e, hg', hf', hc⟩ := create_spec hw hw8 hg n cell
  have hf : ∀ b ∈ owned s w, ∀ i, b.covers i → s'.word i = s.word i := fun b hb => hf' b (List.mem_append_left _ hb)
  have hcells : ∀ j, j < s.cells.length → header s' j = header s j := by
    intro j hj
    rcases hc with ⟨_, hc⟩ | ⟨p, _, _, hc, _⟩
    · unfold header; rw [hc]
    · unfold header; rw [hc, List.getElem?_append_left hj]
  have hww : s'.mem.w = s.mem.w := (inv_w hg'.inv).trans (inv_w hg.inv).symm
  refine ⟨s', r, e, fun j hj => ?_, fun i hi => ?_, fun hn => ?_⟩
  · have hh := hcells j hj
    have ha : ∀ k, access s' j k = access s j k := by
      intro k
      unfold access
      rw [hh, hww]
      cases eq : header s j with
      | none => rfl
      | some q =>
        have hm := owned_of_header (w := w) eq (show ((q, 2) : Block) ∈ blocksAt s w q by simp [blocksAt])
        have h1 := hf _ hm q ⟨Nat.le_refl _, by show q < q + 2; omega⟩
        have h2 := hf _ hm (q + 1) ⟨by show q ≤ q + 1; omega, by show q + 1 < q + 2; omega⟩
        simp only [h1, h2]
    refine ⟨hh, fun k => ⟨ha k, ?_⟩⟩
    unfold contents
    rw [ha]
    cases ej : access s j k with
    | none => rfl
    | some b =>
      obtain ⟨q, hq, _, h0, -, hcov⟩ := data_block hg hw8 ej
      simp only [Option.map_some, hf _ (owned_of_header hq (data_mem h0)) b hcov]
  · rcases hc with ⟨hc, _⟩ | ⟨p, hr, hcell, hc, hp, hz⟩
    · rw [hc] at hi; cases hi
    · rw [hr] at hi; cases hi
      refine ⟨hcell, rfl, fun k => ?_⟩
      have hh : header s' s.cells.length = some p := by unfold header; rw [hc]; simp
      unfold contents
      by_cases hk : k < n
      · rw [if_pos hk]
        have ha : access s' s.cells.length k = some (s'.word (p + 1) - 1 + k / (s'.mem.w / 8)) := by
          unfold access; rw [hh]; simp only; rw [hp, if_pos hk]
        obtain ⟨q, hq, _, h0, -, hcov⟩ := data_block hg' hw8 ha
        rw [hh] at hq; cases hq
        rw [ha, Option.map_some, hz _ (by rw [hp] at hcov; exact hcov)]
      · rw [if_neg hk]
        have ha : access s' s.cells.length k = none := by unfold access; rw [hh]; simp only; rw [hp, if_neg hk]
        rw [ha]; rfl
  · rcases hc with ⟨_, hc⟩ | ⟨p, hr, _⟩
    · refine ⟨hc, ?_⟩
      have h1 := inv_numFree hg.inv
      have h2 := inv_numFree hg'.inv
      rw [owned_congr hc hf] at h2
      omega
    · rw [hr] at hn; cases hn

/-- C120 fails for functions that do not check their arguments: `eq` with a byte array that was freed, and `unflatten` of it, read through the null pointer. -/
theorem C120_freed_violated {s : Bufs} {i p : Nat} (hp : header s i = some p) :
    (∀ j, sameSize (freeArr s i).1 i j = none ∧ sameSize (freeArr s i).1 j i = none) ∧ unflattenFrom (freeArr s i).1 i = none := by
  have e : freeArr s i = (⟨(free (freePtr s.mem (s.word (p + 1))) p).1, s.word, s.cells.set i none⟩, .true_) := by unfold freeArr; rw [hp]
  have hz : header (freeArr s i).1 i = none := by rw [e]; exact header_self hp _ _
  refine ⟨fun j => ⟨?_, ?_⟩, ?_⟩
  · unfold sameSize; rw [hz]
  · unfold sameSize; rw [hz]; cases header (freeArr s i).1 j <;> rfl
  · unfold unflattenFrom; rw [hz]

/-! ### A concrete history -/

/-- A memory of 64 words (32-bit build) and no arrays. -/
def start : Bufs := ⟨Mem.init 32 64 0, fun _ => 7, []⟩

theorem start_reach : BReach 32 64 start := .init (.init 0)

/-- An array of 5 bytes, an empty one and one of 8 bytes. -/
def demo : Bufs := ((((create start 5 true).bind fun r => create r.1 0 true).bind fun r => create r.1 8 true).map (·.1)).getD start

theorem demo_reach : BReach 32 64 demo := by
  obtain ⟨s1, r1, e1, -⟩ := C120_create (by decide) (by decide) (by decide) start_reach 5 true
  have h1 := BReach.create start_reach (by decide) e1
  obtain ⟨s2, r2, e2, -⟩ := C120_create (by decide) (by decide) (by decide) h1 0 true
  have h2 := BReach.create h1 (by decide) e2
  obtain ⟨s3, r3, e3, -⟩ := C120_create (by decide) (by decide) (by decide) h2 8 true
  have h3 := BReach.create h2 (by decide) e3
  have : demo = s3 := by unfold demo; rw [e1, Option.bind_some, e2, Option.bind_some, e3]; rfl
  rw [this]; exact h3

/-- The arrays are there and have their sizes; the second one has no bytes. -/
example : header demo 0 = some 0 ∧ header demo 1 = some 4 ∧ header demo 2 = some 6 ∧ access demo 0 4 = some 3 ∧ access demo 0 5 = none ∧ access demo 1 0 = none ∧
    access demo 2 7 = some 9 := by decide +kernel

/-- After a write and a free of the first array, the third one is as before; the first one is rejected, and `eq` on it reads through the null pointer. -/
example : contents (freeArr (write demo 2 0 9) 0).1 2 0 = some 9 ∧ access (freeArr (write demo 2 0 9) 0).1 0 0 = none ∧
    (freeArr (freeArr (write demo 2 0 9) 0).1 0).2 = .terror ∧ sameSize (freeArr demo 0).1 0 2 = none ∧ (freeArr demo 0).1.mem.numFree = demo.mem.numFree + 4 := by decide +kernel

example : (freeArr demo 0).1.mem.numFree = demo.mem.numFree + 2 + bytesToWords 32 (demo.word 0) :=
  (C120_free (by decide) (by decide) (by decide) demo_reach (show header demo 0 = some 0 by decide +kernel)).2.1

end Verif.Bufs
