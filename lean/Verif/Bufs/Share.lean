import Verif.Bufs.Props

/-!
C126: byte arrays that the host makes from memory it already has (`lbm_share_array`), and those that other parts of the system make from a block
of the memory that they have allocated (`lbm_lift_array`, for example `image_buffer_lift`).
-/

namespace Verif.Bufs
open Verif.Mem

/-- `lbm_lift_array`, `src/heap.c:1268-1295`; `lbm_share_array` is the same (`src/lbm_c_interop.c:222-224`), and `image_buffer_lift`,
`src/extensions/display_extensions.c:166-178`, calls it. `d` is the pointer to the data, as it is stored in a word: 0 is NULL, a number up to the size of the memory is
one more than the index of a word of the memory, and a larger one is a pointer to somewhere else. `cell` says whether there is a free cell. Simplification: when there is no
memory for the header, the cell, which is reset to `(nil . nil)` and which nothing refers to, is not in the list. -/
def lift (s : Bufs) (d n : Nat) (cell : Bool) : Option (Bufs × Option Nat) :=
  if cell then
    (malloc s.mem (2 * (s.mem.w / 8))).bind fun r =>
      match r with
      | (m, none) => some (⟨m, s.word, s.cells⟩, none)
      | (m, some p) => some (⟨m, setWord (setWord s.word (p + 1) d) p n, s.cells ++ [some p]⟩, some s.cells.length)
  else some (s, none)

/-! ## Specification -/

/-- For each array made from memory of the host: the pointer and the number of bytes that the host gave. -/
abbrev Host := Nat → Option (Nat × Nat)

/-- The cells of some of the arrays. -/
def sel (q : Nat → Bool) (l : List (Option Nat)) : List (Option Nat) := l.mapIdx fun i c => if q i then c else none

/-- The arrays that own their data. -/
def own (s : Bufs) (H : Host) : Bufs := ⟨s.mem, s.word, sel (fun i => (H i).isNone) s.cells⟩

/-- The headers of the arrays with data of the host. -/
def heads (s : Bufs) (H : Host) : List Block := (sel (fun i => (H i).isSome) s.cells).flatMap fun c => match c with | none => [] | some p => [(p, 2)]

def mark (H : Host) (i : Nat) (x : Option (Nat × Nat)) : Host := fun j => if j = i then x else H j

/-- What may be made into an array: memory of the host, that is outside of the memory of the system; or a block of the memory that was allocated for this number of bytes and that
is not part of an array already. -/
def Lent (w size : Nat) (s : Bufs) (H : Host) (d n : Nat) : Prop :=
  size < d ∨ d ≠ 0 ∧ n ≠ 0 ∧ ∃ live rest, Reach true w size s.mem live ∧ live.Perm (owned (own s H) w ++ (heads s H ++ (d - 1, bytesToWords w n) :: rest))

/-- States that occur: as in `BReach`, with `lift` as one more operation. The host may write to its own memory at any time (`other`). -/
inductive SReach (w size : Nat) : Bufs → Host → Prop
  | init {m : Mem} {live : List Block} {f : Nat → Nat} : Reach true w size m live → SReach w size ⟨m, f, []⟩ fun _ => none
  | other {s : Bufs} {H : Host} {m : Mem} {f : Nat → Nat} {live rest : List Block} : SReach w size s H → Reach true w size m live → live.Perm (owned (own s H) w ++ (heads s H ++ rest)) →
      (∀ b ∈ owned (own s H) w ++ heads s H, ∀ i, b.covers i → f i = s.word i) → SReach w size ⟨m, f, s.cells⟩ H
  | create {s s' : Bufs} {H : Host} {n : Nat} {cell : Bool} {r : Option Nat} : SReach w size s H → create s n cell = some (s', r) → SReach w size s' (mark H s.cells.length none)
  | lift {s s' : Bufs} {H : Host} {d n : Nat} {cell : Bool} {r : Option Nat} : SReach w size s H → Lent w size s H d n → lift s d n cell = some (s', r) →
      SReach w size s' (mark H s.cells.length (if size < d then some (d, n) else none))
  | free {s : Bufs} {H : Host} (i : Nat) : SReach w size s H → SReach w size (freeArr s i).1 H
  | sweep {s : Bufs} {H : Host} (i : Nat) : SReach w size s H → SReach w size (sweep s i) H
  | write {s : Bufs} {H : Host} (i k v : Nat) : SReach w size s H → SReach w size (write s i k v) H

/-! ## The invariant -/

structure SGood (w size : Nat) (s : Bufs) (H : Host) (rest : List Block) : Prop where
  good : Good w size (own s H) (heads s H ++ rest)
  host : ∀ i p d n, header s i = some p → H i = some (d, n) → s.word p = n ∧ s.word (p + 1) = d ∧ size < d

theorem sel_get (q : Nat → Bool) (l : List (Option Nat)) (i : Nat) : (sel q l)[i]? = (l[i]?).map fun c => if q i then c else none := by simp [sel]

theorem sel_set (q : Nat → Bool) (l : List (Option Nat)) (i : Nat) : sel q (l.set i none) = (sel q l).set i none := by
  apply List.ext_getElem?
  intro j
  simp only [sel_get, List.getElem?_set]
  have : (sel q l).length = l.length := by simp [sel]
  rw [this]
  by_cases h : i = j
  · subst h
    rw [if_pos rfl, if_pos rfl]
    by_cases hl : i < l.length <;> simp [hl]
  · rw [if_neg h, if_neg h]

theorem sel_off {q : Nat → Bool} (l : List (Option Nat)) {i : Nat} (h : q i = false) : sel q (l.set i none) = sel q l := by
  apply List.ext_getElem?
  intro j
  simp only [sel_get, List.getElem?_set]
  by_cases hj : i = j
  · subst hj
    rw [if_pos rfl]
    by_cases hl : i < l.length <;> simp [hl, h]
  · rw [if_neg hj]

theorem sel_congr {q q' : Nat → Bool} {l : List (Option Nat)} (h : ∀ i, i < l.length → q i = q' i) : sel q l = sel q' l := by
  apply List.ext_getElem?
  intro j
  simp only [sel_get]
  by_cases hl : j < l.length
  · rw [h j hl]
  · rw [List.getElem?_eq_none (by omega)]; rfl

theorem sel_append (q : Nat → Bool) (l : List (Option Nat)) (c : Option Nat) : sel q (l ++ [c]) = sel q l ++ [if q l.length then c else none] := by
  simp [sel, List.mapIdx_append]

theorem mark_own (H : Host) (l : List (Option Nat)) (x : Option (Nat × Nat)) : sel (fun i => (mark H l.length x i).isNone) l = sel (fun i => (H i).isNone) l :=
  sel_congr fun i hi => by simp [mark, Nat.ne_of_lt hi]

theorem mark_host (H : Host) (l : List (Option Nat)) (x : Option (Nat × Nat)) : sel (fun i => (mark H l.length x i).isSome) l = sel (fun i => (H i).isSome) l :=
  sel_congr fun i hi => by simp [mark, Nat.ne_of_lt hi]

theorem header_own {s : Bufs} {H : Host} {i : Nat} (h : H i = none) : header (own s H) i = header s i := by
  simp only [header, own, sel_get, h]
  cases s.cells[i]? <;> rfl

theorem header_hosted {s : Bufs} {H : Host} {i : Nat} {x : Nat × Nat} (h : H i = some x) : header (own s H) i = none := by
  simp only [header, own, sel_get, h]
  cases s.cells[i]? <;> rfl

theorem heads_split {s : Bufs} {H : Host} {i p : Nat} {x : Nat × Nat} (hp : header s i = some p) (h : H i = some x) (m : Mem) (f : Nat → Nat) :
    (heads s H).Perm ((p, 2) :: heads ⟨m, f, s.cells.set i none⟩ H) := by
  obtain ⟨hi, e⟩ := header_mem hp
  have hl : i < (sel (fun i => (H i).isSome) s.cells).length := by simpa [sel] using hi
  have := set_perm (fun c => match c with | none => [] | some p => [((p, 2) : Block)]) (sel (fun i => (H i).isSome) s.cells) i hl none rfl
  have e2 : (sel (fun i => (H i).isSome) s.cells)[i] = some p := by
    have := sel_get (fun i => (H i).isSome) s.cells i
    rw [List.getElem?_eq_getElem hl, List.getElem?_eq_getElem hi, e] at this
    simpa [h] using this
  rw [e2] at this
  unfold heads
  simp only
  rw [sel_set]
  exact this

theorem mem_heads {s : Bufs} {H : Host} {i p : Nat} {x : Nat × Nat} (hp : header s i = some p) (h : H i = some x) : ((p, 2) : Block) ∈ heads s H :=
  (heads_split hp h s.mem s.word).mem_iff.2 List.mem_cons_self

theorem free_out {w size : Nat} {m : Mem} {live : List Block} (h : Inv true w size m live) {d : Nat} (hd : size < d) : freePtr m d = m := by
  obtain ⟨segs, hI⟩ := h
  cases d with
  | zero => omega
  | succ d =>
    have : ptrInside m d = false := by simp [ptrInside, hI.hbm, hI.hsize]; omega
    simp [freePtr, Mem.free, this]

/-- Words outside of the blocks of the arrays do not matter. -/
theorem SGood.congr {w size : Nat} {s : Bufs} {H : Host} {rest : List Block} (h : SGood w size s H rest) {f : Nat → Nat}
    (hf : ∀ b ∈ owned (own s H) w ++ heads s H, ∀ i, b.covers i → f i = s.word i) : SGood w size ⟨s.mem, f, s.cells⟩ H rest := by
  refine ⟨h.good.congr fun b hb => hf b (List.mem_append_left _ hb), fun i p d n hp hH => ?_⟩
  have hp' : header s i = some p := hp
  have hm := List.mem_append_right (owned (own s H) w) (mem_heads hp' hH)
  have h1 := hf _ hm p ⟨Nat.le_refl _, by show p < p + 2; omega⟩
  have h2 := hf _ hm (p + 1) ⟨by show p ≤ p + 1; omega, by show p + 1 < p + 2; omega⟩
  simp only [h1, h2]
  exact h.host i p d n hp' hH

theorem header_of_set {s : Bufs} {i j q : Nat} {m : Mem} {f : Nat → Nat} (h : header ⟨m, f, s.cells.set i none⟩ j = some q) : header s j = some q := by
  by_cases hj : j = i
  · subst hj
    simp only [header, List.getElem?_set, if_true] at h
    split at h <;> cases h
  · rwa [header_set hj] at h

/-- Giving back what belongs to an array: the header, and the data unless they are the host's. -/
theorem sgood_release {w size : Nat} (hw : size < 2 ^ w) {s : Bufs} {H : Host} {rest : List Block} (h : SGood w size s H rest) {i p : Nat} (hp : header s i = some p) :
    SGood w size ⟨(Mem.free (freePtr s.mem (s.word (p + 1))) p).1, s.word, s.cells.set i none⟩ H rest ∧
      (Mem.free (freePtr s.mem (s.word (p + 1))) p).1.numFree = s.mem.numFree + if H i = none then liveWords (blocksAt s w p) else 2 := by
  cases hH : H i with
  | none =>
    rw [if_pos rfl]
    obtain ⟨g, hn⟩ := good_release hw h.good (i := i) (p := p) ((header_own hH).trans hp)
    refine ⟨⟨?_, fun j q d n hq hj => h.host j q d n (header_of_set hq) hj⟩, hn⟩
    unfold own heads
    simp only
    rw [sel_set, sel_off (q := fun i => (H i).isSome) s.cells (by simp [hH])]
    exact g
  | some x =>
    rw [if_neg (by simp)]
    obtain ⟨d, n⟩ := x
    obtain ⟨h1, h2, h3⟩ := h.host i p d n hp hH
    rw [h2, free_out (m := s.mem) h.good.inv h3]
    have hpm := heads_split hp hH (Mem.free s.mem p).1 s.word
    have hI := h.good.inv.perm (live' := (p, 2) :: (owned (own s H) w ++ (heads ⟨(Mem.free s.mem p).1, s.word, s.cells.set i none⟩ H ++ rest))) (by
      refine List.Perm.trans ?_ ((hpm.append_right rest).append_left (owned (own s H) w)).symm
      simp only [List.cons_append]
      exact List.perm_middle.symm)
    have hr := free_result hw hI (p := p) (k := 2) (by simp)
    rw [List.erase_cons_head] at hr
    have e : own ⟨(Mem.free s.mem p).1, s.word, s.cells.set i none⟩ H = ⟨(Mem.free s.mem p).1, s.word, (own s H).cells⟩ := by
      unfold own
      simp only
      rw [sel_off (q := fun i => (H i).isNone) s.cells (by simp [hH])]
    refine ⟨⟨⟨?_, ?_⟩, fun j q d n hq hj => h.host j q d n (header_of_set hq) hj⟩, hr.2.2.1⟩
    · rw [e]; exact hr.2.1
    · rw [e]; exact h.good.ptr

theorem create_cells {s s' : Bufs} {n : Nat} {cell : Bool} {r : Option Nat} (h : create s n cell = some (s', r)) :
    (r = none ∧ s'.cells = s.cells ∧ ∀ l, create ⟨s.mem, s.word, l⟩ n cell = some (⟨s'.mem, s'.word, l⟩, none)) ∨
      ∃ p, r = some s.cells.length ∧ s'.cells = s.cells ++ [some p] ∧ ∀ l, create ⟨s.mem, s.word, l⟩ n cell = some (⟨s'.mem, s'.word, l ++ [some p]⟩, some l.length) := by
  unfold create at h ⊢
  cases e : malloc s.mem (2 * (s.mem.w / 8)) with
  | none => rw [e] at h; cases h
  | some x =>
    obtain ⟨m, o⟩ := x
    rw [e] at h
    cases o with
    | none =>
      simp only [Option.bind_some, Option.some.injEq, Prod.mk.injEq] at h ⊢
      obtain ⟨rfl, rfl⟩ := h
      exact .inl ⟨rfl, rfl, fun _ => by rw [e]; rfl⟩
    | some p =>
      simp only [Option.bind_some] at h ⊢
      by_cases h0 : n = 0
      · rw [if_pos h0] at h
        simp only [if_pos h0]
        cases cell <;> simp only [finish, if_true, if_false, Bool.false_eq_true, Option.some.injEq, Prod.mk.injEq] at h ⊢ <;> obtain ⟨rfl, rfl⟩ := h
        · exact .inl ⟨rfl, rfl, fun _ => by rw [e]; rfl⟩
        · exact .inr ⟨p, rfl, rfl, fun _ => by rw [e]; rfl⟩
      · rw [if_neg h0] at h
        simp only [if_neg h0]
        cases e2 : malloc m n with
        | none => rw [e2] at h; cases h
        | some x =>
          obtain ⟨m2, o2⟩ := x
          rw [e2] at h
          cases o2 with
          | none =>
            simp only [Option.bind_some, Option.some.injEq, Prod.mk.injEq] at h ⊢
            obtain ⟨rfl, rfl⟩ := h
            exact .inl ⟨rfl, rfl, fun _ => by rw [e, Option.bind_some]; simp only; rw [e2]; rfl⟩
          | some d =>
            simp only [Option.bind_some] at h ⊢
            cases cell <;> simp only [finish, if_true, if_false, Bool.false_eq_true, Option.some.injEq, Prod.mk.injEq] at h ⊢ <;> obtain ⟨rfl, rfl⟩ := h
            · exact .inl ⟨rfl, rfl, fun _ => by rw [e, Option.bind_some]; simp only; rw [e2]; rfl⟩
            · exact .inr ⟨p, rfl, rfl, fun _ => by rw [e, Option.bind_some]; simp only; rw [e2]; rfl⟩

/-- The creation of an array, seen from the arrays that own their data. -/
theorem create_own {s s' : Bufs} {H : Host} {n : Nat} {cell : Bool} {r : Option Nat} (h : create s n cell = some (s', r)) :
    create (own s H) n cell = some (own s' (mark H s.cells.length none), r) ∧ heads s' (mark H s.cells.length none) = heads s H ∧
      (∀ j, j < s.cells.length → header s' j = header s j) := by
  rcases create_cells h with ⟨rfl, hc, hl⟩ | ⟨p, rfl, hc, hl⟩
  · refine ⟨?_, ?_, fun j _ => by unfold header; rw [hc]⟩
    · have := hl (own s H).cells
      refine this.trans ?_
      unfold own
      simp only
      rw [hc, mark_own]
    · unfold heads
      rw [hc, mark_host]
  · refine ⟨?_, ?_, fun j hj => by unfold header; rw [hc, List.getElem?_append_left hj]⟩
    · have := hl (own s H).cells
      refine this.trans ?_
      unfold own
      simp only
      rw [hc, sel_append, mark_own]
      simp [mark, sel]
    · unfold heads
      rw [hc, sel_append, mark_host]
      simp [mark]

theorem header_lt {s : Bufs} {j q : Nat} (h : header s j = some q) : j < s.cells.length := (header_mem h).1

theorem sgood_create {w size : Nat} (hw : size < 2 ^ w) (hw8 : 8 ≤ w) {s s' : Bufs} {H : Host} {rest : List Block} (h : SGood w size s H rest) {n : Nat} {cell : Bool} {r : Option Nat}
    (he : create s n cell = some (s', r)) : SGood w size s' (mark H s.cells.length none) rest := by
  obtain ⟨h1, h2, h3⟩ := create_own (H := H) he
  obtain ⟨s1, r1, e1, g1, hf, _⟩ := create_spec hw hw8 h.good n cell
  rw [h1] at e1; cases e1
  refine ⟨by rw [h2]; exact g1, fun i p d m hp hH => ?_⟩
  have hi : i ≠ s.cells.length := by
    rintro rfl
    simp [mark] at hH
  simp only [mark, if_neg hi] at hH
  have hlt : i < s.cells.length := by
    have := header_lt hp
    rcases create_cells he with ⟨_, hc, _⟩ | ⟨_, _, hc, _⟩
    · rwa [hc] at this
    · rw [hc, List.length_append, List.length_singleton] at this; omega
  rw [h3 i hlt] at hp
  have hm : ((p, 2) : Block) ∈ owned (own s H) w ++ (heads s H ++ rest) := List.mem_append_right _ (List.mem_append_left _ (mem_heads hp hH))
  have k1 : s'.word p = s.word p := hf _ hm p ⟨Nat.le_refl _, by show p < p + 2; omega⟩
  have k2 : s'.word (p + 1) = s.word (p + 1) := hf _ hm (p + 1) ⟨by show p ≤ p + 1; omega, by show p + 1 < p + 2; omega⟩
  rw [k1, k2]
  exact h.host i p d m hp hH

theorem mark_beyond {w size : Nat} {s : Bufs} {H : Host} {rest : List Block} (h : SGood w size s H rest) (x : Option (Nat × Nat)) : SGood w size s (mark H s.cells.length x) rest := by
  refine ⟨?_, fun i p d n hp hH => h.host i p d n hp ?_⟩
  · unfold own heads
    rw [mark_own, mark_host]
    exact h.good
  · simpa [mark, Nat.ne_of_lt (header_lt hp)] using hH

/-- What `lift` does to the blocks and the words. -/
theorem lift_spec {w size : Nat} (hs : 0 < size) (hw : size < 2 ^ w) (hw8 : 8 ≤ w) {s : Bufs} {H : Host} {rest : List Block} (h : SGood w size s H rest) {d n : Nat} (hl : Lent w size s H d n) (cell : Bool) :
    ∃ (s' : Bufs) (r : Option Nat) (rest' live : List Block), lift s d n cell = some (s', r) ∧ SGood w size s' (mark H s.cells.length (if size < d then some (d, n) else none)) rest' ∧
      (∀ b ∈ owned (own s H) w ++ heads s H, b ∈ live) ∧ (∀ b ∈ live, ∀ i, b.covers i → s'.word i = s.word i) ∧ (∀ i, size ≤ i → s'.word i = s.word i) ∧
      (¬ size < d → (d - 1, bytesToWords w n) ∈ live) ∧
      ((r = none ∧ s'.cells = s.cells ∧ s'.word = s.word ∧ s'.mem.numFree = s.mem.numFree) ∨
        ∃ p, r = some s.cells.length ∧ cell = true ∧ s'.cells = s.cells ++ [some p] ∧ s'.word p = n ∧ s'.word (p + 1) = d ∧ s'.mem.numFree + 2 = s.mem.numFree) := by
  obtain ⟨R, hR, hRn⟩ : ∃ R, Inv true w size s.mem (owned (own s H) w ++ (heads s H ++ R)) ∧
      (¬ size < d → d ≠ 0 ∧ n ≠ 0 ∧ ∃ rest, R = (d - 1, bytesToWords w n) :: rest) := by
    rcases hl with hl | ⟨hd, hn, live, rest', hr, hp⟩
    · exact ⟨rest, h.good.inv, fun hc => absurd hl hc⟩
    · exact ⟨_, (reach_inv hs hw hr).perm hp.symm, fun _ => ⟨hd, hn, _, rfl⟩⟩
  have hin : ∀ b ∈ owned (own s H) w ++ heads s H, b ∈ owned (own s H) w ++ (heads s H ++ R) := by
    intro b hb
    rw [← List.append_assoc]
    exact List.mem_append_left _ hb
  have hblk : ¬ size < d → (d - 1, bytesToWords w n) ∈ owned (own s H) w ++ (heads s H ++ R) := by
    intro hd
    obtain ⟨_, _, r0, e⟩ := hRn hd
    exact List.mem_append_right _ (List.mem_append_right _ (e ▸ List.mem_cons_self))
  unfold lift
  cases cell with
  | false =>
    rw [if_neg (by decide)]
    exact ⟨s, none, rest, _, rfl, mark_beyond h _, hin, fun _ _ _ _ => rfl, fun _ _ => rfl, hblk, .inl ⟨rfl, rfl, rfl, rfl⟩⟩
  | true =>
    rw [if_pos rfl]
    have hmw : s.mem.w = w := inv_w hR
    rw [hmw]
    rcases malloc_inv hw hR hmw (n := 2 * (w / 8)) (by omega) with ⟨m, p, e, h1⟩ | ⟨m, e, h1⟩
    · rw [two_words hw8] at h1
      rw [e, Option.bind_some]
      simp only
      have hout : ∀ b ∈ owned (own s H) w ++ (heads s H ++ R), ∀ i, b.covers i → i ≠ p ∧ i ≠ p + 1 := by
        intro b hb i hc
        have := apart h1 (c := b) (i := i) hb
        constructor
        · rintro rfl; exact this ⟨Nat.le_refl _, by show i < i + 2; omega⟩ hc
        · rintro rfl; exact this ⟨by show p ≤ p + 1; omega, by show p + 1 < p + 2; omega⟩ hc
      have hf : ∀ b ∈ owned (own s H) w ++ (heads s H ++ R), ∀ i, b.covers i → setWord (setWord s.word (p + 1) d) p n i = s.word i := by
        intro b hb i hc
        have := hout b hb i hc
        simp only [setWord]; rw [if_neg this.1, if_neg this.2]
      have hps := (inv_inside h1 (b := (p, 2)) List.mem_cons_self).1
      simp only at hps
      have hbig : ∀ i, size ≤ i → setWord (setWord s.word (p + 1) d) p n i = s.word i := by
        intro i hi
        simp only [setWord]; rw [if_neg (by omega), if_neg (by omega)]
      have hn1 := inv_numFree hR
      have hn2 := inv_numFree h1
      have hnum : m.numFree + 2 = s.mem.numFree := by
        simp only [liveWords, List.map_cons, List.sum_cons] at hn1 hn2
        omega
      have k1 : setWord (setWord s.word (p + 1) d) p n p = n := by simp [setWord]
      have k2 : setWord (setWord s.word (p + 1) d) p n (p + 1) = d := by simp [setWord]
      have ho : owned ⟨m, setWord (setWord s.word (p + 1) d) p n, (own s H).cells⟩ w = owned (own s H) w :=
        owned_congr (s := own s H) rfl fun b hb => hf b (List.mem_append_left _ hb)
      have hptr : ∀ q, some q ∈ (own s H).cells → (setWord (setWord s.word (p + 1) d) p n q = 0 ↔ setWord (setWord s.word (p + 1) d) p n (q + 1) = 0) :=
        (h.good.congr fun b hb => hf b (List.mem_append_left _ hb)).ptr
      have hhost : ∀ i q d' n', header s i = some q → H i = some (d', n') →
          setWord (setWord s.word (p + 1) d) p n q = n' ∧ setWord (setWord s.word (p + 1) d) p n (q + 1) = d' ∧ size < d' := by
        intro i q d' n' hq hH
        have hm : ((q, 2) : Block) ∈ owned (own s H) w ++ (heads s H ++ R) := List.mem_append_right _ (List.mem_append_left _ (mem_heads hq hH))
        rw [hf _ hm q ⟨Nat.le_refl _, by show q < q + 2; omega⟩, hf _ hm (q + 1) ⟨by show q ≤ q + 1; omega, by show q + 1 < q + 2; omega⟩]
        exact h.host i q d' n' hq hH
      have hold : ∀ i q, i ≠ s.cells.length → header ⟨m, setWord (setWord s.word (p + 1) d) p n, s.cells ++ [some p]⟩ i = some q → header s i = some q := by
        intro i q hi hq
        have := header_lt hq
        simp only [List.length_append, List.length_singleton] at this
        unfold header at hq ⊢
        simp only at hq
        rwa [List.getElem?_append_left (by omega)] at hq
      have hnew : header ⟨m, setWord (setWord s.word (p + 1) d) p n, s.cells ++ [some p]⟩ s.cells.length = some p := by unfold header; simp
      by_cases hd : size < d
      · rw [if_pos hd]
        refine ⟨_, _, R, _, rfl, ⟨⟨?_, ?_⟩, ?_⟩, hin, hf, hbig, hblk, .inr ⟨p, rfl, trivial, rfl, k1, k2, hnum⟩⟩
        · have e1 : owned (own ⟨m, setWord (setWord s.word (p + 1) d) p n, s.cells ++ [some p]⟩ (mark H s.cells.length (some (d, n)))) w = owned (own s H) w := by
            rw [← ho]
            unfold own owned
            simp only
            rw [sel_append, mark_own, List.flatMap_append]
            simp [mark, blocksAt]
          have e2 : heads ⟨m, setWord (setWord s.word (p + 1) d) p n, s.cells ++ [some p]⟩ (mark H s.cells.length (some (d, n))) = heads s H ++ [(p, 2)] := by
            unfold heads
            simp only
            rw [sel_append, mark_host, List.flatMap_append]
            simp [mark]
          rw [e1, e2]
          refine h1.perm ?_
          rw [List.append_assoc, ← List.append_assoc (owned (own s H) w), ← List.append_assoc (owned (own s H) w)]
          exact List.perm_middle
        · intro q hq
          refine hptr q ?_
          unfold own at hq
          simp only at hq
          rw [sel_append, mark_own] at hq
          simpa [mark, own] using hq
        · intro i q d' n' hq hH
          by_cases hi : i = s.cells.length
          · subst hi
            rw [hnew] at hq; cases hq
            simp only [mark, if_true, Option.some.injEq, Prod.mk.injEq] at hH
            obtain ⟨rfl, rfl⟩ := hH
            exact ⟨k1, k2, hd⟩
          · simp only [mark, if_neg hi] at hH
            exact hhost i q d' n' (hold i q hi hq) hH
      · rw [if_neg hd]
        obtain ⟨hd0, hn0, r0, hr0⟩ := hRn hd
        refine ⟨_, _, r0, _, rfl, ⟨⟨?_, ?_⟩, ?_⟩, hin, hf, hbig, hblk, .inr ⟨p, rfl, trivial, rfl, k1, k2, hnum⟩⟩
        · have e1 : owned (own ⟨m, setWord (setWord s.word (p + 1) d) p n, s.cells ++ [some p]⟩ (mark H s.cells.length none)) w =
              owned (own s H) w ++ [(p, 2), (d - 1, bytesToWords w n)] := by
            rw [← ho]
            unfold own owned
            simp only
            rw [sel_append, mark_own, List.flatMap_append]
            simp only [mark, if_true, Option.isNone_none, List.flatMap_cons, List.flatMap_nil, List.append_nil, blocksAt, k1, k2, if_neg hn0]
          have e2 : heads ⟨m, setWord (setWord s.word (p + 1) d) p n, s.cells ++ [some p]⟩ (mark H s.cells.length none) = heads s H := by
            unfold heads
            simp only
            rw [sel_append, mark_host, List.flatMap_append]
            simp [mark]
          rw [e1, e2]
          subst hr0
          refine h1.perm ?_
          simp only [List.append_assoc, List.cons_append, List.nil_append]
          refine List.perm_middle.trans (List.Perm.cons _ ?_)
          exact List.Perm.append_left _ List.perm_middle.symm
        · intro q hq
          unfold own at hq
          simp only at hq
          rw [sel_append, mark_own] at hq
          simp only [List.mem_append, mark, if_true, Option.isNone_none, List.mem_singleton, Option.some.injEq] at hq
          rcases hq with hq | rfl
          · exact hptr q hq
          · show setWord (setWord s.word (q + 1) d) q n q = 0 ↔ setWord (setWord s.word (q + 1) d) q n (q + 1) = 0
            rw [k1, k2]
            exact ⟨fun h => absurd h hn0, fun h => absurd h hd0⟩
        · intro i q d' n' hq hH
          by_cases hi : i = s.cells.length
          · subst hi
            simp [mark] at hH
          · simp only [mark, if_neg hi] at hH
            exact hhost i q d' n' (hold i q hi hq) hH
    · rw [e, Option.bind_some]
      simp only
      have hn1 := inv_numFree hR
      have hn2 := inv_numFree h1
      refine ⟨_, _, R, _, rfl, mark_beyond (s := ⟨m, s.word, s.cells⟩) ⟨⟨h1, h.good.ptr⟩, h.host⟩ _, hin, fun _ _ _ _ => rfl, fun _ _ => rfl, hblk, .inl ⟨rfl, rfl, rfl, ?_⟩⟩
      simp only
      omega

theorem access_own {s : Bufs} {H : Host} {i : Nat} (h : H i = none) (k : Nat) : access (own s H) i k = access s i k := by
  unfold access
  rw [header_own h]
  rfl

/-- The bytes of an array with data of the host are those that the host gave. -/
theorem access_host {w size : Nat} {s : Bufs} {H : Host} {rest : List Block} (h : SGood w size s H rest) {i p d n : Nat} (hp : header s i = some p) (hH : H i = some (d, n)) (k : Nat) :
    access s i k = if k < n then some (d - 1 + k / (w / 8)) else none := by
  obtain ⟨h1, h2, _⟩ := h.host i p d n hp hH
  unfold access
  rw [hp]
  simp only
  rw [h1, h2, show s.mem.w = w from inv_w h.good.inv]

theorem sgood_write {w size : Nat} (hw8 : 8 ≤ w) {s : Bufs} {H : Host} {rest : List Block} (h : SGood w size s H rest) (i k v : Nat) : SGood w size (write s i k v) H rest := by
  cases e : access s i k with
  | none => unfold write; rw [e]; exact h
  | some a =>
    cases hH : H i with
    | none =>
      have ea : access (own s H) i k = some a := (access_own hH k).trans e
      obtain ⟨p, hp, _, h0, -, hc⟩ := data_block h.good hw8 ea
      have g := good_write hw8 h.good i k v
      have hm := owned_of_header (w := w) hp (data_mem h0)
      have hpw := (List.pairwise_append.1 (inv_pairwise h.good.inv)).2.2
      unfold write at g ⊢
      rw [ea] at g
      rw [e]
      refine ⟨g, fun j q d n hq hj => ?_⟩
      have hq' : header s j = some q := hq
      have hd := hpw _ hm _ (List.mem_append_left rest (mem_heads hq' hj)) a
      have hn : ¬ Block.covers (q, 2) a := fun hqa => hd ⟨hc, hqa⟩
      simp only [Block.covers] at hn
      have k1 : setWord s.word a v q = s.word q := by unfold setWord; rw [if_neg (by omega)]
      have k2 : setWord s.word a v (q + 1) = s.word (q + 1) := by unfold setWord; rw [if_neg (by omega)]
      simp only [k1, k2]
      exact h.host j q d n hq' hj
    | some x =>
      obtain ⟨d, n⟩ := x
      cases hp : header s i with
      | none => unfold access at e; rw [hp] at e; cases e
      | some p =>
        obtain ⟨_, _, h3⟩ := h.host i p d n hp hH
        rw [access_host h hp hH] at e
        split at e
        · cases e
          unfold write
          rw [access_host h hp hH, if_pos (by assumption)]
          simp only
          refine h.congr fun b hb j hj => ?_
          have hb' : b ∈ owned (own s H) w ++ (heads s H ++ rest) := by rw [← List.append_assoc]; exact List.mem_append_left _ hb
          have := (inv_inside h.good.inv hb').1
          have : j < b.1 + b.2 := hj.2
          unfold setWord
          generalize k / (w / 8) = t
          rw [if_neg (by omega)]
        · cases e

theorem sreach_good {w size : Nat} (hs : 0 < size) (hw : size < 2 ^ w) (hw8 : 8 ≤ w) {s : Bufs} {H : Host} (h : SReach w size s H) : ∃ rest, SGood w size s H rest := by
  induction h with
  | @init m live f h => exact ⟨live, ⟨by simpa [owned, own, heads, sel] using reach_inv hs hw h, fun p hp => by simp [own, sel] at hp⟩, fun i p d n _ hH => by simp at hH⟩
  | @other s H m f live rest _ h hp hf ih =>
    obtain ⟨r, hg⟩ := ih
    exact ⟨rest, SGood.congr (s := ⟨m, s.word, s.cells⟩) ⟨⟨(reach_inv hs hw h).perm hp.symm, hg.good.ptr⟩, hg.host⟩ hf⟩
  | create _ e ih => obtain ⟨r, hg⟩ := ih; exact ⟨r, sgood_create hw hw8 hg e⟩
  | @lift s s' H d n cell r0 _ hl e ih =>
    obtain ⟨r, hg⟩ := ih
    obtain ⟨s1, r1, r2, live, e1, g, _⟩ := lift_spec hs hw hw8 hg hl cell
    rw [e] at e1; cases e1
    exact ⟨r2, g⟩
  | @free s H i _ ih =>
    obtain ⟨r, hg⟩ := ih
    refine ⟨r, ?_⟩
    unfold freeArr
    cases e : header s i with
    | none => exact hg
    | some p => exact (sgood_release hw hg e).1
  | @sweep s H i _ ih =>
    obtain ⟨r, hg⟩ := ih
    refine ⟨r, ?_⟩
    unfold Bufs.sweep
    cases e : header s i with
    | none => exact hg
    | some p => exact (sgood_release hw hg e).1
  | write i k v _ ih => obtain ⟨r, hg⟩ := ih; exact ⟨r, sgood_write hw8 hg i k v⟩

/-! ## C126 -/

/-- C126: in every state that occurs, a byte of an array that owns its data is in the memory, in a word that no allocation gives to somebody else, in no other array - also not in one with data of
the host - and no part of a header. A byte of an array with data of the host is one of the bytes that the host gave; no allocation gives it to anybody. -/
theorem C126_access {w size : Nat} (hs : 0 < size) (hw : size < 2 ^ w) (hw8 : 8 ≤ w) {s : Bufs} {H : Host} (h : SReach w size s H) {i k a : Nat} (ha : access s i k = some a) :
    (∀ n m q, allocate s.mem n = some (m, some q) → ¬ (q ≤ a ∧ a < q + n)) ∧ (∀ j q, header s j = some q → a ≠ q ∧ a ≠ q + 1) ∧
      (H i = none → a < size ∧ ∀ j k', j ≠ i → access s j k' ≠ some a) ∧ (∀ d n, H i = some (d, n) → size ≤ a ∧ k < n ∧ a = d - 1 + k / (w / 8)) := by
  obtain ⟨rest, hg⟩ := sreach_good hs hw hw8 h
  cases hH : H i with
  | none =>
    have ea : access (own s H) i k = some a := (access_own hH k).trans ha
    obtain ⟨p, hp, hk, h0, -, hc⟩ := data_block hg.good hw8 ea
    have hm := owned_of_header (w := w) hp (data_mem h0)
    have hl := List.mem_append_left (heads s H ++ rest) hm
    have hlt : a < size := by
      have h1 := (inv_inside hg.good.inv hl).1
      have h2 := hc.2
      simp only at h1 h2
      omega
    refine ⟨fun n m q e hq => ?_, fun j q hq => ?_, fun _ => ⟨hlt, fun j k' hj e => ?_⟩, fun d n e => by cases e⟩
    · rcases allocate_inv hw hg.good.inv n with ⟨m', p', e', _, h1, h2, _⟩ | ⟨m', e', _⟩
      · have e2 : allocate s.mem n = some (m', some p') := e'
        rw [e] at e2; cases e2
        exact apart h1 hl (b := (q, n)) (i := a) hq hc
      · have e2 : allocate s.mem n = some (m', none) := e'
        rw [e] at e2; cases e2
    · have key : ¬ Block.covers (q, 2) a := by
        intro hqc
        cases hj : H j with
        | none =>
          have hq' : header (own s H) j = some q := (header_own hj).trans hq
          by_cases hji : j = i
          · subst hji
            rw [hp] at hq'; cases hq'
            have h2 := (List.pairwise_append.1 (((owned_split (w := w) hp).pairwise_iff (fun h => Block.disjoint_symm h)).1 (List.pairwise_append.1 (inv_pairwise hg.good.inv)).1)).1
            unfold blocksAt at h2
            rw [if_neg h0, List.pairwise_cons] at h2
            exact h2.1 _ List.mem_cons_self a ⟨hqc, hc⟩
          · exact arrays_apart hg.good hp hq' hji (data_mem h0) (show ((q, 2) : Block) ∈ blocksAt (own s H) w q by simp [blocksAt]) a ⟨hc, hqc⟩
        | some x => exact (List.pairwise_append.1 (inv_pairwise hg.good.inv)).2.2 _ hm _ (List.mem_append_left rest (mem_heads hq hj)) a ⟨hc, hqc⟩
      simp only [Block.covers] at key
      omega
    · cases hj' : H j with
      | none =>
        obtain ⟨q, hq, _, h0', -, hc'⟩ := data_block hg.good hw8 ((access_own hj' k').trans e)
        exact arrays_apart hg.good hp hq hj (data_mem h0) (data_mem h0') a ⟨hc, hc'⟩
      | some x =>
        obtain ⟨d, n⟩ := x
        cases hq : header s j with
        | none => unfold access at e; rw [hq] at e; cases e
        | some q =>
          have h3 := (hg.host j q d n hq hj').2.2
          rw [access_host hg hq hj'] at e
          split at e
          · cases e; generalize k' / (w / 8) = t at hlt; omega
          · cases e
  | some x =>
    obtain ⟨d, n⟩ := x
    cases hp : header s i with
    | none => unfold access at ha; rw [hp] at ha; cases ha
    | some p =>
      have h3 := (hg.host i p d n hp hH).2.2
      rw [access_host hg hp hH] at ha
      split at ha
      · rename_i hk
        cases ha
        refine ⟨fun n' m q e hq => ?_, fun j q hq => ?_, fun e => (by cases e), fun d' n' e => ?_⟩
        · rcases allocate_inv hw hg.good.inv n' with ⟨m', p', e', _, h1, h2, _⟩ | ⟨m', e', _⟩
          · have e2 : allocate s.mem n' = some (m', some p') := e'
            rw [e] at e2; cases e2
            have := (inv_inside h1 (b := (q, n')) List.mem_cons_self).1
            simp only at this
            generalize k / (w / 8) = t at hq
            omega
          · have e2 : allocate s.mem n' = some (m', none) := e'
            rw [e] at e2; cases e2
        · have hb : ((q, 2) : Block) ∈ owned (own s H) w ++ (heads s H ++ rest) := by
            cases hj : H j with
            | none => exact List.mem_append_left _ (owned_of_header ((header_own hj).trans hq) (by simp [blocksAt]))
            | some x => exact List.mem_append_right _ (List.mem_append_left _ (mem_heads hq hj))
          have := (inv_inside hg.good.inv hb).1
          simp only at this
          generalize k / (w / 8) = t
          omega
        · simp only [Option.some.injEq, Prod.mk.injEq] at e
          obtain ⟨rfl, rfl⟩ := e
          exact ⟨by generalize k / (w / 8) = t; omega, hk, rfl⟩
      · cases ha

/-- C126: as long as an array made from the host's memory is not freed, all the bytes that the host gave can be accessed, and no others. -/
theorem C126_bytes {w size : Nat} (hs : 0 < size) (hw : size < 2 ^ w) (hw8 : 8 ≤ w) {s : Bufs} {H : Host} (h : SReach w size s H) {i p d n : Nat} (hp : header s i = some p) (hH : H i = some (d, n)) (k : Nat) :
    access s i k = if k < n then some (d - 1 + k / (w / 8)) else none := by
  obtain ⟨rest, hg⟩ := sreach_good hs hw hw8 h
  exact access_host hg hp hH k

/-- C126: `free` and the collector do the same to an array. What is given back is the header, and the data if they are not the host's; no word of the memory or of the host's changes. The array cannot be
accessed or freed again, and all others are as before. -/
theorem C126_release {w size : Nat} (hs : 0 < size) (hw : size < 2 ^ w) (hw8 : 8 ≤ w) {s : Bufs} {H : Host} (h : SReach w size s H) {i p : Nat} (hp : header s i = some p) :
    (freeArr s i).2 = .true_ ∧ Bufs.sweep s i = (freeArr s i).1 ∧ (freeArr s i).1.word = s.word ∧
      (freeArr s i).1.mem.numFree = s.mem.numFree + 2 + (if H i = none then bytesToWords w (s.word p) else 0) ∧
      (∀ k, access (freeArr s i).1 i k = none) ∧ freeArr (freeArr s i).1 i = ((freeArr s i).1, .terror) ∧
      ∀ j, j ≠ i → header (freeArr s i).1 j = header s j ∧ ∀ k, access (freeArr s i).1 j k = access s j k := by
  obtain ⟨rest, hg⟩ := sreach_good hs hw hw8 h
  obtain ⟨g, hn⟩ := sgood_release hw hg hp
  have e : freeArr s i = (⟨(Mem.free (freePtr s.mem (s.word (p + 1))) p).1, s.word, s.cells.set i none⟩, .true_) := by unfold freeArr; rw [hp]
  have hz : header ⟨(Mem.free (freePtr s.mem (s.word (p + 1))) p).1, s.word, s.cells.set i none⟩ i = none := header_self hp _ _
  rw [e]
  refine ⟨rfl, by unfold Bufs.sweep; rw [hp], rfl, ?_, fun k => by unfold access; rw [hz], by unfold freeArr; rw [hz], fun j hj => ?_⟩
  · simp only
    rw [hn]
    cases hH : H i with
    | some x => simp
    | none =>
      rw [if_pos rfl, if_pos rfl]
      unfold blocksAt liveWords
      split
      · rename_i h0
        rw [h0]
        have : bytesToWords w 0 = 0 := by simp [bytesToWords]
        rw [this]; rfl
      · simp only [List.map_cons, List.sum_cons, List.map_nil, List.sum_nil]; omega
  · have hh := header_set (s := s) hj (Mem.free (freePtr s.mem (s.word (p + 1))) p).1 s.word
    refine ⟨hh, fun k => ?_⟩
    unfold access
    simp only
    rw [hh, show (Mem.free (freePtr s.mem (s.word (p + 1))) p).1.w = s.mem.w from (inv_w g.good.inv).trans (inv_w hg.good.inv).symm]

/-- C126: making an array from memory that is there already. It succeeds or leaves everything as it was: then the memory still belongs to who had it. If it succeeds, the array has the bytes that were
given, with the contents they have, and two words of memory are used. All other arrays are as before. -/
theorem C126_lift {w size : Nat} (hs : 0 < size) (hw : size < 2 ^ w) (hw8 : 8 ≤ w) {s : Bufs} {H : Host} (h : SReach w size s H) {d n : Nat} (hl : Lent w size s H d n) (cell : Bool) :
    ∃ s' r, lift s d n cell = some (s', r) ∧ (∀ j, j < s.cells.length → header s' j = header s j ∧ ∀ k, access s' j k = access s j k ∧ contents s' j k = contents s j k) ∧
      (∀ i, r = some i → cell = true ∧ i = s.cells.length ∧ s'.mem.numFree + 2 = s.mem.numFree ∧ ∀ k, access s' i k = (if k < n then some (d - 1 + k / (w / 8)) else none) ∧
        contents s' i k = if k < n then some (s.word (d - 1 + k / (w / 8))) else none) ∧
      (r = none → s'.cells = s.cells ∧ s'.word = s.word ∧ s'.mem.numFree = s.mem.numFree) := by
  obtain ⟨rest, hg⟩ := sreach_good hs hw hw8 h
  obtain ⟨s', r, rest', live, e, g, hin, hf, hbig, hblk, hc⟩ := lift_spec hs hw hw8 hg hl cell
  have hww : s'.mem.w = s.mem.w := (inv_w g.good.inv).trans (inv_w hg.good.inv).symm
  have hmw : s'.mem.w = w := inv_w g.good.inv
  have hcells : ∀ j, j < s.cells.length → header s' j = header s j := by
    intro j hj
    rcases hc with ⟨_, hc, _⟩ | ⟨p, _, _, hc, _⟩
    · unfold header; rw [hc]
    · unfold header; rw [hc, List.getElem?_append_left hj]
  refine ⟨s', r, e, fun j hj => ?_, fun i hi => ?_, fun hn => ?_⟩
  · have hh := hcells j hj
    have ha : ∀ k, access s' j k = access s j k := by
      intro k
      unfold access
      rw [hh, hww]
      cases eq : header s j with
      | none => rfl
      | some q =>
        have hb : ((q, 2) : Block) ∈ owned (own s H) w ++ heads s H := by
          cases hj : H j with
          | none => exact List.mem_append_left _ (owned_of_header ((header_own hj).trans eq) (by simp [blocksAt]))
          | some x => exact List.mem_append_right _ (mem_heads eq hj)
        have h1 := hf _ (hin _ hb) q ⟨Nat.le_refl _, by show q < q + 2; omega⟩
        have h2 := hf _ (hin _ hb) (q + 1) ⟨by show q ≤ q + 1; omega, by show q + 1 < q + 2; omega⟩
        simp only [h1, h2]
    refine ⟨hh, fun k => ⟨ha k, ?_⟩⟩
    unfold contents
    rw [ha]
    cases ej : access s j k with
    | none => rfl
    | some b =>
      cases hj : H j with
      | none =>
        obtain ⟨q, hq, _, h0, -, hcov⟩ := data_block hg.good hw8 ((access_own hj k).trans ej)
        simp only [Option.map_some, hf _ (hin _ (List.mem_append_left _ (owned_of_header hq (data_mem h0)))) b hcov]
      | some x =>
        have := (C126_access hs hw hw8 h ej).2.2.2 x.1 x.2 hj
        simp only [Option.map_some, hbig b this.1]
  · rcases hc with ⟨hc, _⟩ | ⟨p, hr, hcell, hc, hp1, hp2, hnum⟩
    · rw [hc] at hi; cases hi
    · rw [hr] at hi; cases hi
      refine ⟨hcell, rfl, hnum, fun k => ?_⟩
      have hh : header s' s.cells.length = some p := by unfold header; rw [hc]; simp
      have ha : access s' s.cells.length k = if k < n then some (d - 1 + k / (w / 8)) else none := by
        unfold access; rw [hh]; simp only; rw [hp1, hp2, hmw]
      refine ⟨ha, ?_⟩
      unfold contents
      rw [ha]
      by_cases hk : k < n
      · rw [if_pos hk, if_pos hk, Option.map_some]
        congr 1
        by_cases hd : size < d
        · exact hbig _ (by generalize k / (w / 8) = t; omega)
        · refine hf _ (hblk hd) _ ⟨Nat.le_add_right _ _, ?_⟩
          have ha' := ha
          rw [if_pos hk] at ha'
          have hH : mark H s.cells.length (if size < d then some (d, n) else none) s.cells.length = none := by simp [mark, hd]
          obtain ⟨q, hq, _, _, e3, hcov⟩ := data_block g.good hw8 ((access_own hH k).trans ha')
          rw [header_own hH, hh] at hq; cases hq
          have h4 := hcov.2
          have h5 : (own s' (mark H s.cells.length (if size < d then some (d, n) else none))).word = s'.word := rfl
          rw [h5, hp1, hp2] at h4
          exact h4
      · rw [if_neg hk, if_neg hk]; rfl
  · rcases hc with ⟨_, hc⟩ | ⟨p, hr, _⟩
    · exact hc
    · rw [hr] at hn; cases hn

/-! ### A concrete history -/

/-- Ten bytes of the host at the word 100, behind the memory of 64 words, and an array of 5 bytes. -/
def shared : Bufs := (((create start 5 true).bind fun r => lift r.1 101 10 true).map (·.1)).getD start

theorem shared_reach : ∃ H, SReach 32 64 shared H ∧ H 1 = some (101, 10) ∧ H 0 = none := by
  have h0 : SReach 32 64 start fun _ => none := .init (.init 0)
  obtain ⟨s1, r1, e1, -⟩ := C120_create (by decide) (by decide) (by decide) start_reach 5 true
  have h1 := SReach.create h0 e1
  obtain ⟨s2, r2, e2, -⟩ := C126_lift (by decide) (by decide) (by decide) h1 (d := 101) (n := 10) (.inl (by decide)) true
  have h2 := SReach.lift h1 (.inl (by decide)) e2
  have hs : shared = s2 := by unfold shared; rw [e1, Option.bind_some, e2]; rfl
  have hl : s1.cells.length = 1 := by
    have : ((create start 5 true).map fun r => r.1.cells.length) = some 1 := by decide +kernel
    rw [e1] at this
    simpa using this
  rw [hs]
  refine ⟨_, h2, ?_, ?_⟩ <;> simp [mark, hl, start]

/-- The bytes of the host can be accessed, no others; after it is freed only the two words of the header are free again. -/
example : access shared 1 9 = some 102 ∧ access shared 1 10 = none ∧ header shared 1 = some 4 ∧ (freeArr shared 1).1.mem.numFree = shared.mem.numFree + 2 ∧
    (freeArr shared 0).1.mem.numFree = shared.mem.numFree + 4 := by decide +kernel

example : (freeArr shared 1).1.mem.numFree = shared.mem.numFree + 2 := by
  obtain ⟨H, h, h1, _⟩ := shared_reach
  have := (C126_release (by decide) (by decide) (by decide) h (show header shared 1 = some 4 by decide +kernel)).2.2.2.1
  rw [h1] at this
  simpa using this

/-- A block that was just allocated for 8 bytes may be made into an array: the second case of `Lent`. -/
example : ∃ m d, malloc start.mem 8 = some (m, some d) ∧ SReach 32 64 ⟨m, start.word, []⟩ (fun _ => none) ∧ Lent 32 64 ⟨m, start.word, []⟩ (fun _ => none) (d + 1) 8 := by
  obtain ⟨m, d, e⟩ : ∃ m d, malloc (Mem.init 32 64 0) 8 = some (m, some d) := by
    have : ((malloc (Mem.init 32 64 0) 8).bind (·.2)).isSome = true := by decide +kernel
    cases e : malloc (Mem.init 32 64 0) 8 with
    | none => rw [e] at this; cases this
    | some x =>
      obtain ⟨m, o⟩ := x
      cases o with
      | none => rw [e] at this; cases this
      | some d => exact ⟨m, d, rfl⟩
  have hr : Reach true 32 64 m [(d, bytesToWords 32 8)] := .malloc (.init 0) (by decide) e
  exact ⟨m, d, e, .init hr, .inr ⟨by omega, by decide, _, [], hr, by simp [owned, own, heads, sel]⟩⟩

/-- A block of 8 bytes of the memory that is made into an array twice. -/
def twice : Bufs := ((malloc start.mem 8).bind fun r => match r with
  | (m, some d) => ((lift ⟨m, start.word, []⟩ (d + 1) 8 true).bind fun r => lift r.1 (d + 1) 8 true).map (·.1)
  | _ => none).getD start

/-- C126 fails if a block of the memory is made into an array twice, and nothing prevents it: after one of the two is freed, the other one still accesses the block, which is free and is the next one to be allocated. -/
theorem C126_twice_violated : header twice 0 = some 2 ∧ header twice 1 = some 4 ∧ (freeArr twice 0).2 = .true_ ∧ access (freeArr twice 0).1 1 7 = some 1 ∧
    (allocate (freeArr twice 0).1.mem 2).map (·.2) = some (some 0) ∧ freeArr (freeArr twice 0).1 1 ≠ ((freeArr twice 0).1, .terror) := by
  refine ⟨by decide +kernel, by decide +kernel, by decide +kernel, by decide +kernel, by decide +kernel, fun h => ?_⟩
  have h1 : (freeArr (freeArr twice 0).1 1).2 = .true_ := by decide +kernel
  rw [h] at h1
  cases h1

/-- C120: `unflatten` of an array that was not freed gets the place of its first byte and its size. -/
theorem C120_unflatten {s : Bufs} {i p : Nat} (hp : header s i = some p) : ∃ d n, unflattenFrom s i = some (d, n) ∧ ∀ k, access s i k = if k < n then some (d - 1 + k / (s.mem.w / 8)) else none := by
  refine ⟨s.word (p + 1), s.word p, by unfold unflattenFrom; rw [hp], fun k => ?_⟩
  unfold access
  rw [hp]

example : unflattenFrom shared 1 = some (101, 10) := by decide +kernel

end Verif.Bufs
