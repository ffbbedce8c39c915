import Verif.Sched.Spec

namespace Verif.Sched

/-! ### Links -/

/-- The links outside of `L` are the same. -/
def Frame (k k' : Links) (L : List Cid) : Prop := ∀ d, d ∉ L → k'.next d = k.next d ∧ k'.prev d = k.prev d

theorem frame_mono {k k' : Links} {L M : List Cid} (h : Frame k k' L) (hs : ∀ d ∈ L, d ∈ M) : Frame k k' M := fun d hd => h d fun hx => hd (hs d hx)

theorem frame_trans {k k' k'' : Links} {L : List Cid} (h : Frame k k' L) (h' : Frame k' k'' L) : Frame k k'' L := fun d hd =>
  ⟨(h' d hd).1.trans (h d hd).1, (h' d hd).2.trans (h d hd).2⟩

theorem frame_setNext (k : Links) (c : Cid) (v : Option Cid) : Frame k (k.setNext c v) [c] := fun d hd => by
  have : d ≠ c := by simpa using hd
  exact ⟨if_neg this, rfl⟩

theorem frame_setPrev (k : Links) (c : Cid) (v : Option Cid) : Frame k (k.setPrev c v) [c] := fun d hd => by
  have : d ≠ c := by simpa using hd
  exact ⟨rfl, if_neg this⟩

theorem seg_congr {k k' : Links} : ∀ {l : List Cid} {p n : Option Cid}, (∀ c ∈ l, k'.next c = k.next c ∧ k'.prev c = k.prev c) → Seg k p l n → Seg k' p l n
  | [], _, _, _, _ => trivial
  | c :: l, p, n, h, ⟨h1, h2, h3⟩ => by
    obtain ⟨a, b⟩ := h c (by simp)
    exact ⟨b.trans h1, a.trans h2, seg_congr (fun d hd => h d (by simp [hd])) h3⟩

theorem seg_frame {k k' : Links} {l L : List Cid} {p n : Option Cid} (h : Frame k k' L) (hd : ∀ c ∈ l, c ∉ L) (hs : Seg k p l n) : Seg k' p l n :=
  seg_congr (fun c hc => h c (hd c hc)) hs

theorem isQueue_frame {k k' : Links} {q : Queue} {l L : List Cid} (h : Frame k k' L) (hd : ∀ c ∈ l, c ∉ L) (hq : IsQueue k q l) : IsQueue k' q l :=
  ⟨hq.1, hq.2.1, seg_frame h hd hq.2.2⟩

theorem seg_append {k : Links} : ∀ {a b : List Cid} {p n : Option Cid}, Seg k p (a ++ b) n ↔ Seg k p a (b.head?.or n) ∧ Seg k (a.getLast?.or p) b n
  | [], b, p, n => by simp [Seg]
  | c :: a, b, p, n => by
    simp only [List.cons_append, Seg]
    rw [seg_append (a := a)]
    have h1 : (a ++ b).head?.or n = a.head?.or (b.head?.or n) := by cases a <;> simp
    have h2 : (c :: a).getLast?.or p = a.getLast?.or (some c) := by
      cases h : a.getLast? with
      | none => rw [List.getLast?_eq_none_iff] at h; subst h; rfl
      | some x => rw [List.getLast?_cons, h]; rfl
    rw [h1, h2]
    constructor
    · rintro ⟨x, y, z, t⟩; exact ⟨⟨x, y, z⟩, t⟩
    · rintro ⟨⟨x, y, z⟩, t⟩; exact ⟨x, y, z, t⟩

/-- Redirecting the `next` of the last element. -/
theorem seg_setNext_last {k : Links} {a : List Cid} {x : Cid} {p n : Option Cid} (n' : Option Cid) (hx : x ∉ a) (h : Seg k p (a ++ [x]) n) :
    Seg (k.setNext x n') p (a ++ [x]) n' := by
  rw [seg_append] at h ⊢
  refine ⟨seg_frame (frame_setNext k x n') (by rintro c hc; simp; rintro rfl; exact hx hc) (by simpa using h.1), ?_, ?_, trivial⟩
  · exact h.2.1
  · show (if x = x then n' else _) = _
    simp

/-- Redirecting the `prev` of the first element. -/
theorem seg_setPrev_first {k : Links} {a : List Cid} {x : Cid} {p n : Option Cid} (p' : Option Cid) (hx : x ∉ a) (h : Seg k p (x :: a) n) :
    Seg (k.setPrev x p') p' (x :: a) n := by
  refine ⟨?_, h.2.1, seg_frame (frame_setPrev k x p') (by rintro c hc; simp; rintro rfl; exact hx hc) h.2.2⟩
  show (if x = x then p' else _) = _
  simp

theorem enqueue_spec {k : Links} {q : Queue} {l : List Cid} {c : Cid} (hq : IsQueue k q l) (hc : c ∉ l) (hn : l.Nodup) :
    IsQueue (enqueue k q c).1 (enqueue k q c).2 (l ++ [c]) ∧ Frame k (enqueue k q c).1 (l ++ [c]) := by
  obtain ⟨h1, h2, h3⟩ := hq
  rcases List.eq_nil_or_concat l with rfl | ⟨a, x, rfl⟩
  · simp only [enqueue, h2, List.getLast?_nil]
    refine ⟨⟨rfl, rfl, ?_, ?_, trivial⟩, ?_⟩
    · simp [Links.setNext, Links.setPrev]
    · simp [Links.setNext, Links.setPrev]
    · exact frame_trans (frame_mono (frame_setPrev k c none) (by simp)) (frame_mono (frame_setNext _ c none) (by simp))
  · simp only [List.concat_eq_append] at *
    have hxc : x ≠ c := by rintro rfl; simp at hc
    have hca : c ∉ a := by intro h; simp [h] at hc
    have hxa : x ∉ a := by
      intro h; rw [List.nodup_append] at hn; exact hn.2.2 x h x (by simp) rfl
    simp only [enqueue, h2, List.getLast?_append, List.getLast?_singleton, Option.some_or]
    constructor
    · refine ⟨?_, by simp, ?_⟩
      · rw [h1]; cases a <;> simp
      · rw [seg_append]
        constructor
        · apply seg_setNext_last (some c) hxa (n := none)
          apply seg_frame (L := [c]) (k := k)
          · exact frame_trans (frame_setPrev k c (some x)) (frame_setNext _ c none)
          · intro d hd
            have : d ∈ a ++ [x] := hd
            simp; rintro rfl; exact hc this
          · exact h3
        · simp only [List.getLast?_append, List.getLast?_singleton, Option.some_or]
          refine ⟨?_, ?_, trivial⟩
          · simp [Links.setNext, Links.setPrev]
          · simp [Links.setNext, Links.setPrev, hxc.symm]
    · refine frame_trans (frame_mono (frame_setPrev k c (some x)) (by simp)) (frame_trans (frame_mono (frame_setNext _ c none) (by simp)) (frame_mono (frame_setNext _ x (some c)) (by simp)))

theorem unlink_spec {k : Links} {q : Queue} {a b : List Cid} {c : Cid} (hq : IsQueue k q (a ++ c :: b)) (hn : (a ++ c :: b).Nodup) :
    ∃ k' q', unlink k q c = some (k', q') ∧ IsQueue k' q' (a ++ b) ∧ Frame k k' (a ++ b) := by
  obtain ⟨h1, h2, h3⟩ := hq
  rw [seg_append] at h3
  obtain ⟨h3, h4, h5, h6⟩ := h3
  simp only [Option.or_none] at h4 h5
  have hn' := List.nodup_append.1 hn
  obtain ⟨na, nb, nd⟩ := hn'
  have nb' := List.nodup_cons.1 nb
  unfold unlink
  rcases List.eq_nil_or_concat a with rfl | ⟨a', x, rfl⟩
  · cases b with
    | nil =>
      rw [h4, h5]
      exact ⟨_, _, rfl, ⟨rfl, rfl, trivial⟩, fun d _ => ⟨rfl, rfl⟩⟩
    | cons y b =>
      rw [h4, h5]
      refine ⟨_, _, rfl, ⟨rfl, ?_, ?_⟩, frame_mono (frame_setPrev k y none) (by simp)⟩
      · rw [h2]; simp [List.getLast?_cons]
      · exact seg_setPrev_first none (List.nodup_cons.1 nb'.2).1 h6
  · simp only [List.concat_eq_append] at *
    have hxa : x ∉ a' := by
      intro h; rw [List.nodup_append] at na; exact na.2.2 x h x (by simp) rfl
    simp only [List.getLast?_append, List.getLast?_singleton, Option.some_or] at h4
    cases b with
    | nil =>
      rw [h4, h5]
      refine ⟨_, _, rfl, ⟨?_, by simp, ?_⟩, frame_mono (frame_setNext k x none) (by simp)⟩
      · rw [h1]; cases a' <;> simp
      · rw [List.append_nil]
        exact seg_setNext_last none hxa h3
    | cons y b =>
      rw [h4, h5]
      have hyx : y ≠ x := by rintro rfl; exact nd y (by simp) y (by simp) rfl
      have hya : y ∉ a' ++ [x] := fun h => nd y h y (by simp) rfl
      have hxb : x ∉ y :: b := fun h => nd x (by simp) x (List.mem_cons_of_mem _ h) rfl
      refine ⟨_, _, rfl, ⟨?_, ?_, ?_⟩, frame_trans (frame_mono (frame_setNext k x (some y)) (by simp)) (frame_mono (frame_setPrev _ y (some x)) (by simp))⟩
      · rw [h1]; cases a' <;> simp
      · rw [h2]; simp [List.getLast?_append, List.getLast?_cons]
      · rw [seg_append]
        constructor
        · apply seg_frame (frame_setPrev _ y (some x)) (by intro d hd; simp; rintro rfl; exact hya hd)
          exact seg_setNext_last (some y) hxa h3
        · simp only [List.getLast?_append, List.getLast?_singleton, Option.some_or]
          apply seg_setPrev_first (some x) (List.nodup_cons.1 nb'.2).1 (p := some c)
          exact seg_frame (frame_setNext k x (some y)) (by intro d hd; simp; rintro rfl; exact hxb hd) h6

theorem lookup_spec {k : Links} {c : Cid} : ∀ {l : List Cid} {p : Option Cid}, Seg k p l none → ∀ f, l.length ≤ f → lookup k f l.head? c = some (decide (c ∈ l))
  | [], _, _, f, _ => by cases f <;> rfl
  | d :: l, p, h, 0, hf => by simp at hf
  | d :: l, p, ⟨_, h2, h3⟩, f + 1, hf => by
    have ih := lookup_spec (c := c) h3 f (by simpa using hf)
    rw [List.head?_cons, lookup, h2, Option.or_none, ih]
    by_cases hd : d = c
    · rw [if_pos hd]; simp [hd]
    · rw [if_neg hd]; simp [Ne.symm hd]

theorem dropLoop_spec {k : Links} {q : Queue} {c : Cid} : ∀ {l : List Cid} {p : Option Cid}, Seg k p l none → ∀ f, l.length ≤ f →
    dropLoop k q f l.head? c = if c ∈ l then unlink k q c else some (k, q)
  | [], _, _, f, _ => by cases f <;> rfl
  | d :: l, p, h, 0, hf => by simp at hf
  | d :: l, p, ⟨_, h2, h3⟩, f + 1, hf => by
    have ih := dropLoop_spec (q := q) (c := c) h3 f (by simpa using hf)
    rw [List.head?_cons, dropLoop, h2, Option.or_none, ih]
    by_cases hd : d = c
    · rw [if_pos hd]; simp [hd]
    · rw [if_neg hd]; simp [Ne.symm hd]

theorem drop_spec {k : Links} {q : Queue} {l : List Cid} {c : Cid} (hq : IsQueue k q l) (f : Nat) (hf : l.length ≤ f) :
    drop f k q c = if c ∈ l then unlink k q c else some (k, q) := by
  obtain ⟨h1, h2, h3⟩ := hq
  unfold drop
  cases l with
  | nil => rw [if_pos (.inl h1)]; simp
  | cons d l =>
    rw [if_neg (by rw [h1, h2]; simp [List.getLast?_cons]), h1]
    exact dropLoop_spec h3 f hf

theorem dequeue_spec {k : Links} {q : Queue} {l : List Cid} (hq : IsQueue k q l) (hn : l.Nodup) :
    ∃ k' q', dequeue k q = some (k', q', l.head?) ∧ IsQueue k' q' l.tail ∧ Frame k k' l := by
  obtain ⟨h1, h2, h3⟩ := hq
  unfold dequeue
  cases l with
  | nil => rw [h2]; exact ⟨k, q, rfl, ⟨h1, h2, h3⟩, fun d _ => ⟨rfl, rfl⟩⟩
  | cons c l =>
    obtain ⟨h4, h5, h6⟩ := h3
    cases l with
    | nil =>
      rw [h2, h1]
      simp only [List.getLast?_singleton, List.head?_cons, if_true]
      refine ⟨_, _, rfl, ⟨rfl, rfl, trivial⟩, frame_trans (frame_setPrev k c none) (frame_setNext _ c none)⟩
    | cons d l =>
      have hcd : c ∉ d :: l := (List.nodup_cons.1 hn).1
      have hlast : (c :: d :: l).getLast? = some ((d :: l).getLast (by simp)) := by rw [List.getLast?_cons, List.getLast?_eq_some_getLast (by simp)]; rfl
      rw [h2, h1, hlast]
      simp only [List.head?_cons]
      rw [if_neg (by rintro rfl; exact hcd (List.getLast_mem _)), h5]
      refine ⟨_, _, rfl, ⟨rfl, ?_, ?_⟩, ?_⟩
      · simp [List.getLast?_eq_some_getLast]
      · have e1 := seg_setPrev_first none (List.nodup_cons.1 (List.nodup_cons.1 hn).2).1 h6
        exact seg_frame (frame_trans (frame_setPrev _ c none) (frame_setNext _ c none)) (by intro x hx; simp; rintro rfl; exact hcd hx) e1
      · exact frame_trans (frame_mono (frame_setPrev k d none) (by simp)) (frame_trans (frame_mono (frame_setPrev _ c none) (by simp)) (frame_mono (frame_setNext _ c none) (by simp)))

/-- Both ways to unlink do the same. -/
theorem wakeUnlink_eq {k : Links} {q : Queue} {a b : List Cid} {c : Cid} (hq : IsQueue k q (a ++ c :: b)) (hn : (a ++ c :: b).Nodup) :
    wakeUnlink k q c = unlink k q c := by
  obtain ⟨h1, h2, h3⟩ := hq
  rw [seg_append] at h3
  obtain ⟨h3, h4, h5, h6⟩ := h3
  simp only [Option.or_none] at h4 h5
  have hn' := List.nodup_append.1 hn
  obtain ⟨na, nb, nd⟩ := hn'
  have nb' := List.nodup_cons.1 nb
  unfold wakeUnlink unlink
  cases b with
  | nil =>
    rw [h2, if_pos (by simp), h5]
    cases k.prev c <;> rfl
  | cons y b =>
    have hl : (a ++ c :: y :: b).getLast? = some ((y :: b).getLast (by simp)) := by
      simp [List.getLast?_append, List.getLast?_cons, List.getLast?_eq_some_getLast]
    rw [if_neg (by
      rw [h2, hl]
      intro e
      injection e with e
      exact nb'.1 (e ▸ List.getLast_mem _)), h5]
    cases hp : k.prev c with
    | none => rfl
    | some x =>
      rw [hp] at h4
      have hxc : c ≠ x := by
        rintro rfl
        cases hla : a.getLast? with
        | none => rw [hla] at h4; cases h4
        | some z =>
          rw [hla] at h4
          cases h4
          exact nd c (List.mem_of_getLast? hla) c (by simp) rfl
      have e1 : (k.setNext x (some y)).next c = some y := by
        show (if c = x then _ else _) = _
        rw [if_neg hxc, h5]; rfl
      have e2 : (k.setNext x (some y)).prev c = some x := hp
      simp only [List.head?_cons, e1, e2]

end Verif.Sched
