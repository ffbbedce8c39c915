import Verif.Stack.Spec

/-!
# Stacks: properties
-/

namespace Verif.Stack

/-- The words on the stack, the top first. -/
def Stk.words (s : Stk) : List Nat := (s.data.take s.sp).reverse

/-- The stack in memory and the ideal stack. -/
structure Rep (size : Nat) (s : Stk) (t : Ideal) : Prop where
  size_eq : s.size = size
  len : s.data.length = size
  sp_le : s.sp ≤ t.most
  most_le : t.most ≤ size
  words : s.words = t.words
  free : ∀ i, t.most ≤ i → i < size → s.data[i]? = some unusedWord

/-- The last word below the highest place is not the filler. -/
def Marked (s : Stk) (t : Ideal) : Prop := t.most = 0 ∨ ∃ w, s.data[t.most - 1]? = some w ∧ w ≠ unusedWord

theorem Rep.length {size : Nat} {s : Stk} {t : Ideal} (h : Rep size s t) : t.words.length = s.sp := by
  rw [← h.words, Stk.words, List.length_reverse, List.length_take, h.len]
  have := h.sp_le
  have := h.most_le
  omega

theorem put_words {l : List Nat} {sp v : Nat} (h : sp < l.length) : ((l.set sp v).take (sp + 1)).reverse = v :: (l.take sp).reverse := by
  have : (l.set sp v).take (sp + 1) = l.take sp ++ [v] := by
    rw [List.take_set, List.take_add_one, List.getElem?_eq_getElem h]
    simp only [Option.toList_some]
    rw [List.set_append_right _ _ (by simp; omega)]
    simp [Nat.min_eq_left (Nat.le_of_lt h)]
  rw [this, List.reverse_append]
  rfl

/-- Write a word on the top. -/
theorem Rep.push {size : Nat} {s : Stk} {t : Ideal} (h : Rep size s t) (v : Nat) (hs : s.sp < size) :
    ∃ s', s.put s.sp v = some s' ∧ s'.sp = s.sp ∧ Rep size { s' with sp := s.sp + 1 } (t.now (v :: t.words)) ∧
      (v ≠ unusedWord → Marked s t → Marked { s' with sp := s.sp + 1 } (t.now (v :: t.words))) := by
  have hl := h.length
  have h1 := h.sp_le
  have h2 := h.most_le
  refine ⟨{ s with data := s.data.set s.sp v }, by rw [Stk.put, if_pos (by rw [h.len]; exact hs)], rfl, ⟨h.size_eq, by simp [h.len], ?_, ?_, ?_, ?_⟩, ?_⟩
  · simp only [Ideal.now, List.length_cons, hl]
    omega
  · simp only [Ideal.now, List.length_cons, hl]
    omega
  · rw [Stk.words, put_words (by rw [h.len]; exact hs), ← h.words]
    rfl
  · intro i hi hi2
    simp only [Ideal.now, List.length_cons, hl] at hi
    have : s.sp ≠ i := by omega
    simp only [List.getElem?_set_ne this]
    exact h.free i (by omega) hi2
  · intro hv hm
    right
    simp only [Ideal.now, List.length_cons, hl]
    by_cases hmo : t.most ≤ s.sp
    · rw [show max t.most (s.sp + 1) - 1 = s.sp by omega]
      exact ⟨v, by rw [List.getElem?_set_self (by rw [h.len]; exact hs)], hv⟩
    · rw [show max t.most (s.sp + 1) = t.most by omega]
      by_cases he : s.sp = t.most - 1
      · exact ⟨v, by rw [he, List.getElem?_set_self (by rw [h.len]; omega)], hv⟩
      · rcases hm with hm | ⟨w, hw1, hw2⟩
        · omega
        · exact ⟨w, by rw [List.getElem?_set_ne he]; exact hw1, hw2⟩

/-- Remove words from the top. -/
theorem Rep.drop {size : Nat} {s : Stk} {t : Ideal} (h : Rep size s t) {n : Nat} (hn : n ≤ s.sp) :
    Rep size { s with sp := s.sp - n } (t.now (t.words.drop n)) ∧ (Marked s t → Marked { s with sp := s.sp - n } (t.now (t.words.drop n))) := by
  have hl := h.length
  have h1 := h.sp_le
  have hm : (t.now (t.words.drop n)).most = t.most := by simp only [Ideal.now, List.length_drop, hl]; omega
  refine ⟨⟨h.size_eq, h.len, by rw [hm]; simp only; omega, by rw [hm]; exact h.most_le, ?_, fun i hi => by rw [hm] at hi; exact h.free i hi⟩, fun hk => by
    unfold Marked at hk ⊢
    rwa [hm]⟩
  show (s.data.take (s.sp - n)).reverse = (t.words.drop n)
  rw [← h.words, Stk.words, List.drop_reverse]
  congr 1
  rw [List.length_take, h.len, Nat.min_eq_left (Nat.le_trans h.sp_le h.most_le), List.take_take, Nat.min_eq_left (by omega)]

/-- A word of the stack. -/
theorem Rep.get {size : Nat} {s : Stk} {t : Ideal} (h : Rep size s t) {i : Nat} (hi : i < s.sp) : s.get i = t.words[s.sp - 1 - i]? ∧ i < s.data.length := by
  have h1 := h.sp_le
  have h2 := h.most_le
  refine ⟨?_, by rw [h.len]; omega⟩
  rw [← h.words, Stk.words, Stk.get, List.getElem?_reverse (by rw [List.length_take, h.len]; omega), List.length_take, h.len, Nat.min_eq_left (by omega),
    List.getElem?_take_of_lt (by omega)]
  congr 1
  omega

theorem getAll_eq {s : Stk} : ∀ (n i : Nat), i + n ≤ s.data.length → s.getAll i n = some ((s.data.drop i).take n)
  | 0, i, _ => by simp [Stk.getAll]
  | n + 1, i, h => by
    have hi : i < s.data.length := by omega
    rw [Stk.getAll, Stk.get, List.getElem?_eq_getElem hi, Option.bind_some, getAll_eq n (i + 1) (by omega), Option.map_some, List.drop_eq_getElem_cons hi, List.take_succ_cons]

/-- The words of an area, in the order in which they were pushed. -/
theorem Rep.area {size : Nat} {s : Stk} {t : Ideal} (h : Rep size s t) {n : Nat} (hn : n ≤ s.sp) : s.getAll (s.sp - n) n = some (t.words.take n).reverse := by
  have h1 := h.sp_le
  have h2 := h.most_le
  rw [getAll_eq n _ (by rw [h.len]; omega), ← h.words, Stk.words, List.take_reverse, List.reverse_reverse, List.length_take, h.len, Nat.min_eq_left (by omega),
    List.drop_take, show s.sp - (s.sp - n) = n by omega]

/-- Write words on the top. -/
theorem Rep.pushAll {size : Nat} : ∀ (vs : List Nat) {s : Stk} {t : Ideal}, Rep size s t → s.sp + vs.length ≤ size →
    ∃ s', s.putAll s.sp vs = some s' ∧ s'.sp = s.sp ∧ Rep size { s' with sp := s.sp + vs.length } (t.now (vs.reverse ++ t.words)) ∧
      ((∀ v ∈ vs, v ≠ unusedWord) → Marked s t → Marked { s' with sp := s.sp + vs.length } (t.now (vs.reverse ++ t.words)))
  | [], s, t, h, _ => by
    have hl := h.length
    have h1 := h.sp_le
    have : t.now t.words = t := by
      simp only [Ideal.now, hl, Nat.max_eq_left h1]
    exact ⟨s, rfl, rfl, by simpa [this] using h, by simp [this]⟩
  | v :: vs, s, t, h, hs => by
    simp only [List.length_cons] at hs
    obtain ⟨s1, p1, p2, p3, p4⟩ := h.push v (by omega)
    obtain ⟨s2, q1, q2, q3, q4⟩ := Rep.pushAll vs p3 (by simp only; omega)
    have e : ∀ (l : List Nat) (i : Nat) (u : Stk) (k : Nat), ({ u with sp := k } : Stk).putAll i l = (u.putAll i l).map fun x => { x with sp := k } := by
      intro l
      induction l with
      | nil => intro i u k; rfl
      | cons a l ih =>
        intro i u k
        simp only [Stk.putAll, Stk.put]
        split
        · simp only [Option.bind_some]
          exact ih (i + 1) { u with data := u.data.set i a } k
        · rfl
    simp only at q1 q2 q3 q4
    rw [e] at q1
    cases hp : s1.putAll (s.sp + 1) vs with
    | none => rw [hp] at q1; cases q1
    | some s3 =>
      rw [hp] at q1
      simp only [Option.map_some, Option.some.injEq] at q1
      subst q1
      have hsp : s3.sp = s1.sp := by
        have := e vs (s.sp + 1) s1 s1.sp
        rw [show ({ s1 with sp := s1.sp } : Stk) = s1 from rfl, hp] at this
        simp only [Option.map_some, Option.some.injEq] at this
        rw [this]
      have hw : (t.now (v :: t.words)).now (vs.reverse ++ (t.now (v :: t.words)).words) = t.now ((v :: vs).reverse ++ t.words) := by
        simp only [Ideal.now, List.reverse_cons, List.append_assoc, List.singleton_append, List.length_append, List.length_reverse, List.length_cons]
        congr 1
        omega
      rw [hw] at q3 q4
      simp only at q3 q4
      rw [show s.sp + 1 + vs.length = s.sp + (v :: vs).length by simp only [List.length_cons]; omega] at q3 q4
      refine ⟨s3, by rw [Stk.putAll, p1]; exact hp, hsp.trans p2, q3, fun hv hm => ?_⟩
      exact q4 (fun x hx => hv x (List.mem_cons_of_mem _ hx)) (p4 (hv v List.mem_cons_self) hm)

/-- Write a word into an area. -/
theorem Rep.poke {size : Nat} {s : Stk} {t : Ideal} (h : Rep size s t) {n i v : Nat} (hn : n ≤ s.sp) (hi : i < n) :
    ∃ s', s.put (s.sp - n + i) v = some s' ∧ Rep size s' (t.now (t.words.set (n - 1 - i) v)) ∧
      (v ≠ unusedWord → Marked s t → Marked s' (t.now (t.words.set (n - 1 - i) v))) := by
  have hl := h.length
  have h1 := h.sp_le
  have h2 := h.most_le
  have hm : (t.now (t.words.set (n - 1 - i) v)).most = t.most := by simp only [Ideal.now, List.length_set, hl]; omega
  refine ⟨{ s with data := s.data.set (s.sp - n + i) v }, by rw [Stk.put, if_pos (by rw [h.len]; omega)], ⟨h.size_eq, by simp [h.len], by rw [hm]; exact h1, by rw [hm]; exact h2, ?_, ?_⟩, ?_⟩
  · show ((s.data.set (s.sp - n + i) v).take s.sp).reverse = t.words.set (n - 1 - i) v
    rw [← h.words, Stk.words, List.take_set]
    apply List.ext_getElem?
    intro j
    have hlen : (s.data.take s.sp).length = s.sp := by rw [List.length_take, h.len]; omega
    by_cases hj : j < s.sp
    · rw [List.getElem?_reverse (by rw [List.length_set, hlen]; exact hj), List.length_set, hlen, List.getElem?_set, List.getElem?_set]
      rw [List.length_reverse, hlen]
      by_cases e : n - 1 - i = j
      · rw [if_pos (by omega), if_pos e, if_pos (by omega), if_pos (by omega)]
      · rw [if_neg (by omega), if_neg e, List.getElem?_reverse (by rw [hlen]; exact hj), hlen]
    · rw [List.getElem?_eq_none (by rw [List.length_reverse, List.length_set, hlen]; omega), List.getElem?_eq_none (by rw [List.length_set, List.length_reverse, hlen]; omega)]
  · intro j hj hj2
    rw [hm] at hj
    simp only
    rw [List.getElem?_set_ne (by omega)]
    exact h.free j hj hj2
  · intro hv hk
    unfold Marked at hk ⊢
    rw [hm]
    rcases hk with hk | ⟨w, hw1, hw2⟩
    · exact .inl hk
    · right
      by_cases e : s.sp - n + i = t.most - 1
      · exact ⟨v, by simp only; rw [← e, List.getElem?_set_self (by rw [h.len]; omega)], hv⟩
      · exact ⟨w, by simp only; rw [List.getElem?_set_ne e]; exact hw1, hw2⟩

theorem take1 {l : List Nat} {n : Nat} {v : Nat} (h : l[n]? = some v) : (l.drop n).take 1 = [v] := by
  obtain ⟨hn, rfl⟩ := List.getElem?_eq_some_iff.1 h
  rw [List.drop_eq_getElem_cons hn]
  rfl

/-- One operation. -/
theorem Rep.step {size : Nat} {s : Stk} {t t' : Ideal} {a : Ans} (h : Rep size s t) (o : Op) (ho : o.ideal size t = some (t', a)) :
    ∃ s', o.run s = some (s', a) ∧ Rep size s' t' ∧ ((∀ v ∈ o.written, v ≠ unusedWord) → Marked s t → Marked s' t') := by
  have hl := h.length
  have h1 := h.sp_le
  have h2 := h.most_le
  have h3 := h.size_eq
  cases o with
  | push v =>
    simp only [Op.ideal, hl] at ho
    split at ho
    · rename_i hlt
      cases ho
      obtain ⟨s', p1, p2, p3, p4⟩ := h.push v hlt
      refine ⟨_, ?_, p3, fun hv => p4 (hv v (by simp [Op.written]))⟩
      simp only [Op.run, Stk.push]
      rw [if_neg (by omega), p1]
      simp only [Option.map_some, p2]
    · cases ho
      refine ⟨s, ?_, h, fun _ hm => hm⟩
      simp only [Op.run, Stk.push]
      rw [if_pos (by omega)]
      rfl
  | pop =>
    simp only [Op.ideal, hl] at ho
    split at ho
    · rename_i hlt
      cases ho
      obtain ⟨p3, p4⟩ := h.drop (n := 1) hlt
      refine ⟨_, ?_, p3, fun _ => p4⟩
      have hw := (h.get (i := s.sp - 1) (by omega)).1
      rw [show s.sp - 1 - (s.sp - 1) = 0 by omega] at hw
      match hwd : t.words, hl with
      | a :: l, hl =>
        rw [hwd] at hw
        simp only [Op.run, Stk.pop]
        rw [if_neg (by omega), hw]
        rfl
      | [], hl => simp at hl; omega
    · cases ho
  | pop2 =>
    simp only [Op.ideal, hl] at ho
    split at ho
    · rename_i hlt
      cases ho
      obtain ⟨p3, p4⟩ := h.drop (n := 2) hlt
      refine ⟨_, ?_, p3, fun _ => p4⟩
      have hw := (h.get (i := s.sp - 1) (by omega)).1
      have hw2 := (h.get (i := s.sp - 2) (by omega)).1
      rw [show s.sp - 1 - (s.sp - 1) = 0 by omega] at hw
      rw [show s.sp - 1 - (s.sp - 2) = 1 by omega] at hw2
      match hwd : t.words, hl with
      | a :: b :: l, hl =>
        rw [hwd] at hw hw2
        simp only [Op.run, Stk.pop2]
        rw [if_neg (by omega), hw, hw2]
        rfl
      | [], hl => simp at hl; omega
      | [a], hl => simp at hl; omega
    · cases ho
  | pop3 =>
    simp only [Op.ideal, hl] at ho
    split at ho
    · rename_i hlt
      cases ho
      obtain ⟨p3, p4⟩ := h.drop (n := 3) hlt
      refine ⟨_, ?_, p3, fun _ => p4⟩
      have hw := (h.get (i := s.sp - 1) (by omega)).1
      have hw2 := (h.get (i := s.sp - 2) (by omega)).1
      have hw3 := (h.get (i := s.sp - 3) (by omega)).1
      rw [show s.sp - 1 - (s.sp - 1) = 0 by omega] at hw
      rw [show s.sp - 1 - (s.sp - 2) = 1 by omega] at hw2
      rw [show s.sp - 1 - (s.sp - 3) = 2 by omega] at hw3
      match hwd : t.words, hl with
      | a :: b :: c :: l, hl =>
        rw [hwd] at hw hw2 hw3
        simp only [Op.run, Stk.pop3]
        rw [if_neg (by omega), hw, hw2, hw3]
        rfl
      | [], hl => simp at hl; omega
      | [a], hl => simp at hl; omega
      | [a, b], hl => simp at hl; omega
    · cases ho
  | drop n =>
    simp only [Op.ideal, hl] at ho
    split at ho
    · rename_i hlt
      cases ho
      obtain ⟨p3, p4⟩ := h.drop hlt
      refine ⟨_, ?_, p3, fun _ => p4⟩
      simp only [Op.run, Stk.drop]
      rw [if_neg (by omega)]
    · cases ho
      refine ⟨s, ?_, h, fun _ hm => hm⟩
      simp only [Op.run, Stk.drop]
      rw [if_pos (by omega)]
  | clear =>
    simp only [Op.ideal] at ho
    cases ho
    obtain ⟨p3, p4⟩ := h.drop (Nat.le_refl s.sp)
    rw [Nat.sub_self, List.drop_eq_nil_of_le (by omega)] at p3 p4
    exact ⟨_, rfl, p3, fun _ => p4⟩
  | reserve vs =>
    simp only [Op.ideal, hl] at ho
    split at ho
    · rename_i hlt
      cases ho
      obtain ⟨s', p1, p2, p3, p4⟩ := h.pushAll vs (by omega)
      refine ⟨_, ?_, p3, fun hv => p4 hv⟩
      simp only [Op.run, Stk.reserve]
      rw [if_pos (by omega), p1]
      simp only [Option.map_some, p2]
    · cases ho
      refine ⟨s, ?_, h, fun _ hm => hm⟩
      simp only [Op.run, Stk.reserve]
      rw [if_neg (by omega)]
      rfl
  | peek n =>
    simp only [Op.ideal, hl] at ho
    split at ho
    · rename_i hlt
      cases ho
      refine ⟨s, ?_, h, fun _ hm => hm⟩
      simp only [Op.run, Stk.peek]
      rw [if_pos hlt, h.area hlt]
      rfl
    · rename_i hlt
      cases ho
      refine ⟨s, ?_, h, fun _ hm => hm⟩
      simp only [Op.run, Stk.peek]
      rw [if_neg hlt]
      rfl
  | poke n i v =>
    simp only [Op.ideal, hl] at ho
    split at ho
    · rename_i hlt
      split at ho
      · rename_i hi
        cases ho
        obtain ⟨s', p1, p3, p4⟩ := h.poke (v := v) hlt hi
        refine ⟨s', ?_, p3, fun hv => p4 (hv v (by simp [Op.written]))⟩
        simp only [Op.run, Stk.poke]
        rw [if_pos hlt, p1]
        rfl
      · cases ho
    · rename_i hlt
      cases ho
      refine ⟨s, ?_, h, fun _ hm => hm⟩
      simp only [Op.run, Stk.poke]
      rw [if_neg hlt]
      rfl
  | popPtr n =>
    simp only [Op.ideal, hl] at ho
    split at ho
    · rename_i hlt
      cases ho
      obtain ⟨p3, p4⟩ := h.drop hlt
      refine ⟨_, ?_, p3, fun _ => p4⟩
      simp only [Op.run, Stk.popPtr]
      rw [if_pos hlt, h.area hlt]
      rfl
    · rename_i hlt
      cases ho
      refine ⟨s, ?_, h, fun _ hm => hm⟩
      simp only [Op.run, Stk.popPtr]
      rw [if_neg hlt]
      rfl

theorem create_rep (size : Nat) : Rep size (create size) ⟨[], 0⟩ ∧ Marked (create size) ⟨[], 0⟩ :=
  ⟨⟨rfl, by simp [create], Nat.le_refl _, Nat.zero_le _, rfl, fun i _ hi => by simp [create, hi]⟩, .inl rfl⟩

theorem all_steps {size : Nat} : ∀ (os : List Op) {s : Stk} {t t' : Ideal} {as : List Ans}, Rep size s t → idealAll size t os = some (t', as) →
    ∃ s', runAll s os = some (s', as) ∧ Rep size s' t' ∧ ((∀ o ∈ os, ∀ v ∈ o.written, v ≠ unusedWord) → Marked s t → Marked s' t')
  | [], s, t, t', as, h, ho => by
    cases ho
    exact ⟨s, rfl, h, fun _ hm => hm⟩
  | o :: os, s, t, t', as, h, ho => by
    rw [idealAll] at ho
    obtain ⟨⟨t1, a⟩, h1, ho⟩ := Option.bind_eq_some_iff.1 ho
    obtain ⟨⟨t2, bs⟩, h2, ho⟩ := Option.map_eq_some_iff.1 ho
    cases ho
    obtain ⟨s1, p1, p2, p3⟩ := h.step o h1
    obtain ⟨s2, q1, q2, q3⟩ := all_steps os p2 h2
    refine ⟨s2, by rw [runAll, p1]; simp only [Option.bind_some]; rw [q1]; rfl, q2, fun hv hm => ?_⟩
    exact q3 (fun o ho => hv o (List.mem_cons_of_mem _ ho)) (p3 (hv o List.mem_cons_self) hm)

/-- A new stack of `size` words behaves as the ideal stack of that size: for all operations in a history in which no pop is done on a stack with too few words, all answers and the contents are the same, and no
word outside of its block is read or written. An operation that does not fit is answered with an error and changes nothing. -/
theorem C102_stack (size : Nat) (os : List Op) (t : Ideal) (as : List Ans) (h : idealAll size ⟨[], 0⟩ os = some (t, as)) :
    ∃ s, runAll (create size) os = some (s, as) ∧ s.words = t.words ∧ s.data.length = size := by
  obtain ⟨s, h1, h2, _⟩ := all_steps os (create_rep size).1 h
  exact ⟨s, h1, h2.words, h2.len⟩

theorem loop_free {size : Nat} {s : Stk} {m : Nat} (hf : ∀ i, m ≤ i → i < size → s.data[i]? = some unusedWord) : ∀ (k u : Nat), m ≤ k → k ≤ size →
    s.unusedLoop k u = s.unusedLoop m (u + (k - m))
  | 0, u, h1, _ => by
    obtain rfl : m = 0 := by omega
    rfl
  | k + 1, u, h1, h2 => by
    by_cases hk : m = k + 1
    · subst hk
      rw [Nat.sub_self]
      rfl
    · rw [Stk.unusedLoop, Stk.get, hf k (by omega) (by omega)]
      show (if unusedWord = unusedWord then s.unusedLoop k (u + 1) else some u) = _
      rw [if_pos rfl, loop_free hf k (u + 1) (by omega) (by omega)]
      congr 1
      omega

theorem loop_le {s : Stk} : ∀ (k u : Nat), k ≤ s.data.length → ∃ r, s.unusedLoop k u = some r ∧ u ≤ r ∧ r ≤ u + k
  | 0, u, _ => ⟨u, rfl, Nat.le_refl _, Nat.le_refl _⟩
  | k + 1, u, h => by
    rw [Stk.unusedLoop, Stk.get, List.getElem?_eq_getElem (by omega)]
    simp only
    split
    · obtain ⟨r, h1, h2, h3⟩ := loop_le (s := s) k (u + 1) (by omega)
      exact ⟨r, h1, by omega, by omega⟩
    · exact ⟨u, rfl, Nat.le_refl _, by omega⟩

/-- `lbm_get_max_stack` is the largest number of words that the stack has had, if no word that was written is the filler 0x55555555; it is never larger than that. -/
theorem C102_max_partial (size : Nat) (os : List Op) (t : Ideal) (as : List Ans) (h : idealAll size ⟨[], 0⟩ os = some (t, as)) :
    ∃ s m, runAll (create size) os = some (s, as) ∧ s.maxStack = some m ∧ m ≤ t.most ∧ ((∀ o ∈ os, ∀ v ∈ o.written, v ≠ unusedWord) → m = t.most) := by
  obtain ⟨s, h1, h2, h3⟩ := all_steps os (create_rep size).1 h
  have hl := loop_free h2.free size 0 h2.most_le (Nat.le_refl _)
  obtain ⟨r, r1, r2, r3⟩ := loop_le (s := s) t.most (0 + (size - t.most)) (by rw [h2.len]; exact h2.most_le)
  have hm := h2.most_le
  refine ⟨s, size - r, h1, by rw [Stk.maxStack, h2.size_eq, hl, r1]; rfl, by omega, fun hv => ?_⟩
  have hk := h3 hv (create_rep size).2
  rcases hk with hk | ⟨w, hw1, hw2⟩
  · omega
  · match hmo : t.most with
    | 0 => omega
    | k + 1 =>
      rw [hmo] at r1 hw1
      have hw1 : s.data[k]? = some w := hw1
      rw [Stk.unusedLoop, Stk.get, hw1] at r1
      simp only [if_neg hw2, Option.some.injEq] at r1
      omega

/-- Example: the largest number of words is 4, at the end there is one. -/
example : ∃ t as, idealAll 4 ⟨[], 0⟩ [.push 1, .reserve [2, 3], .reserve [7], .push 5, .push 6, .pop, .popPtr 2, .peek 1] = some (t, as) ∧ t = ⟨[1], 4⟩ ∧
    as = [(true, []), (true, []), (false, []), (true, []), (false, []), (true, [5]), (true, [2, 3]), (true, [1])] := ⟨_, _, rfl, rfl, rfl⟩

/-- Not true of the code: `lbm_get_max_stack` counts all words that have been used. A word that is the filler is not counted. -/
theorem C102_max_violated : ∃ s, runAll (create 4) [.push 1, .push unusedWord, .pop] = some (s, [(true, []), (true, []), (true, [unusedWord])]) ∧ s.maxStack = some 1 :=
  ⟨_, rfl, rfl⟩

/-- Not true of the code: `lbm_pop` of an empty stack fails (`include/stack.h:82-87`). It reads outside of the block. -/
theorem C102_pop_violated (size : Nat) : (create size).pop = none := rfl

end Verif.Stack
