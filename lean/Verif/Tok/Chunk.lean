import Verif.Tok.Lex

/-!
# Chunk independence of the token dispatch
-/

namespace Verif.Tok

/-- `x` is `y`, or undecided. -/
def LeOut (x y : Out × Nat) : Prop := x.1 = .again ∨ x.1 = .fuel ∨ x = y

theorem le_orElse {α : Type} {r r' : R α} {use : α → Out × Nat} {x y : Out × Nat} (h : Le r r')
    (hn : LeOut x y) : LeOut (orElse r use x) (orElse r' use y) := by
  rcases h with h | h | h
  · subst h; exact Or.inl rfl
  · subst h; exact Or.inr (Or.inl rfl)
  · subst h
    cases r with
    | none => exact hn
    | _ => exact Or.inr (Or.inr rfl)

theorem le_positive {r r' : R (Nat × Nat)} (h : Le r r') : Le (positive r) (positive r') := by
  rcases h with h | h | h
  · subst h; exact Or.inl rfl
  · subst h; exact Or.inr (Or.inl rfl)
  · subst h; exact Le.refl _

theorem dispatch_ext {p q : Nat → Peek} (h : Ext p q) {f f' : Nat} (hf : f ≤ f') :
    LeOut (dispatch p f) (dispatch q f') :=
  le_orElse (le_positive (le_tokSyntax h)) <| le_orElse (le_tokString h hf) <|
  le_orElse (le_tokDouble h hf) <| le_orElse (le_tokInteger h hf) <|
  le_orElse (le_tokSymbol h hf) <| le_orElse (le_tokChar h) (Or.inr (Or.inr rfl))

theorem orElse_ne_fuel {α : Type} {r : R α} {use : α → Out × Nat} {x : Out × Nat} (h : r ≠ .fuel)
    (hu : ∀ a, (use a).1 ≠ .fuel) (hx : x.1 ≠ .fuel) : (orElse r use x).1 ≠ .fuel := by
  cases r with
  | ok a => exact hu a
  | none => exact hx
  | fuel => exact absurd rfl h
  | _ => intro h; cases h

theorem floatOut_ne (t : Nat) (x : List Byte) : floatOut t x ≠ .fuel ∧ floatOut t x ≠ .again ∧
    floatOut t x ≠ .finished := by
  unfold floatOut; split <;> (refine ⟨?_, ?_, ?_⟩ <;> (intro h; cases h))
theorem intOut_ne (t : Nat) (x : Bool) (v : BitVec 64) : intOut t x v ≠ .fuel ∧
    intOut t x v ≠ .again ∧ intOut t x v ≠ .finished := by
  unfold intOut; split <;> (refine ⟨?_, ?_, ?_⟩ <;> (intro h; cases h))

theorem positive_ne_fuel {r : R (Nat × Nat)} (h : r ≠ .fuel) : positive r ≠ .fuel := by
  unfold positive; split
  · intro h; cases h
  · exact h

theorem dispatch_ne_fuel {p : Nat → Peek} {f : Nat} (hs : Stops p f) : (dispatch p f).1 ≠ .fuel :=
  orElse_ne_fuel (positive_ne_fuel (matchFixed_ne_fuel p 0 _)) (fun _ h => by cases h) <|
  orElse_ne_fuel (tokString_ne_fuel hs) (fun _ h => by cases h) <|
  orElse_ne_fuel (tokDouble_ne_fuel hs) (fun _ => (floatOut_ne _ _).1) <|
  orElse_ne_fuel (tokInteger_ne_fuel hs) (fun _ => (intOut_ne _ _ _).1) <|
  orElse_ne_fuel (tokSymbol_ne_fuel hs) (fun _ h => by cases h) <|
  orElse_ne_fuel (tokChar_ne_fuel p) (fun _ h => by cases h) (fun h => by cases h)

theorem orElse_ne_finished {α : Type} {r : R α} {use : α → Out × Nat} {x : Out × Nat}
    (hu : ∀ a, (use a).1 ≠ .finished) (hx : x.1 ≠ .finished) : (orElse r use x).1 ≠ .finished := by
  cases r with
  | ok a => exact hu a
  | none => exact hx
  | _ => intro h; cases h

theorem dispatch_ne_finished (p : Nat → Peek) (f : Nat) : (dispatch p f).1 ≠ .finished :=
  orElse_ne_finished (fun _ h => by cases h) <|
  orElse_ne_finished (fun _ h => by cases h) <|
  orElse_ne_finished (fun _ => (floatOut_ne _ _).2.2) <|
  orElse_ne_finished (fun _ => (intOut_ne _ _ _).2.2) <|
  orElse_ne_finished (fun _ h => by cases h) <|
  orElse_ne_finished (fun _ h => by cases h) (fun h => by cases h)

/-- What is known of the number of characters to drop. -/
def Uses (p : Nat → Peek) (x : Out × Nat) : Prop :=
  (∀ t, x.1 = .token t → 0 < x.2) ∧ (x.1 = .again → x.2 = 0) ∧
    ((∀ k, p k ≠ .done) → Reach p x.2)

theorem uses_zero (p : Nat → Peek) (o : Out) (h : ∀ t, o ≠ .token t) : Uses p (o, 0) :=
  ⟨fun t e => absurd e (h t), fun _ => rfl, fun _ => Reach.zero p⟩

theorem orElse_uses {α : Type} {p : Nat → Peek} {r : R α} {use : α → Out × Nat} {x : Out × Nat}
    (hu : ∀ a, r = .ok a → Uses p (use a)) (hx : Uses p x) : Uses p (orElse r use x) := by
  cases r with
  | ok a => exact hu a rfl
  | none => exact hx
  | _ => exact uses_zero p _ (fun _ h => by cases h)

theorem dispatch_uses (p : Nat → Peek) (f : Nat) : Uses p (dispatch p f) := by
  refine orElse_uses ?_ <| orElse_uses ?_ <| orElse_uses ?_ <| orElse_uses ?_ <|
    orElse_uses ?_ <| orElse_uses ?_ (uses_zero p _ (fun _ h => by cases h))
  · rintro ⟨n, t⟩ h
    unfold positive at h
    split at h
    · cases h
    · rename_i hne
      refine ⟨fun _ _ => ?_, (fun h => by cases h), fun _ => tokSyntax_reach h⟩
      rcases n with _ | n
      · exact absurd h (hne t)
      · exact Nat.succ_pos n
  · rintro ⟨n, s⟩ h
    exact ⟨fun _ _ => (tokString_reach h).1, (fun h => by cases h), (tokString_reach h).2⟩
  · rintro ⟨n, x⟩ h
    exact ⟨fun _ _ => (tokDouble_reach h).2, fun h => absurd h (floatOut_ne _ _).2.1,
      fun _ => (tokDouble_reach h).1⟩
  · rintro ⟨n, x⟩ h
    exact ⟨fun _ _ => (tokInteger_reach h).2, fun h => absurd h (intOut_ne _ _ _).2.1,
      fun _ => (tokInteger_reach h).1⟩
  · rintro ⟨n, x⟩ h
    exact ⟨fun _ _ => (tokSymbol_reach h).2, (fun h => by cases h), fun _ => (tokSymbol_reach h).1⟩
  · rintro ⟨n, x⟩ h
    exact ⟨fun _ _ => (tokChar_reach h).2, (fun h => by cases h), fun _ => (tokChar_reach h).1⟩

/-! ## Streams -/

theorem stream_stops (s : Stream) : Stops s.peek (s.avail.length + 2) := by
  refine ⟨s.avail.length, by omega, fun c => ?_⟩
  unfold Stream.peek
  rw [List.getElem?_eq_none (Nat.le_refl _)]
  cases s.ended <;> simp

theorem stream_reach {s : Stream} {n : Nat} (h : Reach s.peek n) : n ≤ s.avail.length := by
  by_cases hn : n ≤ s.avail.length
  · exact hn
  · obtain ⟨c, e⟩ := h s.avail.length (by omega)
    unfold Stream.peek at e
    rw [List.getElem?_eq_none (Nat.le_refl _)] at e
    cases he : s.ended <;> rw [he] at e <;> cases e

/-- More input arrives, and perhaps the writer closes. -/
def Stream.extend (s : Stream) (m : List Byte) (e : Bool) : Stream :=
  ⟨s.avail ++ m, e, s.comment⟩

theorem stream_ext (s : Stream) (hs : s.ended = false) (m : List Byte) (e : Bool) :
    Ext s.peek (s.extend m e).peek := by
  intro n _
  unfold Stream.peek Stream.extend
  by_cases hn : n < s.avail.length
  · right
    rw [List.getElem?_append_left hn, List.getElem?_eq_getElem hn]
  · left
    rw [List.getElem?_eq_none (by omega), hs]; rfl

theorem cleanLoop_false {a : List Byte} : ∀ {c c' : Bool} {r : List Byte},
    cleanLoop false c a = (false, c', r) → r = [] := by
  induction a with
  | nil => intro c c' r h; cases c <;> (simp only [cleanLoop] at h; cases h; rfl)
  | cons x a ih =>
    intro c c' r h
    cases c with
    | true => simp only [cleanLoop] at h; exact ih h
    | false =>
      simp only [cleanLoop] at h
      split at h
      · exact ih h
      · split at h
        · exact ih h
        · cases h

theorem cleanLoop_again {a : List Byte} (m : List Byte) (e : Bool) : ∀ {c c' : Bool} {r : List Byte},
    cleanLoop false c a = (false, c', r) → cleanLoop e c (a ++ m) = cleanLoop e c' m := by
  induction a with
  | nil => intro c c' r h; cases c <;> (simp only [cleanLoop] at h; cases h; rfl)
  | cons x a ih =>
    intro c c' r h
    cases c with
    | true => simp only [cleanLoop, List.cons_append] at h ⊢; exact ih h
    | false =>
      simp only [cleanLoop, List.cons_append] at h ⊢
      split at h
      · rename_i h1; rw [if_pos h1]; exact ih h
      · rename_i h1; rw [if_neg h1]
        split at h
        · rename_i h2; rw [if_pos h2]; exact ih h
        · cases h

theorem cleanLoop_true {a : List Byte} {e0 : Bool} (m : List Byte) (e : Bool) :
    ∀ {c c' : Bool} {x : Byte} {r : List Byte},
    cleanLoop e0 c a = (true, c', x :: r) → cleanLoop e c (a ++ m) = (true, c', x :: (r ++ m)) ∧
      cleanLoop e c' (x :: (r ++ m)) = (true, c', x :: (r ++ m)) := by
  induction a with
  | nil =>
    intro c c' x r h
    cases c
    · simp only [cleanLoop] at h; cases h
    · simp only [cleanLoop] at h; split at h <;> cases h
  | cons y a ih =>
    intro c c' x r h
    cases c with
    | true => simp only [cleanLoop, List.cons_append] at h ⊢; exact ih h
    | false =>
      simp only [cleanLoop, List.cons_append] at h ⊢
      split at h
      · rename_i h1; rw [if_pos h1]; exact ih h
      · rename_i h1; rw [if_neg h1]
        split at h
        · rename_i h2; rw [if_pos h2]; exact ih h
        · rename_i h2; rw [if_neg h2]
          cases h
          refine ⟨rfl, ?_⟩
          simp only [cleanLoop]
          rw [if_neg h1, if_neg h2]

theorem cleanLoop_open {a : List Byte} : ∀ {c c' : Bool},
    cleanLoop false c a ≠ (true, c', []) := by
  induction a with
  | nil => intro c c' h; cases c <;> (simp only [cleanLoop] at h; cases h)
  | cons x a ih =>
    intro c c' h
    cases c with
    | true => simp only [cleanLoop] at h; exact ih h
    | false =>
      simp only [cleanLoop] at h
      split at h
      · exact ih h
      · split at h
        · exact ih h
        · cases h

theorem cleanLoop_length {a : List Byte} {e : Bool} : ∀ {c : Bool},
    (cleanLoop e c a).2.2.length ≤ a.length := by
  induction a with
  | nil => intro c; cases c <;> simp [cleanLoop]; split <;> simp
  | cons x a ih =>
    intro c
    cases c with
    | true => simp only [cleanLoop]; have := @ih (x != 10); simp only [List.length_cons]; omega
    | false =>
      simp only [cleanLoop]
      split
      · have := @ih true; simp only [List.length_cons]; omega
      · split
        · have := @ih false; simp only [List.length_cons]; omega
        · simp

/-- One run of the token dispatch on an open stream, compared with the same
stream with more input. -/
theorem nextToken_extend (s : Stream) (hs : s.ended = false) (m : List Byte) (e : Bool) :
    ((nextToken s).1 = .again →
      (nextToken (s.extend m e)).1 = (nextToken ((nextToken s).2.extend m e)).1 ∧
      ((nextToken (s.extend m e)).1 ≠ .finished →
        nextToken (s.extend m e) = nextToken ((nextToken s).2.extend m e))) ∧
    ((nextToken s).1 ≠ .again →
      nextToken (s.extend m e) = ((nextToken s).1, (nextToken s).2.extend m e)) ∧
    (nextToken s).1 ≠ .finished ∧ (nextToken s).2.ended = false := by
  rcases hc : cleanLoop false s.comment s.avail with ⟨ok, c', r⟩
  have hcw : cleanWhitespace s = (ok, ⟨r, false, c'⟩) := by
    simp only [cleanWhitespace, hs, hc]
  have hne : ∀ (s' : Stream), (s'.ended && s'.avail.isEmpty) = true → nextToken s' = (.finished, s') := by
    intro s' h; simp only [nextToken, h, if_true]
  cases ok with
  | false =>
    have hn : nextToken s = (.again, ⟨r, false, c'⟩) := by
      simp only [nextToken, hs, Bool.false_and, Bool.false_eq_true, if_false, hcw]
    have hr := cleanLoop_false hc
    subst hr
    have hag := cleanLoop_again m e hc
    rw [hn]
    refine ⟨fun _ => ?_, fun h => absurd rfl h, (fun h => by cases h), rfl⟩
    -- both sides clean to the same stream
    have hcl : cleanWhitespace (s.extend m e) = cleanWhitespace (Stream.extend ⟨[], false, c'⟩ m e) := by
      simp only [cleanWhitespace, Stream.extend, hag, List.nil_append]
    by_cases h2 : (e && m.isEmpty) = true
    · have f2 := hne (Stream.extend ⟨[], false, c'⟩ m e) (by simpa [Stream.extend] using h2)
      have f1 : (nextToken (s.extend m e)).1 = .finished := by
        by_cases h1 : ((s.extend m e).ended && (s.extend m e).avail.isEmpty) = true
        · rw [hne _ h1]
        · simp only [nextToken, h1, Bool.false_eq_true, if_false, hcl]
          simp only [Bool.and_eq_true, List.isEmpty_iff] at h2
          obtain ⟨rfl, rfl⟩ := h2
          cases c' <;> simp [cleanWhitespace, Stream.extend, cleanLoop]
      rw [f2]
      exact ⟨f1, fun h => absurd f1 h⟩
    · have h2' : ((Stream.extend ⟨[], false, c'⟩ m e).ended &&
          (Stream.extend ⟨[], false, c'⟩ m e).avail.isEmpty) = false := by
        simpa [Stream.extend] using h2
      have h1 : ((s.extend m e).ended && (s.extend m e).avail.isEmpty) = false := by
        cases e
        · rfl
        · simp only [Bool.true_and] at h2
          cases m with
          | nil => exact absurd rfl h2
          | cons y m => cases hav : s.avail <;> simp [Stream.extend, hav]
      have : nextToken (s.extend m e) = nextToken (Stream.extend ⟨[], false, c'⟩ m e) := by
        simp only [nextToken, h1, h2', Bool.false_eq_true, if_false, hcl]
      rw [this]
      exact ⟨rfl, fun _ => rfl⟩
  | true =>
    rcases r with _ | ⟨x, r⟩
    · exact absurd hc cleanLoop_open
    obtain ⟨hx1, hx2⟩ := cleanLoop_true m e hc
    rcases hd : dispatch (Stream.mk (x :: r) false c').peek ((x :: r).length + 2) with ⟨o, n⟩
    have hn : nextToken s = (o, ⟨(x :: r).drop n, false, c'⟩) := by
      simp only [nextToken, hs, Bool.false_and, Bool.false_eq_true, if_false, hcw, hd]
    have hu := dispatch_uses (Stream.mk (x :: r) false c').peek ((x :: r).length + 2)
    have hf := dispatch_ne_fuel (stream_stops (Stream.mk (x :: r) false c'))
    have hfin := dispatch_ne_finished (Stream.mk (x :: r) false c').peek ((x :: r).length + 2)
    have hle := dispatch_ext (stream_ext (Stream.mk (x :: r) false c') rfl m e)
      (show (x :: r).length + 2 ≤ (x :: (r ++ m)).length + 2 by simp)
    simp only at hf
    rw [hd] at hu hf hfin hle
    have hlen : n ≤ (x :: r).length := by
      refine stream_reach (s := ⟨x :: r, false, c'⟩) (hu.2.2 ?_)
      intro k hk
      unfold Stream.peek at hk
      split at hk <;> simp at hk
    -- the extended streams
    have key : ∀ s' : Stream, s'.ended = e → cleanLoop e s'.comment s'.avail =
        (true, c', x :: (r ++ m)) → nextToken s' =
        ((dispatch (Stream.mk (x :: (r ++ m)) e c').peek ((x :: (r ++ m)).length + 2)).1,
          ⟨(x :: (r ++ m)).drop
            (dispatch (Stream.mk (x :: (r ++ m)) e c').peek ((x :: (r ++ m)).length + 2)).2, e, c'⟩) := by
      intro s' he hcl
      have hne : s'.avail ≠ [] := by
        intro h
        rw [h] at hcl
        cases hcm : s'.comment <;> rw [hcm] at hcl <;> simp only [cleanLoop] at hcl
        · cases hcl
        · split at hcl <;> cases hcl
      have h1 : (s'.ended && s'.avail.isEmpty) = false := by
        cases hav : s'.avail with
        | nil => exact absurd hav hne
        | cons _ _ => simp
      have h2 : cleanWhitespace s' = (true, ⟨x :: (r ++ m), e, c'⟩) := by
        simp only [cleanWhitespace, he, hcl]
      simp only [nextToken, h1, h2, Bool.false_eq_true, if_false, List.isEmpty_cons, Bool.and_false]
    have k1 := key (s.extend m e) rfl hx1
    rw [hn]
    refine ⟨?_, ?_, hfin, rfl⟩
    · intro ho
      have hn0 : n = 0 := hu.2.1 ho
      subst hn0
      have k2 := key (Stream.extend ⟨(x :: r).drop 0, false, c'⟩ m e) rfl (by
        simpa [Stream.extend] using hx2)
      rw [k1, k2]
      exact ⟨rfl, fun _ => rfl⟩
    · intro ho
      have hEq : dispatch (Stream.mk (x :: (r ++ m)) e c').peek ((x :: (r ++ m)).length + 2) = (o, n) := by
        rcases hle with h | h | h
        · exact absurd h ho
        · exact absurd h hf
        · exact h.symm
      rw [k1, hEq]
      simp only [Stream.extend]
      rw [show x :: (r ++ m) = (x :: r) ++ m from rfl, List.drop_append_of_le_length hlen]

end Verif.Tok
