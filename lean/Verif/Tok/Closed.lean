import Verif.Tok.Chunk

/-!
# On a closed channel no tokenizer waits for input
-/

namespace Verif.Tok

/-- No position waits for input. -/
def NoMore (p : Nat → Peek) : Prop := ∀ k, p k ≠ .more

theorem bind_ne_more {α β : Type} {x : R α} {f : α → R β} (h : x ≠ .more)
    (hf : ∀ a, f a ≠ .more) : (x >>= f) ≠ .more := by
  cases x with
  | ok a => exact hf a
  | more => exact absurd rfl h
  | _ => intro h; cases h

theorem peekTok_ne_more {p : Nat → Peek} (hp : NoMore p) (n : Nat) : peekTok p n ≠ .more := by
  have := hp n
  unfold peekTok; split <;> (intro h; cases h) <;> simp_all

theorem peekKeep_ne_more {p : Nat → Peek} (hp : NoMore p) (n : Nat) (c : Byte) :
    peekKeep p n c ≠ .more := by
  have := hp n
  unfold peekKeep; split <;> (intro h; cases h) <;> simp_all

theorem matchStr_ne_more {p : Nat → Peek} (hp : NoMore p) : ∀ ms n, matchStr p n ms ≠ .more := by
  intro ms
  induction ms with
  | nil => intro n h; cases h
  | cons m ms ih =>
    intro n
    have := hp n
    simp only [matchStr]
    split
    · split
      · intro h; cases h
      · exact ih _
    · simp_all
    · intro h; cases h

theorem matchFixed_ne_more {p : Nat → Peek} (hp : NoMore p) (n : Nat) :
    ∀ ms, matchFixed p n ms ≠ .more := by
  intro ms
  induction ms with
  | nil => intro h; cases h
  | cons m ms ih =>
    refine bind_ne_more (matchStr_ne_more hp _ _) ?_
    intro b
    split
    · intro h; cases h
    · exact ih

theorem typeSuffix_ne_more {p : Nat → Peek} (hp : NoMore p) (n d : Nat) :
    typeSuffix p n d ≠ .more := by
  unfold typeSuffix
  split
  · intro h; cases h
  · exact matchFixed_ne_more hp n _

theorem symLoop_ne_more {p : Nat → Peek} (hp : NoMore p) : ∀ f n out,
    symLoop p f n out ≠ .more := by
  intro f
  induction f with
  | zero => intro n out h; cases h
  | succ f ih =>
    intro n out
    simp only [symLoop]
    cases e : p n with
    | ok c =>
      simp only []
      split
      · split
        · intro h; cases h
        · exact ih _ _
      · intro h; cases h
    | more => exact absurd e (hp n)
    | done => intro h; cases h

theorem strLoop_ne_more {p : Nat → Peek} (hp : NoMore p) : ∀ f n out st en,
    strLoop p f n out st en ≠ .more := by
  intro f
  induction f with
  | zero => intro n out _ _ h; cases h
  | succ f ih =>
    intro n out st en
    simp only [strLoop]
    cases e : p n with
    | ok c =>
      simp only []
      split
      · split
        · exact ih _ _ _ _
        · exact ih _ _ _ _
      · split <;> (intro h; cases h)
    | more => exact absurd e (hp n)
    | done => simp only []; split <;> (intro h; cases h)

theorem digitLoop_ne_more {σ : Type} {p : Nat → Peek} (hp : NoMore p) {cond : Byte → Bool}
    {body : σ → Nat → Byte → R σ} (hb : ∀ s n c, body s n c ≠ .more) :
    ∀ f n c s, digitLoop p cond body f n c s ≠ .more := by
  intro f
  induction f with
  | zero => intro n c s h; cases h
  | succ f ih =>
    intro n c s
    simp only [digitLoop]
    split
    · refine bind_ne_more (hb _ _ _) ?_
      intro s1
      cases e : p (n + 1) with
      | ok c1 => exact ih _ _ _
      | more => exact absurd e (hp _)
      | done => intro h; cases h
    · intro h; cases h

theorem fput_ne_more (b : List Byte) (n : Nat) (c : Byte) : fput b n c ≠ .more := by
  unfold fput; split <;> (intro h; cases h)

theorem tokSymbol_ne_more {p : Nat → Peek} (hp : NoMore p) (f : Nat) : tokSymbol p f ≠ .more := by
  refine bind_ne_more (peekTok_ne_more hp 0) ?_
  intro c
  split
  · intro h; cases h
  · exact symLoop_ne_more hp _ _ _

theorem tokString_ne_more {p : Nat → Peek} (hp : NoMore p) (f : Nat) : tokString p f ≠ .more := by
  refine bind_ne_more (peekTok_ne_more hp 0) ?_
  intro c
  split
  · intro h; cases h
  · exact strLoop_ne_more hp _ _ _ _ _

theorem tokChar_ne_more {p : Nat → Peek} (hp : NoMore p) : tokChar p ≠ .more := by
  refine bind_ne_more (peekTok_ne_more hp _) fun c => ?_
  split
  · intro h; cases h
  refine bind_ne_more (peekTok_ne_more hp _) fun c => ?_
  split
  · intro h; cases h
  refine bind_ne_more (peekTok_ne_more hp _) fun c => ?_
  split
  · refine bind_ne_more (peekTok_ne_more hp _) fun c => ?_
    split <;> (intro h; cases h)
  · intro h; cases h

theorem exponent_ne_more {p : Nat → Peek} (hp : NoMore p) (f n : Nat) (c : Byte) (b : List Byte) :
    exponent p f n c b ≠ .more := by
  unfold exponent
  split
  · refine bind_ne_more (fput_ne_more _ _ _) fun b => ?_
    refine bind_ne_more (peekTok_ne_more hp _) fun c => ?_
    split
    · intro h; cases h
    refine bind_ne_more (digitLoop_ne_more hp fput_ne_more _ _ _ _) fun r => ?_
    intro h; cases h
  · intro h; cases h

theorem tokDouble_ne_more {p : Nat → Peek} (hp : NoMore p) (f : Nat) : tokDouble p f ≠ .more := by
  unfold tokDouble
  refine bind_ne_more (peekTok_ne_more hp _) fun c => ?_
  extract_lets neg n0
  refine bind_ne_more (peekTok_ne_more hp _) fun c => ?_
  refine bind_ne_more (digitLoop_ne_more hp fput_ne_more _ _ _ _) fun i => ?_
  split
  · intro h; cases h
  refine bind_ne_more (fput_ne_more _ _ _) fun b => ?_
  refine bind_ne_more (peekTok_ne_more hp _) fun c => ?_
  split
  · intro h; cases h
  refine bind_ne_more (digitLoop_ne_more hp fput_ne_more _ _ _ _) fun f => ?_
  refine bind_ne_more (exponent_ne_more hp _ _ _ _) fun e => ?_
  refine bind_ne_more (typeSuffix_ne_more hp _ _) fun t => ?_
  split
  · intro h; cases h
  · split <;> (intro h; cases h)

theorem isHex_ne_more {p : Nat → Peek} (hp : NoMore p) (n : Nat) : isHex p n ≠ .more := by
  unfold isHex
  cases e : p n with
  | more => exact absurd e (hp n)
  | done => intro h; cases h
  | ok c =>
    simp only []
    split
    · cases e : p (n + 1) with
      | more => exact absurd e (hp _)
      | _ => intro h; cases h
    · intro h; cases h

theorem digits_ne_more {p : Nat → Peek} (hp : NoMore p) (f : Nat) (x : Bool) (n : Nat) (c : Byte) :
    digits p f x n c ≠ .more := by
  unfold digits
  split
  · refine bind_ne_more (peekTok_ne_more hp _) fun c => ?_
    refine bind_ne_more (digitLoop_ne_more hp (fun _ _ _ h => by cases h) _ _ _ _) fun r => ?_
    intro h; cases h
  · refine bind_ne_more (peekKeep_ne_more hp _ _) fun c => ?_
    refine bind_ne_more (digitLoop_ne_more hp (fun _ _ _ h => by cases h) _ _ _ _) fun r => ?_
    intro h; cases h

theorem tokInteger_ne_more {p : Nat → Peek} (hp : NoMore p) (f : Nat) : tokInteger p f ≠ .more := by
  unfold tokInteger
  refine bind_ne_more (peekTok_ne_more hp _) fun c => ?_
  extract_lets neg n
  refine bind_ne_more (isHex_ne_more hp _) fun x => ?_
  refine bind_ne_more (digits_ne_more hp _ _ _ _) fun r => ?_
  split
  · intro h; cases h
  refine bind_ne_more (typeSuffix_ne_more hp _ _) fun t => ?_
  split <;> (intro h; cases h)

theorem orElse_ne_again {α : Type} {r : R α} {use : α → Out × Nat} {x : Out × Nat} (h : r ≠ .more)
    (hu : ∀ a, (use a).1 ≠ .again) (hx : x.1 ≠ .again) : (orElse r use x).1 ≠ .again := by
  cases r with
  | ok a => exact hu a
  | none => exact hx
  | more => exact absurd rfl h
  | _ => intro h; cases h

theorem positive_ne_more {r : R (Nat × Nat)} (h : r ≠ .more) : positive r ≠ .more := by
  unfold positive; split
  · intro h; cases h
  · exact h

theorem dispatch_ne_again {p : Nat → Peek} (hp : NoMore p) (f : Nat) : (dispatch p f).1 ≠ .again :=
  orElse_ne_again (positive_ne_more (matchFixed_ne_more hp 0 _)) (fun _ h => by cases h) <|
  orElse_ne_again (tokString_ne_more hp _) (fun _ h => by cases h) <|
  orElse_ne_again (tokDouble_ne_more hp _) (fun _ => (floatOut_ne _ _).2.1) <|
  orElse_ne_again (tokInteger_ne_more hp _) (fun _ => (intOut_ne _ _ _).2.1) <|
  orElse_ne_again (tokSymbol_ne_more hp _) (fun _ h => by cases h) <|
  orElse_ne_again (tokChar_ne_more hp) (fun _ h => by cases h) (fun h => by cases h)

theorem stream_noMore {s : Stream} (h : s.ended = true) : NoMore s.peek := by
  intro k
  unfold Stream.peek
  split
  · intro h; cases h
  · rw [h]; intro h; cases h

theorem cleanLoop_closed {a : List Byte} : ∀ {c : Bool}, (cleanLoop true c a).1 = true := by
  induction a with
  | nil => intro c; cases c <;> rfl
  | cons x a ih =>
    intro c
    cases c with
    | true => simp only [cleanLoop]; exact ih
    | false =>
      simp only [cleanLoop]
      split
      · exact ih
      · split
        · exact ih
        · rfl

/-- What one run on a closed stream does. -/
theorem nextToken_closed (s : Stream) (hs : s.ended = true) :
    (nextToken s).1 ≠ .again ∧ (nextToken s).1 ≠ .fuel ∧ (nextToken s).2.ended = true ∧
    (∀ t, (nextToken s).1 = .token t → (nextToken s).2.avail.length < s.avail.length) := by
  unfold nextToken
  split
  · exact ⟨(fun h => by cases h), (fun h => by cases h), hs, fun t h => by cases h⟩
  have hc : cleanWhitespace s = (true, (cleanWhitespace s).2) := by
    have : (cleanWhitespace s).1 = true := by
      simp only [cleanWhitespace, hs]; exact cleanLoop_closed
    rw [← this]
  have he : (cleanWhitespace s).2.ended = true := by simp only [cleanWhitespace]; exact hs
  have hl : (cleanWhitespace s).2.avail.length ≤ s.avail.length := by
    simp only [cleanWhitespace]; exact cleanLoop_length
  rw [hc]
  generalize (cleanWhitespace s).2 = s1 at he hl
  simp only []
  split
  · exact ⟨(fun h => by cases h), (fun h => by cases h), he, fun t h => by cases h⟩
  rename_i hne
  rcases hd : dispatch s1.peek (s1.avail.length + 2) with ⟨o, n⟩
  have hu := dispatch_uses s1.peek (s1.avail.length + 2)
  have hf := dispatch_ne_fuel (stream_stops s1)
  have ha := dispatch_ne_again (stream_noMore he) (s1.avail.length + 2)
  rw [hd] at hu hf ha
  refine ⟨ha, hf, he, fun t ht => ?_⟩
  have hn := hu.1 t ht
  have hpos : 0 < s1.avail.length := by
    rw [he] at hne
    cases hav : s1.avail with
    | nil => rw [hav] at hne; exact absurd rfl hne
    | cons => simp
  simp only [List.length_drop] at hn ⊢
  omega

/-- On an open stream a token uses up characters too. -/
theorem nextToken_open_ne_fuel (s : Stream) (hs : s.ended = false) : (nextToken s).1 ≠ .fuel := by
  unfold nextToken
  rw [hs]
  simp only [Bool.false_and, Bool.false_eq_true, if_false]
  split
  · intro h; cases h
  · rename_i s1 _
    split
    · intro h; cases h
    · exact dispatch_ne_fuel (stream_stops s1)

end Verif.Tok
