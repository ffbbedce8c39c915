import Verif.Tok.StrLit

/-!
# C53: the tokenizers stay within their buffers

`tok_double` copies a number to `char fbuf[128]` without looking at the length
until it has copied all of it (tokpar.c:289, 311-362).
-/

namespace Verif.Tok

/-- The characters of a float literal. -/
def numeric : List Byte := ascii "0123456789.e-"

/-- All positions below `n` hold characters of numbers. -/
def NumRun (p : Nat → Peek) (n : Nat) : Prop := ∀ k < n, ∃ c, p k = .ok c ∧ c ∈ numeric

/-- Within the first 129 positions there is one that is not part of a number. -/
def ShortNumber (p : Nat → Peek) : Prop := ∃ m ≤ 128, ∀ c, p m = .ok c → c ∉ numeric

theorem NumRun.zero (p : Nat → Peek) : NumRun p 0 := fun _ h => absurd h (by omega)

theorem NumRun.succ {p : Nat → Peek} {n : Nat} {c : Byte} (h : NumRun p n) (e : p n = .ok c)
    (hc : c ∈ numeric) : NumRun p (n + 1) := by
  intro k hk
  by_cases hkn : k = n
  · subst hkn; exact ⟨c, e, hc⟩
  · exact h k (by omega)

theorem NumRun.lt {p : Nat → Peek} {n : Nat} (h : NumRun p (n + 1)) (hs : ShortNumber p) : n < 128 := by
  obtain ⟨m, hm, hc⟩ := hs
  by_cases hmn : m ≤ n
  · obtain ⟨c, e, hin⟩ := h m (by omega)
    exact absurd hin (hc c e)
  · omega

theorem numeric_num : ∀ c : Byte, numChar c = true → c ∈ numeric := by decide +kernel
theorem numeric_exp : ∀ c : Byte, (numChar c || c == 45) = true → c ∈ numeric := by decide +kernel

theorem bind_ne_ub {α β : Type} {x : R α} {f : α → R β} (h : x ≠ .ub)
    (hf : ∀ a, x = .ok a → f a ≠ .ub) : (x >>= f) ≠ .ub := by
  cases x with
  | ok a => exact hf a rfl
  | ub => exact absurd rfl h
  | _ => intro h; cases h

theorem peekTok_ne_ub (p : Nat → Peek) (n : Nat) : peekTok p n ≠ .ub := by
  unfold peekTok; split <;> (intro h; cases h)
theorem peekKeep_ne_ub (p : Nat → Peek) (n : Nat) (c : Byte) : peekKeep p n c ≠ .ub := by
  unfold peekKeep; split <;> (intro h; cases h)

theorem fput_ne_ub {p : Nat → Peek} (hs : ShortNumber p) {n : Nat} (h : NumRun p (n + 1))
    (b : List Byte) (c : Byte) : fput b n c ≠ .ub := by
  rw [fput_ok (h.lt hs)]; intro h; cases h

/-- A loop that writes each character to the buffer: what it leaves. -/
theorem digitLoop_fput {p : Nat → Peek} (hs : ShortNumber p) {cond : Byte → Bool}
    (hcond : ∀ c, cond c = true → c ∈ numeric) : ∀ f n c b, NumRun p n → p n = .ok c →
    digitLoop p cond fput f n c b ≠ .ub ∧ ∀ n' c' b', digitLoop p cond fput f n c b = .ok (n', c', b') →
      NumRun p n' ∧ (p n' = .ok c' ∨ cond c' = true) := by
  intro f
  induction f with
  | zero => intro n c b _ _; exact ⟨(fun h => by cases h), fun _ _ _ h => by cases h⟩
  | succ f ih =>
    intro n c b hn hc
    simp only [digitLoop]
    split
    · rename_i hcc
      have hn1 := hn.succ hc (hcond c hcc)
      rw [fput_ok (hn1.lt hs)]
      simp only [R_bind_ok]
      cases e : p (n + 1) with
      | more => exact ⟨(fun h => by cases h), fun _ _ _ h => by cases h⟩
      | done =>
        refine ⟨(fun h => by cases h), fun _ _ _ h => ?_⟩
        cases h
        exact ⟨hn1, Or.inr hcc⟩
      | ok c1 => exact ih (n + 1) c1 _ hn1 e
    · refine ⟨(fun h => by cases h), fun _ _ _ h => ?_⟩
      cases h
      exact ⟨hn, Or.inl hc⟩

theorem matchStr_ne_ub (p : Nat → Peek) : ∀ ms n, matchStr p n ms ≠ .ub := by
  intro ms
  induction ms with
  | nil => intro n h; cases h
  | cons m ms ih =>
    intro n
    simp only [matchStr]
    split
    · split
      · intro h; cases h
      · exact ih _
    · intro h; cases h
    · intro h; cases h

theorem matchFixed_ne_ub (p : Nat → Peek) (n : Nat) : ∀ ms, matchFixed p n ms ≠ .ub := by
  intro ms
  induction ms with
  | nil => intro h; cases h
  | cons m ms ih =>
    refine bind_ne_ub (matchStr_ne_ub p _ _) ?_
    intro b _
    split
    · intro h; cases h
    · exact ih

theorem typeSuffix_ne_ub (p : Nat → Peek) (n d : Nat) : typeSuffix p n d ≠ .ub := by
  unfold typeSuffix
  split
  · intro h; cases h
  · exact matchFixed_ne_ub p n _

theorem exponent_ne_ub {p : Nat → Peek} (hs : ShortNumber p) {f n : Nat} {c : Byte} {b : List Byte}
    (hn : NumRun p n) (hc : p n = .ok c ∨ c ≠ 101) : exponent p f n c b ≠ .ub := by
  unfold exponent
  split
  · rename_i h101
    have hp : p n = .ok c := hc.resolve_right (fun h => h h101)
    have hn1 := hn.succ hp (by subst h101; decide)
    refine bind_ne_ub (fput_ne_ub hs hn1 _ _) fun b _ => ?_
    refine bind_ne_ub (peekTok_ne_ub _ _) fun c hc => ?_
    split
    · intro h; cases h
    refine bind_ne_ub ((digitLoop_fput hs numeric_exp _ _ _ _ hn1 (peekTok_ok hc)).1) fun r _ => ?_
    intro h; cases h
  · intro h; cases h

theorem tokDouble_ne_ub {p : Nat → Peek} (hs : ShortNumber p) (f : Nat) : tokDouble p f ≠ .ub := by
  unfold tokDouble
  refine bind_ne_ub (peekTok_ne_ub _ _) fun c0 h0 => ?_
  extract_lets neg n0
  have hn0 : NumRun p n0 := by
    simp only [n0, neg]
    by_cases h : c0 = 45
    · subst h; exact (NumRun.zero p).succ (peekTok_ok h0) (by decide)
    · simp only [h, decide_false, Bool.false_eq_true, if_false]; exact NumRun.zero p
  refine bind_ne_ub (peekTok_ne_ub _ _) fun c hc => ?_
  have hl := digitLoop_fput hs numeric_num f n0 c (if neg = true then [45] else []) hn0 (peekTok_ok hc)
  refine bind_ne_ub hl.1 ?_
  rintro ⟨n1, c1, b1⟩ hi
  have h1 := hl.2 _ _ _ hi
  simp only []
  split
  · intro h; cases h
  rename_i h46
  have h46 : c1 = 46 := by simpa using h46
  have hp1 : p n1 = .ok c1 := h1.2.resolve_right (by subst h46; decide)
  have hn2 := h1.1.succ hp1 (by subst h46; decide)
  refine bind_ne_ub (fput_ne_ub hs hn2 _ _) fun b _ => ?_
  refine bind_ne_ub (peekTok_ne_ub _ _) fun c hc => ?_
  split
  · intro h; cases h
  have hl2 := digitLoop_fput hs numeric_num f (n1 + 1) c b hn2 (peekTok_ok hc)
  refine bind_ne_ub hl2.1 ?_
  rintro ⟨n3, c3, b3⟩ hi3
  have h3 := hl2.2 _ _ _ hi3
  simp only []
  refine bind_ne_ub (exponent_ne_ub hs h3.1 ?_) fun e _ => ?_
  · rcases h3.2 with h | h
    · exact Or.inl h
    · exact Or.inr (by rintro rfl; exact absurd h (by decide))
  refine bind_ne_ub (typeSuffix_ne_ub _ _ _) fun t _ => ?_
  split
  · intro h; cases h
  · split <;> (intro h; cases h)

theorem digitLoop_ne_ub {σ : Type} {p : Nat → Peek} {cond : Byte → Bool}
    {body : σ → Nat → Byte → R σ} (hb : ∀ s n c, body s n c ≠ .ub) :
    ∀ f n c s, digitLoop p cond body f n c s ≠ .ub := by
  intro f
  induction f with
  | zero => intro n c s h; cases h
  | succ f ih =>
    intro n c s
    simp only [digitLoop]
    split
    · refine bind_ne_ub (hb _ _ _) ?_
      intro s1 _
      cases e : p (n + 1) with
      | ok c1 => exact ih _ _ _
      | more => intro h; cases h
      | done => intro h; cases h
    · intro h; cases h

theorem tokInteger_ne_ub (p : Nat → Peek) (f : Nat) : tokInteger p f ≠ .ub := by
  unfold tokInteger
  refine bind_ne_ub (peekTok_ne_ub _ _) fun c _ => ?_
  extract_lets neg n
  refine bind_ne_ub ?_ fun x _ => ?_
  · unfold isHex
    split
    · split
      · split <;> (intro h; cases h)
      · intro h; cases h
    · intro h; cases h
    · intro h; cases h
  refine bind_ne_ub ?_ fun r _ => ?_
  · unfold digits
    split
    · refine bind_ne_ub (peekTok_ne_ub _ _) fun c _ => ?_
      refine bind_ne_ub (digitLoop_ne_ub (fun _ _ _ h => by cases h) _ _ _ _) fun r _ => ?_
      intro h; cases h
    · refine bind_ne_ub (peekKeep_ne_ub _ _ _) fun c _ => ?_
      refine bind_ne_ub (digitLoop_ne_ub (fun _ _ _ h => by cases h) _ _ _ _) fun r _ => ?_
      intro h; cases h
  split
  · intro h; cases h
  refine bind_ne_ub (typeSuffix_ne_ub _ _ _) fun t _ => ?_
  split <;> (intro h; cases h)

theorem symLoop_ne_ub (p : Nat → Peek) : ∀ f n out, symLoop p f n out ≠ .ub := by
  intro f
  induction f with
  | zero => intro n out h; cases h
  | succ f ih =>
    intro n out
    simp only [symLoop]
    split
    · split
      · split
        · intro h; cases h
        · exact ih _ _
      · intro h; cases h
    · intro h; cases h
    · intro h; cases h

theorem strLoop_ne_ub (p : Nat → Peek) : ∀ f n out st en, strLoop p f n out st en ≠ .ub := by
  intro f
  induction f with
  | zero => intro n out _ _ h; cases h
  | succ f ih =>
    intro n out st en
    simp only [strLoop]
    split
    · intro h; cases h
    · split <;> (intro h; cases h)
    · split
      · split
        · exact ih _ _ _ _
        · exact ih _ _ _ _
      · split <;> (intro h; cases h)

theorem orElse_ne_ub {α : Type} {r : R α} {use : α → Out × Nat} {x : Out × Nat} (h : r ≠ .ub)
    (hu : ∀ a, (use a).1 ≠ .ub) (hx : x.1 ≠ .ub) : (orElse r use x).1 ≠ .ub := by
  cases r with
  | ok a => exact hu a
  | none => exact hx
  | ub => exact absurd rfl h
  | _ => intro h; cases h

theorem tokSymbol_ne_ub (p : Nat → Peek) (f : Nat) : tokSymbol p f ≠ .ub := by
  refine bind_ne_ub (peekTok_ne_ub p 0) fun c _ => ?_
  split
  · intro h; cases h
  · exact symLoop_ne_ub p _ _ _

theorem tokString_ne_ub (p : Nat → Peek) (f : Nat) : tokString p f ≠ .ub := by
  refine bind_ne_ub (peekTok_ne_ub p 0) fun c _ => ?_
  split
  · intro h; cases h
  · exact strLoop_ne_ub p _ _ _ _ _

theorem tokChar_ne_ub (p : Nat → Peek) : tokChar p ≠ .ub := by
  refine bind_ne_ub (peekTok_ne_ub p _) fun c _ => ?_
  split
  · intro h; cases h
  refine bind_ne_ub (peekTok_ne_ub p _) fun c _ => ?_
  split
  · intro h; cases h
  refine bind_ne_ub (peekTok_ne_ub p _) fun c _ => ?_
  split
  · refine bind_ne_ub (peekTok_ne_ub p _) fun c _ => ?_
    split <;> (intro h; cases h)
  · intro h; cases h

/-- No tokenizer writes outside of its buffer when the input has no run of more
than 128 number characters at its start.  Missing: longer runs, see
`C53_overflow`. -/
theorem C53_in_bounds_partial {p : Nat → Peek} (hs : ShortNumber p) (f : Nat) :
    (dispatch p f).1 ≠ .ub := by
  have hpos : positive (tokSyntax p) ≠ .ub := by
    have := matchFixed_ne_ub p 0 fixedSizeTokens
    unfold positive
    split
    · intro h; cases h
    · exact this
  exact orElse_ne_ub hpos (fun _ h => by cases h) <|
    orElse_ne_ub (tokString_ne_ub p f) (fun _ h => by cases h) <|
    orElse_ne_ub (tokDouble_ne_ub hs f) (fun r => by unfold floatOut; split <;> (intro h; cases h)) <|
    orElse_ne_ub (tokInteger_ne_ub p f) (fun r => by unfold intOut; split <;> (intro h; cases h)) <|
    orElse_ne_ub (tokSymbol_ne_ub p f) (fun _ h => by cases h) <|
    orElse_ne_ub (tokChar_ne_ub p) (fun _ h => by cases h) (fun h => by cases h)

example : ShortNumber (Stream.peek ⟨ascii "(1 2 3)", true, false⟩) :=
  ⟨0, by decide, by intro c h; cases h; decide +kernel⟩

/-- Strings and symbols stay within the 257 bytes of `tokpar_sym_str`
(tokpar.c:40), the terminating zero included. -/
theorem symLoop_length {p : Nat → Peek} : ∀ f n out, out.length = n → n ≤ 255 →
    ∀ n' out', symLoop p f n out = .ok (n', out') → out'.length ≤ 255 := by
  intro f
  induction f with
  | zero => intro n out _ _ n' out' h; cases h
  | succ f ih =>
    intro n out hl hn n' out' h
    simp only [symLoop] at h
    split at h
    · split at h
      · split at h
        · cases h
        · exact ih (n + 1) _ (by simp [hl]) (by omega) _ _ h
      · cases h; omega
    · cases h
    · cases h; omega

theorem C53_name_buffer (p : Nat → Peek) (f : Nat) :
    (∀ n s, tokSymbol p f = .ok (n, s) → s.length ≤ 256) ∧
    (∀ n s, tokString p f = .ok (n, s) → s.length ≤ 256) := by
  constructor
  · intro n s h
    unfold tokSymbol at h
    obtain ⟨c, _, h⟩ := bind_ok h
    split at h
    · cases h
    · have := symLoop_length _ 1 _ rfl (by decide) _ _ h
      omega
  · intro n s h
    unfold tokString at h
    obtain ⟨c, _, h⟩ := bind_ok h
    split at h
    · cases h
    · obtain ⟨is, _, _, h2, h3, _⟩ := strLoop_sound _ _ _ _ _ _ _ (by simp) (fun h => by cases h) h
      rw [h2]; simpa using h3

theorem digitLoop_overflow {p : Nat → Peek} : ∀ (k f n : Nat) (ds : List Byte) (d : Byte) (b : List Byte),
    k + n = 128 → At p n (d :: ds) → (∀ c ∈ d :: ds, numChar c = true) → k ≤ ds.length → k < f →
    digitLoop p numChar fput f n d b = .ub := by
  intro k
  induction k with
  | zero =>
    intro f n ds d b hk hat hc _ hf
    obtain ⟨g, rfl⟩ : ∃ g, f = g + 1 := ⟨f - 1, by omega⟩
    have : n = 128 := by omega
    subst this
    simp only [digitLoop, hc d (by simp), if_true]
    rfl
  | succ k ih =>
    intro f n ds d b hk hat hc hl hf
    obtain ⟨g, rfl⟩ : ∃ g, f = g + 1 := ⟨f - 1, by omega⟩
    cases ds with
    | nil => simp at hl
    | cons d' ds =>
      simp only [digitLoop, hc d (by simp), if_true]
      rw [fput_ok (by omega)]
      simp only [R_bind_ok, hat.cons.2.cons.1]
      exact ih g (n + 1) ds d' _ (by omega) hat.cons.2 (fun c h => hc c (by simp at h ⊢; exact Or.inr h))
        (by simp only [List.length_cons] at hl; omega) (by omega)

/-- Every decimal number of more than 128 digits makes the reader write outside of
`fbuf`, also when it is an integer. -/
theorem C53_overflow (ds rest : List Byte) (hd : ∀ c ∈ ds, numChar c = true) (hl : 128 < ds.length)
    (ended : Bool) : (nextToken ⟨ds ++ rest, ended, false⟩).1 = .ub := by
  cases ds with
  | nil => simp at hl
  | cons d ds =>
    have hat := stream_at (s := ⟨d :: ds ++ rest, ended, false⟩) rfl
    have hn := numChar_ne d (hd d (by simp))
    have hover := digitLoop_overflow 128 ((d :: ds ++ rest).length + 2) 0 ds d [] (by omega) hat hd
      (by simp only [List.length_cons] at hl; omega)
      (by simp only [List.length_cons, List.length_append] at hl ⊢; omega)
    have hdb : tokDouble (Stream.peek ⟨d :: ds ++ rest, ended, false⟩) ((d :: ds ++ rest).length + 2) = .ub := by
      unfold tokDouble
      simp only [peekTok, hat.cons.1, R_bind_ok, hn.2.1, decide_false, Bool.false_eq_true, if_false, hover]
      rfl
    rw [nextToken_at (numChar_space d (hd d (by simp))) (o := .ub) (n := 0) ?_]
    unfold dispatch
    rw [tokSyntax_no hat.cons.1 hn.2.2.2, tokString_no hat.cons.1 hn.2.2.1, hdb]
    rfl

example : (nextToken ⟨List.replicate 129 49 ++ [41], false, false⟩).1 = .ub :=
  C53_overflow (List.replicate 129 49) [41] (by intro c h; rw [List.eq_of_mem_replicate h]; decide)
    (by simp) false

end Verif.Tok
