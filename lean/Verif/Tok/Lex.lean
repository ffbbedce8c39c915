import Verif.Tok.Ext

/-!
# Loop bounds and consumed characters
-/

namespace Verif.Tok

/-! ## The loop bound of the model is never reached -/

/-- There is a position below `k` without a character. -/
def Stops (p : Nat → Peek) (k : Nat) : Prop := ∃ m < k, ∀ c, p m ≠ .ok c

theorem Reach.lt {p : Nat → Peek} {n k : Nat} (h : Reach p n) (hs : Stops p k) : n < k := by
  obtain ⟨m, hm, hc⟩ := hs
  by_cases hmn : m < n
  · obtain ⟨c, e⟩ := h m hmn; exact absurd e (hc c)
  · omega

theorem bind_ne_fuel {α β : Type} {x : R α} {f : α → R β} (h : x ≠ .fuel)
    (hf : ∀ a, x = .ok a → f a ≠ .fuel) : (x >>= f) ≠ .fuel := by
  cases x with
  | ok a => exact hf a rfl
  | fuel => exact absurd rfl h
  | _ => intro h; cases h

theorem peekTok_ne_fuel (p : Nat → Peek) (n : Nat) : peekTok p n ≠ .fuel := by
  unfold peekTok; split <;> (intro h; cases h)

theorem matchStr_ne_fuel (p : Nat → Peek) : ∀ ms n, matchStr p n ms ≠ .fuel := by
  intro ms
  induction ms with
  | nil => intro n h; cases h
  | cons m ms ih =>
    intro n
    simp only [matchStr]
    split
    · split
      · intro h; cases h
      · exact ih _
    · intro h; cases h
    · intro h; cases h

theorem matchFixed_ne_fuel (p : Nat → Peek) (n : Nat) : ∀ ms, matchFixed p n ms ≠ .fuel := by
  intro ms
  induction ms with
  | nil => intro h; cases h
  | cons m ms ih =>
    refine bind_ne_fuel (matchStr_ne_fuel p _ _) ?_
    intro b _
    split
    · intro h; cases h
    · exact ih

theorem typeSuffix_ne_fuel (p : Nat → Peek) (n d : Nat) : typeSuffix p n d ≠ .fuel := by
  unfold typeSuffix
  split
  · intro h; cases h
  · exact matchFixed_ne_fuel p n _

theorem symLoop_ne_fuel {p : Nat → Peek} {k : Nat} (hs : Stops p k) : ∀ f n out, Reach p n →
    k ≤ n + f → symLoop p f n out ≠ .fuel := by
  intro f
  induction f with
  | zero => intro n out hn hk; have := hn.lt hs; omega
  | succ f ih =>
    intro n out hn hk
    simp only [symLoop]
    cases e : p n with
    | ok c =>
      simp only []
      split
      · split
        · intro h; cases h
        · exact ih _ _ (hn.succ e) (by omega)
      · intro h; cases h
    | _ => intro h; cases h

theorem strLoop_ne_fuel {p : Nat → Peek} {k : Nat} (hs : Stops p k) : ∀ f n out st en, Reach p n →
    k ≤ n + f → strLoop p f n out st en ≠ .fuel := by
  intro f
  induction f with
  | zero => intro n out _ _ hn hk; have := hn.lt hs; omega
  | succ f ih =>
    intro n out st en hn hk
    simp only [strLoop]
    cases e : p n with
    | ok c =>
      simp only []
      split
      · split
        · exact ih _ _ _ _ (hn.succ e) (by omega)
        · exact ih _ _ _ _ (hn.succ e) (by omega)
      · split <;> (intro h; cases h)
    | more => intro h; cases h
    | done => simp only []; split <;> (intro h; cases h)

theorem digitLoop_ne_fuel {σ : Type} {p : Nat → Peek} {cond : Byte → Bool}
    {body : σ → Nat → Byte → R σ} (hb : ∀ s n c, body s n c ≠ .fuel) {k : Nat} (hs : Stops p k) :
    ∀ f n c s, Reach p n → (cond c = true → Reach p (n + 1)) → k ≤ n + f →
      digitLoop p cond body f n c s ≠ .fuel := by
  intro f
  induction f with
  | zero => intro n c s hn _ hk; have := hn.lt hs; omega
  | succ f ih =>
    intro n c s hn hc hk
    simp only [digitLoop]
    split
    · rename_i hcond
      refine bind_ne_fuel (hb _ _ _) ?_
      intro s1 _
      cases e : p (n + 1) with
      | ok c1 => exact ih _ _ _ (hc hcond) (fun _ => (hc hcond).succ e) (by omega)
      | _ => intro h; cases h
    · intro h; cases h

theorem ext_self (p : Nat → Peek) : Ext p p := fun _ _ => Or.inr rfl

theorem fput_ne_fuel (b : List Byte) (n : Nat) (c : Byte) : fput b n c ≠ .fuel := by
  unfold fput; split <;> (intro h; cases h)

theorem tokSymbol_ne_fuel {p : Nat → Peek} {f : Nat} (hs : Stops p f) : tokSymbol p f ≠ .fuel := by
  refine bind_ne_fuel (peekTok_ne_fuel p 0) ?_
  intro c hc
  split
  · intro h; cases h
  · exact symLoop_ne_fuel hs _ _ _ ((Reach.zero p).succ (peekTok_ok hc)) (by omega)

theorem tokString_ne_fuel {p : Nat → Peek} {f : Nat} (hs : Stops p f) : tokString p f ≠ .fuel := by
  refine bind_ne_fuel (peekTok_ne_fuel p 0) ?_
  intro c hc
  split
  · intro h; cases h
  · exact strLoop_ne_fuel hs _ _ _ _ _ ((Reach.zero p).succ (peekTok_ok hc)) (by omega)

theorem tokChar_ne_fuel (p : Nat → Peek) : tokChar p ≠ .fuel := by
  refine bind_ne_fuel (peekTok_ne_fuel p _) fun c _ => ?_
  split
  · intro h; cases h
  refine bind_ne_fuel (peekTok_ne_fuel p _) fun c _ => ?_
  split
  · intro h; cases h
  refine bind_ne_fuel (peekTok_ne_fuel p _) fun c _ => ?_
  split
  · refine bind_ne_fuel (peekTok_ne_fuel p _) fun c _ => ?_
    split <;> (intro h; cases h)
  · intro h; cases h

theorem exponent_ne_fuel {p : Nat → Peek} {f n : Nat} {c : Byte} {b : List Byte} (hs : Stops p f)
    (hc : c = 101 → Reach p (n + 1)) : exponent p f n c b ≠ .fuel := by
  unfold exponent
  split
  · rename_i hexp
    refine bind_ne_fuel (fput_ne_fuel _ _ _) fun b1 _ => ?_
    refine bind_ne_fuel (peekTok_ne_fuel p _) fun c1 hc1 => ?_
    split
    · intro h; cases h
    · refine bind_ne_fuel (digitLoop_ne_fuel fput_ne_fuel hs _ _ _ _ (hc hexp)
        (fun _ => (hc hexp).succ (peekTok_ok hc1)) (by omega)) fun _ _ => ?_
      intro h; cases h
  · intro h; cases h

theorem tokDouble_ne_fuel {p : Nat → Peek} {f : Nat} (hs : Stops p f) : tokDouble p f ≠ .fuel := by
  refine bind_ne_fuel (peekTok_ne_fuel p 0) fun c hc => ?_
  have h1 := (Reach.zero p).succ (peekTok_ok hc)
  simp only []
  have h2 : Reach p (if decide (c = 45) = true then 1 else 0) := by
    split
    · exact h1
    · exact Reach.zero p
  refine bind_ne_fuel (peekTok_ne_fuel p _) fun c1 hc1 => ?_
  have e1 := peekTok_ok hc1
  refine bind_ne_fuel (digitLoop_ne_fuel fput_ne_fuel hs _ _ _ _ h2 (fun _ => h2.succ e1)
    (by omega)) ?_
  rintro ⟨n2, c2, b2⟩ hr
  obtain ⟨r2, _, d2⟩ := (le_digitLoop (ext_self p) f f _ c1 _ (Nat.le_refl _) h2
    (fun _ => h2.succ e1)).2 _ _ _ hr
  simp only []
  split
  · intro h; cases h
  rename_i hdot
  have hdot : c2 = 46 := by simpa using hdot
  have e2 : p n2 = .ok c2 := by
    rcases d2 e1 with e | e
    · exact e
    · subst hdot; exact absurd e (by decide)
  refine bind_ne_fuel (fput_ne_fuel _ _ _) fun b3 _ => ?_
  have r3 := r2.succ e2
  refine bind_ne_fuel (peekTok_ne_fuel p _) fun c4 hc4 => ?_
  have e4 := peekTok_ok hc4
  split
  · intro h; cases h
  refine bind_ne_fuel (digitLoop_ne_fuel fput_ne_fuel hs _ _ _ _ r3 (fun _ => r3.succ e4)
    (by omega)) ?_
  rintro ⟨n5, c5, b5⟩ hr
  obtain ⟨r5, _, d5⟩ := (le_digitLoop (ext_self p) f f _ c4 _ (Nat.le_refl _) r3
    (fun _ => r3.succ e4)).2 _ _ _ hr
  simp only []
  refine bind_ne_fuel (exponent_ne_fuel hs (by
    intro hexp
    rcases d5 e4 with e | e
    · exact r5.succ e
    · subst hexp; exact absurd e (by decide))) fun x _ => ?_
  refine bind_ne_fuel (typeSuffix_ne_fuel _ _ _) fun t _ => ?_
  split
  · intro h; cases h
  · split <;> (intro h; cases h)

theorem isHex_ne_fuel (p : Nat → Peek) (n : Nat) : isHex p n ≠ .fuel := by
  unfold isHex
  split
  · split
    · split <;> (intro h; cases h)
    · intro h; cases h
  · intro h; cases h
  · intro h; cases h

theorem tokInteger_ne_fuel {p : Nat → Peek} {f : Nat} (hs : Stops p f) : tokInteger p f ≠ .fuel := by
  refine bind_ne_fuel (peekTok_ne_fuel p 0) fun c0 hc0 => ?_
  have h1 := (Reach.zero p).succ (peekTok_ok hc0)
  simp only []
  have h2 : Reach p (if decide (c0 = 45) = true then 1 else 0) := by
    split
    · exact h1
    · exact Reach.zero p
  refine bind_ne_fuel (isHex_ne_fuel _ _) fun hex hhex => ?_
  have rest : ∀ x : R (Nat × BitVec 64), x ≠ .fuel → (x >>= fun r => if r.1 = 0 then .none else
      typeSuffix p r.1 101 >>= fun t =>
      if (decide (c0 = 45) && decide (r.1 > 1) || !decide (c0 = 45)) = true
      then .ok (r.1 + t.1, t.2, decide (c0 = 45), r.2) else .none) ≠ .fuel := by
    intro x hx
    refine bind_ne_fuel hx fun r _ => ?_
    split
    · intro h; cases h
    · refine bind_ne_fuel (typeSuffix_ne_fuel _ _ _) fun t _ => ?_
      split <;> (intro h; cases h)
  apply rest
  unfold digits
  split
  · rename_i hx
    subst hx
    have r2 := (le_isHex (ext_self p) h2).2 hhex
    refine bind_ne_fuel (peekTok_ne_fuel p _) fun c hc => ?_
    refine bind_ne_fuel (digitLoop_ne_fuel (fun _ _ _ h => by cases h) hs _ _ _ _ r2
      (fun _ => r2.succ (peekTok_ok hc)) (by omega)) fun _ _ => ?_
    intro h; cases h
  · have hstale : p (if decide (c0 = 45) = true then 1 else 0) = .done → numChar c0 = false := by
      intro e
      by_cases hc : c0 = 45
      · subst hc; decide
      · simp only [hc, decide_false, Bool.false_eq_true, if_false] at e
        rw [peekTok_ok hc0] at e; cases e
    refine bind_ne_fuel (by unfold peekKeep; split <;> (intro h; cases h)) fun c hc => ?_
    refine bind_ne_fuel (digitLoop_ne_fuel (fun _ _ _ h => by cases h) hs _ _ _ _ h2 (fun hd => ?_)
      (by omega)) fun _ _ => ?_
    · unfold peekKeep at hc
      cases e : p (if decide (c0 = 45) = true then 1 else 0) with
      | ok c1 => exact h2.succ e
      | more => rw [e] at hc; cases hc
      | done => rw [e] at hc; cases hc; rw [hstale e] at hd; cases hd
    · intro h; cases h

/-! ## Consumed characters are available characters -/

theorem matchStr_reach {p : Nat → Peek} : ∀ ms n, Reach p n → matchStr p n ms = .ok true →
    Reach p (n + ms.length) := by
  intro ms
  induction ms with
  | nil => intro n hn _; exact hn
  | cons m ms ih =>
    intro n hn he
    simp only [matchStr] at he
    cases e : p n with
    | ok c =>
      simp only [e] at he
      split at he
      · cases he
      · have := ih (n + 1) (hn.succ e) he
        simpa [Nat.add_assoc, Nat.add_comm 1] using this
    | _ => simp only [e] at he; cases he

theorem matchFixed_reach {p : Nat → Peek} {n : Nat} (hn : Reach p n) : ∀ ms l t,
    matchFixed p n ms = .ok (l, t) → Reach p (n + l) := by
  intro ms
  induction ms with
  | nil => intro l t he; cases he
  | cons m ms ih =>
    intro l t he
    obtain ⟨b, hb, he⟩ := bind_ok he
    split at he
    · rename_i hbt
      subst hbt
      cases he
      exact matchStr_reach _ _ hn hb
    · exact ih l t he

theorem typeSuffix_reach {p : Nat → Peek} {n d l t : Nat} (hn : Reach p n)
    (h : typeSuffix p n d = .ok (l, t)) : Reach p (n + l) := by
  unfold typeSuffix at h
  split at h
  · cases h; exact hn
  · exact matchFixed_reach hn _ _ _ h

theorem symLoop_reach {p : Nat → Peek} : ∀ f n out l s, Reach p n → symLoop p f n out = .ok (l, s) →
    Reach p l ∧ n ≤ l := by
  intro f
  induction f with
  | zero => intro n out l s _ h; cases h
  | succ f ih =>
    intro n out l s hn h
    simp only [symLoop] at h
    cases e : p n with
    | ok c =>
      simp only [e] at h
      split at h
      · split at h
        · cases h
        · have := ih _ _ _ _ (hn.succ e) h
          exact ⟨this.1, by omega⟩
      · cases h; exact ⟨hn, Nat.le_refl _⟩
    | more => simp only [e] at h; cases h
    | done => simp only [e] at h; cases h; exact ⟨hn, Nat.le_refl _⟩

theorem strLoop_reach {p : Nat → Peek} : ∀ f n out st en l s, Reach p n →
    strLoop p f n out st en = .ok (l, s) → n < l ∧ ((∀ k, p k ≠ .done) → Reach p l) := by
  intro f
  induction f with
  | zero => intro n out st en l s _ h; cases h
  | succ f ih =>
    intro n out st en l s hn h
    simp only [strLoop] at h
    cases e : p n with
    | ok c =>
      simp only [e] at h
      split at h
      · split at h
        · have := ih _ _ _ _ _ _ (hn.succ e) h
          exact ⟨by omega, this.2⟩
        · have := ih _ _ _ _ _ _ (hn.succ e) h
          exact ⟨by omega, this.2⟩
      · split at h
        · cases h
        · cases h; exact ⟨by omega, fun _ => hn.succ e⟩
    | more => simp only [e] at h; cases h
    | done =>
      simp only [e] at h
      split at h
      · cases h
      · cases h; exact ⟨by omega, fun hd => absurd e (hd n)⟩

theorem tokSyntax_reach {p : Nat → Peek} {n t : Nat} (h : tokSyntax p = .ok (n, t)) : Reach p n := by
  simpa using matchFixed_reach (Reach.zero p) _ _ _ h

theorem tokSymbol_reach {p : Nat → Peek} {f n : Nat} {s : List Byte}
    (h : tokSymbol p f = .ok (n, s)) : Reach p n ∧ 0 < n := by
  obtain ⟨c, hc, h⟩ := bind_ok h
  split at h
  · cases h
  · have := symLoop_reach _ _ _ _ _ ((Reach.zero p).succ (peekTok_ok hc)) h
    exact ⟨this.1, by omega⟩

theorem tokString_reach {p : Nat → Peek} {f n : Nat} {s : List Byte}
    (h : tokString p f = .ok (n, s)) : 0 < n ∧ ((∀ k, p k ≠ .done) → Reach p n) := by
  obtain ⟨c, hc, h⟩ := bind_ok h
  split at h
  · cases h
  · have := strLoop_reach _ _ _ _ _ _ _ ((Reach.zero p).succ (peekTok_ok hc)) h
    exact ⟨by omega, this.2⟩

theorem tokChar_reach {p : Nat → Peek} {n : Nat} {c : Byte} (h : tokChar p = .ok (n, c)) :
    Reach p n ∧ 0 < n := by
  obtain ⟨c0, h0, h⟩ := bind_ok h
  split at h
  · cases h
  obtain ⟨c1, h1, h⟩ := bind_ok h
  split at h
  · cases h
  obtain ⟨c2, h2, h⟩ := bind_ok h
  have r := (((Reach.zero p).succ (peekTok_ok h0)).succ (peekTok_ok h1)).succ (peekTok_ok h2)
  split at h
  · obtain ⟨c3, h3, h⟩ := bind_ok h
    split at h
    · cases h; exact ⟨r.succ (peekTok_ok h3), by omega⟩
    · cases h
  · cases h; exact ⟨r, by omega⟩

theorem tokDouble_reach {p : Nat → Peek} {f n : Nat} {x : Nat × Bool × List Byte}
    (h : tokDouble p f = .ok (n, x)) : Reach p n ∧ 0 < n := by
  obtain ⟨c, hc, h⟩ := bind_ok h
  have h1 := (Reach.zero p).succ (peekTok_ok hc)
  simp only [] at h
  have h2 : Reach p (if decide (c = 45) = true then 1 else 0) := by
    split
    · exact h1
    · exact Reach.zero p
  obtain ⟨c1, hc1, h⟩ := bind_ok h
  have e1 := peekTok_ok hc1
  obtain ⟨⟨n2, c2, b2⟩, hr, h⟩ := bind_ok h
  obtain ⟨r2, _, d2⟩ := (le_digitLoop (ext_self p) f f _ c1 _ (Nat.le_refl _) h2
    (fun _ => h2.succ e1)).2 _ _ _ hr
  simp only [] at h
  split at h
  · cases h
  rename_i hdot
  have hdot : c2 = 46 := by simpa using hdot
  have e2 : p n2 = .ok c2 := by
    rcases d2 e1 with e | e
    · exact e
    · subst hdot; exact absurd e (by decide)
  obtain ⟨b3, _, h⟩ := bind_ok h
  have r3 := r2.succ e2
  obtain ⟨c4, hc4, h⟩ := bind_ok h
  have e4 := peekTok_ok hc4
  split at h
  · cases h
  obtain ⟨⟨n5, c5, b5⟩, hr, h⟩ := bind_ok h
  obtain ⟨r5, _, d5⟩ := (le_digitLoop (ext_self p) f f _ c4 _ (Nat.le_refl _) r3
    (fun _ => r3.succ e4)).2 _ _ _ hr
  simp only [] at h
  have hx := le_exponent (ext_self p) (c := c5) (b := b5) (Nat.le_refl f) r5 (by
    intro hexp
    rcases d5 e4 with e | e
    · exact r5.succ e
    · subst hexp; exact absurd e (by decide))
  obtain ⟨⟨n6, b6⟩, he, h⟩ := bind_ok h
  have r6 := hx.2 _ _ he
  obtain ⟨⟨tl, ty⟩, ht, h⟩ := bind_ok h
  have r7 := typeSuffix_reach r6 ht
  simp only [] at h
  split at h
  · cases h
  · split at h
    · rename_i hv
      cases h
      refine ⟨r7, ?_⟩
      simp only [Bool.or_eq_true, Bool.and_eq_true, decide_eq_true_eq] at hv
      omega
    · cases h

theorem tokInteger_reach {p : Nat → Peek} {f n : Nat} {x : Nat × Bool × BitVec 64}
    (h : tokInteger p f = .ok (n, x)) : Reach p n ∧ 0 < n := by
  obtain ⟨c0, hc0, h⟩ := bind_ok h
  have h1 := (Reach.zero p).succ (peekTok_ok hc0)
  simp only [] at h
  have h2 : Reach p (if decide (c0 = 45) = true then 1 else 0) := by
    split
    · exact h1
    · exact Reach.zero p
  have hstale : p (if decide (c0 = 45) = true then 1 else 0) = .done → numChar c0 = false := by
    intro e
    by_cases hc : c0 = 45
    · subst hc; decide
    · simp only [hc, decide_false, Bool.false_eq_true, if_false] at e
      rw [peekTok_ok hc0] at e; cases e
  obtain ⟨hex, hhex, h⟩ := bind_ok h
  obtain ⟨⟨n3, acc⟩, hd, h⟩ := bind_ok h
  have r3 : Reach p n3 := by
    unfold digits at hd
    split at hd
    · rename_i hx
      subst hx
      exact (le_hexDigits (ext_self p) (Nat.le_refl f) ((le_isHex (ext_self p) h2).2 hhex)).2 _ _ hd
    · exact (le_decDigits (ext_self p) (Nat.le_refl f) h2 hstale).2 _ _ hd
  simp only [] at h
  split at h
  · cases h
  · obtain ⟨⟨tl, ty⟩, ht, h⟩ := bind_ok h
    have r7 := typeSuffix_reach r3 ht
    split at h
    · cases h
      exact ⟨r7, by omega⟩
    · cases h

end Verif.Tok
