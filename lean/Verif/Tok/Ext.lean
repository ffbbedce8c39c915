import Verif.Tok.Model

/-!
# Tokenizers see only what they peek at, in order

If channel `q` extends channel `p`, a tokenizer that does not ask for more input
on `p` gives the same result on `q`.
-/

namespace Verif.Tok

/-- All positions below `n` hold characters. -/
def Reach (p : Nat → Peek) (n : Nat) : Prop := ∀ m < n, ∃ c, p m = .ok c

/-- `q` shows the same as `p` up to the first position without a character, and
there too unless `p` is waiting for input. -/
def Ext (p q : Nat → Peek) : Prop := ∀ n, Reach p n → p n = .more ∨ p n = q n

theorem Reach.zero (p : Nat → Peek) : Reach p 0 := fun _ h => absurd h (by omega)
theorem Reach.succ {p : Nat → Peek} {n : Nat} {c : Byte} (h : Reach p n) (e : p n = .ok c) :
    Reach p (n + 1) := by
  intro m hm
  by_cases hmn : m = n
  · subst hmn; exact ⟨c, e⟩
  · exact h m (by omega)
theorem Reach.mono {p : Nat → Peek} {n m : Nat} (h : Reach p n) (hm : m ≤ n) : Reach p m :=
  fun k hk => h k (by omega)

/-- `x` is `y`, or undecided. -/
def Le {α : Type} (x y : R α) : Prop := x = .more ∨ x = .fuel ∨ x = y

theorem Le.refl {α : Type} (x : R α) : Le x x := Or.inr (Or.inr rfl)

theorem le_bind {α β : Type} {x y : R α} {f g : α → R β} (h : Le x y)
    (hf : ∀ a, x = .ok a → Le (f a) (g a)) : Le (x >>= f) (y >>= g) := by
  rcases h with h | h | h
  · subst h; exact Or.inl rfl
  · subst h; exact Or.inr (Or.inl rfl)
  · subst h
    cases x with
    | ok a => exact hf a rfl
    | _ => exact Le.refl _

theorem peekTok_ok {p : Nat → Peek} {n : Nat} {c : Byte} (h : peekTok p n = .ok c) : p n = .ok c := by
  unfold peekTok at h
  split at h <;> cases h
  assumption

theorem le_peekTok {p q : Nat → Peek} (h : Ext p q) {n : Nat} (hn : Reach p n) :
    Le (peekTok p n) (peekTok q n) := by
  rcases h n hn with e | e
  · left; simp [peekTok, e]
  · right; right; simp [peekTok, e]

theorem le_matchStr {p q : Nat → Peek} (h : Ext p q) : ∀ ms n, Reach p n →
    Le (matchStr p n ms) (matchStr q n ms) := by
  intro ms
  induction ms with
  | nil => intro n _; exact Le.refl _
  | cons m ms ih =>
    intro n hn
    simp only [matchStr]
    rcases h n hn with e | e
    · rw [e]; exact Or.inl rfl
    · rw [← e]
      cases e' : p n with
      | ok c =>
        simp only []
        split
        · exact Le.refl _
        · exact ih (n + 1) (hn.succ e')
      | more => exact Or.inl rfl
      | done => exact Le.refl _

theorem le_matchFixed {p q : Nat → Peek} (h : Ext p q) {n : Nat} (hn : Reach p n) : ∀ ms,
    Le (matchFixed p n ms) (matchFixed q n ms) := by
  intro ms
  induction ms with
  | nil => exact Le.refl _
  | cons m ms ih =>
    simp only [matchFixed]
    refine le_bind (le_matchStr h _ _ hn) ?_
    intro b _
    split
    · exact Le.refl _
    · exact ih

theorem le_tokSyntax {p q : Nat → Peek} (h : Ext p q) : Le (tokSyntax p) (tokSyntax q) :=
  le_matchFixed h (Reach.zero p) _

theorem le_symLoop {p q : Nat → Peek} (h : Ext p q) : ∀ f f' n out, f ≤ f' → Reach p n →
    Le (symLoop p f n out) (symLoop q f' n out) := by
  intro f
  induction f with
  | zero => intro f' n out _ _; exact Or.inr (Or.inl rfl)
  | succ f ih =>
    intro f' n out hf hn
    obtain ⟨f', rfl⟩ : ∃ k, f' = k + 1 := ⟨f' - 1, by omega⟩
    simp only [symLoop]
    rcases h n hn with e | e
    · rw [e]; exact Or.inl rfl
    · rw [← e]
      cases e' : p n with
      | ok c =>
        simp only []
        split
        · split
          · exact Le.refl _
          · exact ih f' _ _ (by omega) (hn.succ e')
        · exact Le.refl _
      | more => exact Or.inl rfl
      | done => exact Le.refl _

theorem le_tokSymbol {p q : Nat → Peek} (h : Ext p q) {f f' : Nat} (hf : f ≤ f') :
    Le (tokSymbol p f) (tokSymbol q f') := by
  refine le_bind (le_peekTok h (Reach.zero p)) ?_
  intro c hc
  split
  · exact Le.refl _
  · exact le_symLoop h _ _ _ _ hf ((Reach.zero p).succ (peekTok_ok hc))

theorem le_strLoop {p q : Nat → Peek} (h : Ext p q) : ∀ f f' n out st en, f ≤ f' → Reach p n →
    Le (strLoop p f n out st en) (strLoop q f' n out st en) := by
  intro f
  induction f with
  | zero => intro f' n out _ _ _ _; exact Or.inr (Or.inl rfl)
  | succ f ih =>
    intro f' n out st en hf hn
    obtain ⟨f', rfl⟩ : ∃ k, f' = k + 1 := ⟨f' - 1, by omega⟩
    simp only [strLoop]
    rcases h n hn with e | e
    · rw [e]; exact Or.inl rfl
    · rw [← e]
      cases e' : p n with
      | ok c =>
        simp only []
        split
        · split
          · exact ih f' _ _ _ _ (by omega) (hn.succ e')
          · exact ih f' _ _ _ _ (by omega) (hn.succ e')
        · exact Le.refl _
      | more => exact Or.inl rfl
      | done => exact Le.refl _

theorem le_tokString {p q : Nat → Peek} (h : Ext p q) {f f' : Nat} (hf : f ≤ f') :
    Le (tokString p f) (tokString q f') := by
  refine le_bind (le_peekTok h (Reach.zero p)) ?_
  intro c hc
  split
  · exact Le.refl _
  · exact le_strLoop h _ _ _ _ _ _ hf ((Reach.zero p).succ (peekTok_ok hc))

theorem le_tokChar {p q : Nat → Peek} (h : Ext p q) : Le (tokChar p) (tokChar q) := by
  refine le_bind (le_peekTok h (Reach.zero p)) ?_
  intro c hc
  have h1 := (Reach.zero p).succ (peekTok_ok hc)
  split
  · exact Le.refl _
  refine le_bind (le_peekTok h h1) ?_
  intro c hc
  have h2 := h1.succ (peekTok_ok hc)
  split
  · exact Le.refl _
  refine le_bind (le_peekTok h h2) ?_
  intro c hc
  have h3 := h2.succ (peekTok_ok hc)
  split
  · refine le_bind (le_peekTok h h3) ?_
    intro c hc
    exact Le.refl _
  · exact Le.refl _

theorem le_digitLoop {σ : Type} {p q : Nat → Peek} (h : Ext p q) {cond : Byte → Bool}
    {body : σ → Nat → Byte → R σ} : ∀ f f' n c s, f ≤ f' → Reach p n →
    (cond c = true → Reach p (n + 1)) →
    Le (digitLoop p cond body f n c s) (digitLoop q cond body f' n c s) ∧
    ∀ n' c' s', digitLoop p cond body f n c s = .ok (n', c', s') →
      Reach p n' ∧ n ≤ n' ∧ (p n = .ok c → p n' = .ok c' ∨ cond c' = true) := by
  intro f
  induction f with
  | zero => intro f' n c s _ _ _; exact ⟨Or.inr (Or.inl rfl), fun _ _ _ h => by cases h⟩
  | succ f ih =>
    intro f' n c s hf hn hc
    obtain ⟨f', rfl⟩ : ∃ k, f' = k + 1 := ⟨f' - 1, by omega⟩
    simp only [digitLoop]
    split
    · rename_i hcond
      have hn1 := hc hcond
      cases hb : body s n c with
      | ok s1 =>
        simp only [bind, R.bind]
        rcases h (n + 1) hn1 with e | e
        · rw [e]; exact ⟨Or.inl rfl, fun _ _ _ h => by cases h⟩
        · rw [← e]
          cases e' : p (n + 1) with
          | ok c1 =>
            simp only []
            have := ih f' (n + 1) c1 s1 (by omega) hn1 (fun _ => hn1.succ e')
            refine ⟨this.1, fun n' c' s' he => ?_⟩
            obtain ⟨a, b, d⟩ := this.2 n' c' s' he
            exact ⟨a, by omega, fun _ => d e'⟩
          | more => exact ⟨Or.inl rfl, fun _ _ _ h => by cases h⟩
          | done =>
            refine ⟨Le.refl _, fun n' c' s' he => ?_⟩
            cases he
            exact ⟨hn1, by omega, fun _ => Or.inr hcond⟩
      | _ => exact ⟨Le.refl _, fun _ _ _ h => by cases h⟩
    · refine ⟨Le.refl _, fun n' c' s' he => ?_⟩
      cases he
      exact ⟨hn, Nat.le_refl _, fun e => Or.inl e⟩

theorem le_typeSuffix {p q : Nat → Peek} (h : Ext p q) {n d : Nat} (hn : Reach p n) :
    Le (typeSuffix p n d) (typeSuffix q n d) := by
  unfold typeSuffix
  rcases le_matchFixed h hn typeQualTable with e | e | e
  · rw [e]; exact Or.inl rfl
  · rw [e]; exact Or.inr (Or.inl rfl)
  · rw [e]; exact Le.refl _

theorem bind_ok {α β : Type} {x : R α} {f : α → R β} {b : β} (h : (x >>= f) = .ok b) :
    ∃ a, x = .ok a ∧ f a = .ok b := by
  cases x with
  | ok a => exact ⟨a, rfl, h⟩
  | _ => cases h

theorem le_exponent {p q : Nat → Peek} (h : Ext p q) {f f' n : Nat} {c : Byte} {b : List Byte}
    (hf : f ≤ f') (hn : Reach p n) (hc : c = 101 → Reach p (n + 1)) :
    Le (exponent p f n c b) (exponent q f' n c b) ∧
    ∀ n' b', exponent p f n c b = .ok (n', b') → Reach p n' := by
  unfold exponent
  split
  · rename_i hexp
    have r1 := hc hexp
    constructor
    · refine le_bind (Le.refl _) ?_
      intro b1 _
      refine le_bind (le_peekTok h r1) ?_
      intro c1 hc1
      split
      · exact Le.refl _
      · exact le_bind (le_digitLoop h f f' _ c1 b1 hf r1 (fun _ => r1.succ (peekTok_ok hc1))).1
          (fun _ _ => Le.refl _)
    · intro n' b' he
      obtain ⟨b1, _, he⟩ := bind_ok he
      obtain ⟨c1, hc1, he⟩ := bind_ok he
      split at he
      · cases he
      · obtain ⟨⟨n2, c2, b2⟩, hd, he⟩ := bind_ok he
        cases he
        exact ((le_digitLoop h f f' _ c1 b1 hf r1 (fun _ => r1.succ (peekTok_ok hc1))).2 _ _ _ hd).1
  · refine ⟨Le.refl _, fun n' b' he => ?_⟩
    cases he; exact hn

theorem le_tokDouble {p q : Nat → Peek} (h : Ext p q) {f f' : Nat} (hf : f ≤ f') :
    Le (tokDouble p f) (tokDouble q f') := by
  refine le_bind (le_peekTok h (Reach.zero p)) ?_
  intro c hc
  have h1 := (Reach.zero p).succ (peekTok_ok hc)
  simp only []
  have h2 : Reach p (if decide (c = 45) = true then 1 else 0) := by
    split
    · exact h1
    · exact Reach.zero p
  refine le_bind (le_peekTok h h2) ?_
  intro c1 hc1
  have e1 := peekTok_ok hc1
  have hl := le_digitLoop h (cond := numChar) (body := fput) f f' _ c1
    (if decide (c = 45) = true then [45] else []) hf h2 (fun _ => h2.succ e1)
  refine le_bind hl.1 ?_
  rintro ⟨n2, c2, b2⟩ hr
  obtain ⟨r2, _, d2⟩ := hl.2 _ _ _ hr
  simp only []
  split
  · exact Le.refl _
  rename_i hdot
  have hdot : c2 = 46 := by simpa using hdot
  have e2 : p n2 = .ok c2 := by
    rcases d2 e1 with e | e
    · exact e
    · subst hdot; exact absurd e (by decide)
  refine le_bind (Le.refl _) ?_
  intro b3 _
  have r3 := r2.succ e2
  refine le_bind (le_peekTok h r3) ?_
  intro c4 hc4
  have e4 := peekTok_ok hc4
  split
  · exact Le.refl _
  have hl := le_digitLoop h (cond := numChar) (body := fput) f f' _ c4 b3 hf r3
    (fun _ => r3.succ e4)
  refine le_bind hl.1 ?_
  rintro ⟨n5, c5, b5⟩ hr
  obtain ⟨r5, _, d5⟩ := hl.2 _ _ _ hr
  simp only []
  have hx := le_exponent h (c := c5) (b := b5) hf r5 (by
    intro hexp
    rcases d5 e4 with e | e
    · exact r5.succ e
    · subst hexp; exact absurd e (by decide))
  refine le_bind hx.1 ?_
  rintro ⟨n6, b6⟩ he
  have r6 := hx.2 _ _ he
  exact le_bind (le_typeSuffix h r6) (fun _ _ => Le.refl _)

theorem le_isHex {p q : Nat → Peek} (h : Ext p q) {n : Nat} (hn : Reach p n) :
    Le (isHex p n) (isHex q n) ∧ (isHex p n = .ok true → Reach p (n + 2)) := by
  unfold isHex
  constructor
  · rcases h n hn with e | e
    · rw [e]; exact Or.inl rfl
    · rw [← e]
      cases e' : p n with
      | ok c =>
        simp only []
        split
        · rcases h (n + 1) (hn.succ e') with e2 | e2
          · rw [e2]; exact Or.inl rfl
          · rw [← e2]; exact Le.refl _
        · exact Le.refl _
      | more => exact Or.inl rfl
      | done => exact Le.refl _
  · intro hhex
    cases e' : p n with
    | ok c =>
      simp only [e'] at hhex
      split at hhex
      · cases e2 : p (n + 1) with
        | ok c2 => exact (hn.succ e').succ e2
        | _ => rw [e2] at hhex; cases hhex
      · cases hhex
    | _ => rw [e'] at hhex; cases hhex

theorem le_hexDigits {p q : Nat → Peek} (h : Ext p q) {f f' n : Nat} (hf : f ≤ f')
    (hn : Reach p n) : Le (hexDigits p f n) (hexDigits q f' n) ∧
    ∀ n' v, hexDigits p f n = .ok (n', v) → Reach p n' := by
  constructor
  · refine le_bind (le_peekTok h hn) ?_
    intro c hc
    exact le_bind (le_digitLoop h f f' _ c _ hf hn (fun _ => hn.succ (peekTok_ok hc))).1
      (fun _ _ => Le.refl _)
  · intro n' v he
    obtain ⟨c, hc, he⟩ := bind_ok he
    obtain ⟨⟨n2, c2, b2⟩, hd, he⟩ := bind_ok he
    cases he
    exact ((le_digitLoop h f f' _ c _ hf hn (fun _ => hn.succ (peekTok_ok hc))).2 _ _ _ hd).1

theorem le_decDigits {p q : Nat → Peek} (h : Ext p q) {f f' n : Nat} {c0 : Byte} (hf : f ≤ f')
    (hn : Reach p n) (hc0 : p n = .done → numChar c0 = false) :
    Le (decDigits p f n c0) (decDigits q f' n c0) ∧
    ∀ n' v, decDigits p f n c0 = .ok (n', v) → Reach p n' := by
  have hk : ∀ c, peekKeep p n c0 = .ok c → numChar c = true → Reach p (n + 1) := by
    intro c hc hd
    unfold peekKeep at hc
    cases e : p n with
    | ok c1 => exact hn.succ e
    | more => rw [e] at hc; cases hc
    | done => rw [e] at hc; cases hc; rw [hc0 e] at hd; cases hd
  constructor
  · refine le_bind ?_ ?_
    · unfold peekKeep
      rcases h n hn with e | e
      · rw [e]; exact Or.inl rfl
      · rw [← e]; exact Le.refl _
    · intro c hc
      exact le_bind (le_digitLoop h f f' _ c _ hf hn (hk c hc)).1 (fun _ _ => Le.refl _)
  · intro n' v he
    obtain ⟨c, hc, he⟩ := bind_ok he
    obtain ⟨⟨n2, c2, b2⟩, hd, he⟩ := bind_ok he
    cases he
    exact ((le_digitLoop h f f' _ c _ hf hn (hk c hc)).2 _ _ _ hd).1

theorem le_tokInteger {p q : Nat → Peek} (h : Ext p q) {f f' : Nat} (hf : f ≤ f') :
    Le (tokInteger p f) (tokInteger q f') := by
  refine le_bind (le_peekTok h (Reach.zero p)) ?_
  intro c0 hc0
  have h1 := (Reach.zero p).succ (peekTok_ok hc0)
  simp only []
  have h2 : Reach p (if decide (c0 = 45) = true then 1 else 0) := by
    split
    · exact h1
    · exact Reach.zero p
  have hstale : p (if decide (c0 = 45) = true then 1 else 0) = .done → numChar c0 = false := by
    intro e
    by_cases hc : c0 = 45
    · subst hc; decide
    · simp only [hc, decide_false, Bool.false_eq_true, if_false] at e
      rw [peekTok_ok hc0] at e; cases e
  refine le_bind (le_isHex h h2).1 ?_
  intro hex hhex
  have hx : hex = true → Reach p ((if decide (c0 = 45) = true then 1 else 0) + 2) := by
    rintro rfl; exact (le_isHex h h2).2 hhex
  cases hex with
  | true =>
    have hl := le_hexDigits h hf (hx rfl)
    refine le_bind hl.1 ?_
    rintro ⟨n3, acc⟩ he
    simp only []
    split
    · exact Le.refl _
    · exact le_bind (le_typeSuffix h (hl.2 _ _ he)) (fun _ _ => Le.refl _)
  | false =>
    have hl := le_decDigits h (c0 := c0) hf h2 hstale
    refine le_bind hl.1 ?_
    rintro ⟨n3, acc⟩ he
    simp only []
    split
    · exact Le.refl _
    · exact le_bind (le_typeSuffix h (hl.2 _ _ he)) (fun _ _ => Le.refl _)

end Verif.Tok
