import Verif.Tok.LitSpec
import Verif.Tok.Closed
import Verif.Val.Props

/-!
# C17: integer literals denote their value
-/

namespace Verif.Tok

/-- The characters `cs` from position `n` on. -/
def At (p : Nat → Peek) (n : Nat) (cs : List Byte) : Prop :=
  ∀ i c, cs[i]? = some c → p (n + i) = .ok c

theorem At.append {p : Nat → Peek} {n : Nat} {a b : List Byte} (h : At p n (a ++ b)) :
    At p n a ∧ At p (n + a.length) b := by
  constructor
  · intro i c hi
    refine h i c ?_
    have : i < a.length := by
      rcases List.getElem?_eq_some_iff.1 hi with ⟨h, _⟩; exact h
    rw [List.getElem?_append_left this]; exact hi
  · intro i c hi
    have := h (a.length + i) c (by rw [List.getElem?_append_right (by omega)]; simpa using hi)
    rw [← Nat.add_assoc] at this
    exact this

theorem At.cons {p : Nat → Peek} {n : Nat} {c : Byte} {cs : List Byte} (h : At p n (c :: cs)) :
    p n = .ok c ∧ At p (n + 1) cs := by
  refine ⟨h 0 c rfl, fun i d hi => ?_⟩
  have := h (i + 1) d (by simpa using hi)
  rwa [show n + (i + 1) = n + 1 + i by omega] at this

/-- A delimiter or the end of the input at position `n`. -/
def Ends (p : Nat → Peek) (n : Nat) : Prop := p n = .done ∨ ∃ c, p n = .ok c ∧ Delimiter c

theorem delimiter_facts : ∀ c : Byte, Delimiter c → numChar c = false ∧ hexChar c = false ∧
    symChar c = false ∧ ¬ c = 46#8 ∧ ¬ c = 120#8 ∧ ¬ c = 88#8 ∧ ¬ c = 102#8 ∧ ¬ c = 105#8 ∧
    ¬ c = 117#8 ∧ ¬ c = 98#8 ∧ ¬ c = 54#8 ∧ ¬ c = 51#8 ∧ ¬ c = 101#8 := by decide +kernel

theorem dec_digit : ∀ c : Byte, (digitValue 10 c).isSome → numChar c = true ∧
    (digitValue 10 c).getD 0 = c.toNat - 48 ∧ 48 ≤ c.toNat ∧ c.toNat ≤ 57 := by decide +kernel

theorem hex_digit : ∀ c : Byte, (digitValue 16 c).isSome → hexChar c = true ∧
    (digitValue 16 c).getD 0 = hexVal c := by decide +kernel

theorem dec_hex : ∀ c : Byte, (digitValue 10 c).isSome → (digitValue 16 c).isSome := by decide +kernel

/-- A loop over characters that all meet its condition. -/
theorem digitLoop_list {σ : Type} {p : Nat → Peek} {cond : Byte → Bool}
    {body : σ → Nat → Byte → R σ} (step : σ → Byte → σ) :
    ∀ (ds : List Byte) (d : Byte) (f n : Nat) (s : σ), At p n (d :: ds) →
    (∀ c ∈ d :: ds, cond c = true) →
    (∀ s i c, i < n + (d :: ds).length → body s i c = .ok (step s c)) →
    (∀ e, p (n + (d :: ds).length) = .ok e → cond e = false) →
    p (n + (d :: ds).length) ≠ .more → (d :: ds).length < f →
    ∃ e, digitLoop p cond body f n d s = .ok (n + (d :: ds).length, e, (d :: ds).foldl step s) ∧
      (p (n + (d :: ds).length) = .ok e ∨
        p (n + (d :: ds).length) = .done ∧ e = (d :: ds).getLast (by simp)) := by
  intro ds
  induction ds with
  | nil =>
    intro d f n s hat hc hb he hm hf
    obtain ⟨f, rfl⟩ : ∃ g, f = g + 2 := ⟨f - 2, by simp only [List.length_cons, List.length_nil] at hf; omega⟩
    have hd : cond d = true := hc d (by simp)
    simp only [List.length_cons, List.length_nil, Nat.zero_add] at he hm hb ⊢
    simp only [digitLoop, hd, if_true]
    rw [hb s n d (by omega)]
    simp only [Bind.bind, R.bind]
    cases e : p (n + 1) with
    | more => exact absurd e hm
    | done => exact ⟨d, rfl, Or.inr ⟨rfl, rfl⟩⟩
    | ok c1 =>
      simp only [he c1 e, Bool.false_eq_true, if_false]
      exact ⟨c1, rfl, Or.inl rfl⟩
  | cons d' ds ih =>
    intro d f n s hat hc hb he hm hf
    obtain ⟨f, rfl⟩ : ∃ g, f = g + 1 := ⟨f - 1, by simp only [List.length_cons] at hf; omega⟩
    have hd : cond d = true := hc d (by simp)
    have hat' := hat.cons.2
    have hlen : n + (d :: d' :: ds).length = n + 1 + (d' :: ds).length := by
      simp only [List.length_cons]; omega
    rw [hlen] at he hm hb ⊢
    have h1 : digitLoop p cond body (f + 1) n d s = digitLoop p cond body f (n + 1) d' (step s d) := by
      simp only [digitLoop, hd, if_true]
      rw [hb s n d (by omega)]
      simp only [Bind.bind, R.bind, hat'.cons.1]
    rw [h1]
    exact ih d' f (n + 1) (step s d) hat' (fun c h => hc c (by simp [h])) hb he hm
      (by simp only [List.length_cons] at hf ⊢; omega)

/-- `digitLoop` that does not start. -/
theorem digitLoop_no {σ : Type} {p : Nat → Peek} {cond : Byte → Bool}
    {body : σ → Nat → Byte → R σ} {f n : Nat} {c : Byte} {s : σ} (hc : cond c = false) :
    digitLoop p cond body (f + 1) n c s = .ok (n, c, s) := by
  simp only [digitLoop, hc, Bool.false_eq_true, if_false]; rfl

theorem R_bind_ok {α β : Type} (a : α) (f : α → R β) : (R.ok a >>= f) = f a := rfl

theorem typeSuffix_text {p : Nat → Peek} {n : Nat} (sf : Suffix) (hat : At p n sf.text)
    (he : Ends p (n + sf.text.length)) :
    typeSuffix p n 101 = .ok (sf.text.length, sf.type) := by
  have key : (∀ k, p (n + sf.text.length) = .ok k → Delimiter k) := by
    intro k hk
    rcases he with h | ⟨c, h, hc⟩ <;> rw [h] at hk <;> cases hk
    exact hc
  cases sf with
  | none =>
    simp only [Suffix.text, List.length_nil, Nat.add_zero] at he ⊢
    rcases he with h | ⟨c, h, hc⟩
    · simp [typeSuffix, typeQualTable, matchFixed, matchStr, h, R_bind_ok, Suffix.type]
    · have := delimiter_facts c hc
      simp [typeSuffix, typeQualTable, matchFixed, matchStr, h, R_bind_ok, this, Suffix.type]
  | byte =>
    have h0 := hat 0 98 rfl
    simp [typeSuffix, typeQualTable, matchFixed, matchStr, R_bind_ok, Suffix.type, Suffix.text, ascii] at h0 ⊢
    rw [h0]; rfl
  | i =>
    have h0 := hat 0 105 rfl
    rcases he with h | ⟨c, h, hc⟩
    · simp [typeSuffix, typeQualTable, matchFixed, matchStr, R_bind_ok, Suffix.type, Suffix.text, ascii] at h0 h ⊢
      simp [h0, h, R_bind_ok]; rfl
    · have := delimiter_facts c hc
      simp [typeSuffix, typeQualTable, matchFixed, matchStr, R_bind_ok, Suffix.type, Suffix.text, ascii] at h0 h ⊢
      simp [h0, h, R_bind_ok, this]; rfl
  | u =>
    have h0 := hat 0 117 rfl
    rcases he with h | ⟨c, h, hc⟩
    · simp [typeSuffix, typeQualTable, matchFixed, matchStr, R_bind_ok, Suffix.type, Suffix.text, ascii] at h0 h ⊢
      simp [h0, h, R_bind_ok]; rfl
    · have := delimiter_facts c hc
      simp [typeSuffix, typeQualTable, matchFixed, matchStr, R_bind_ok, Suffix.type, Suffix.text, ascii] at h0 h ⊢
      simp [h0, h, R_bind_ok, this]; rfl
  | i32 =>
    have h0 := hat 0 105 rfl; have h1 := hat 1 51 rfl; have h2 := hat 2 50 rfl
    simp [typeSuffix, typeQualTable, matchFixed, matchStr, R_bind_ok, Suffix.type, Suffix.text, ascii] at h0 h1 h2 ⊢
    simp [h0, h1, h2, R_bind_ok]; rfl
  | u32 =>
    have h0 := hat 0 117 rfl; have h1 := hat 1 51 rfl; have h2 := hat 2 50 rfl
    simp [typeSuffix, typeQualTable, matchFixed, matchStr, R_bind_ok, Suffix.type, Suffix.text, ascii] at h0 h1 h2 ⊢
    simp [h0, h1, h2, R_bind_ok]; rfl
  | i64 =>
    have h0 := hat 0 105 rfl; have h1 := hat 1 54 rfl; have h2 := hat 2 52 rfl
    simp [typeSuffix, typeQualTable, matchFixed, matchStr, R_bind_ok, Suffix.type, Suffix.text, ascii] at h0 h1 h2 ⊢
    simp [h0, h1, h2, R_bind_ok]; rfl
  | u64 =>
    have h0 := hat 0 117 rfl; have h1 := hat 1 54 rfl; have h2 := hat 2 52 rfl
    simp [typeSuffix, typeQualTable, matchFixed, matchStr, R_bind_ok, Suffix.type, Suffix.text, ascii] at h0 h1 h2 ⊢
    simp [h0, h1, h2, R_bind_ok]; rfl


theorem fput_ok {b : List Byte} {n : Nat} {c : Byte} (h : n < 128) : fput b n c = .ok (b ++ [c]) := by
  simp [fput, h]

theorem tokSyntax_no {p : Nat → Peek} {c : Byte} (h : p 0 = .ok c)
    (hc : c ∉ ([40, 41, 91, 93, 46, 95, 39, 96, 44, 63, 123, 125, 64] : List Byte)) :
    positive (tokSyntax p) = .none := by
  simp at hc
  simp [tokSyntax, fixedSizeTokens, matchFixed, matchStr, h, hc, R_bind_ok]
  rfl

theorem tokString_no {p : Nat → Peek} {c : Byte} {f : Nat} (h : p 0 = .ok c) (hc : c ≠ 34) :
    tokString p f = .none := by
  simp at hc
  simp [tokString, peekTok, h, R_bind_ok, hc]

/-- The accumulator of `tok_integer` holds the positional value modulo `2^64`. -/
theorem foldl_positional (base : Nat) (g : Byte → Nat) (ds : List Byte)
    (hg : ∀ c ∈ ds, (digitValue base c).getD 0 = g c) : ∀ a : Nat,
    ds.foldl (fun (acc : BitVec 64) c => acc * BitVec.ofNat 64 base + BitVec.ofNat 64 (g c))
        (BitVec.ofNat 64 a) =
      BitVec.ofNat 64 (ds.foldl (fun a c => a * base + (digitValue base c).getD 0) a) := by
  induction ds with
  | nil => intro a; rfl
  | cons d ds ih =>
    intro a
    simp only [List.foldl_cons]
    rw [← BitVec.ofNat_mul, ← BitVec.ofNat_add, ih (fun c hc => hg c (by simp [hc])), hg d (by simp)]

/-- After a number comes nothing that a digit loop would take. -/
theorem ends_not_more {p : Nat → Peek} {n : Nat} (h : Ends p n) : p n ≠ .more := by
  rcases h with h | ⟨c, h, _⟩ <;> rw [h] <;> intro h <;> cases h

/-- The character after the digits: the suffix or a delimiter. -/
theorem after_digits {p : Nat → Peek} {n : Nat} (sf : Suffix) (hat : At p n sf.text)
    (he : Ends p (n + sf.text.length)) : p n ≠ .more ∧ ∀ e, p n = .ok e →
      numChar e = false ∧ e ≠ 46 ∧ e ≠ 120 ∧ e ≠ 88 ∧ (sf ≠ .byte → hexChar e = false) := by
  cases sf with
  | none =>
    refine ⟨ends_not_more he, fun e h => ?_⟩
    rcases he with h' | ⟨c, h', hc⟩ <;> rw [show n + Suffix.none.text.length = n from rfl, h] at h' <;> cases h'
    have := delimiter_facts e hc
    exact ⟨this.1, this.2.2.2.1, this.2.2.2.2.1, this.2.2.2.2.2.1, fun _ => this.2.1⟩
  | byte =>
    have h0 : p n = .ok 98 := hat 0 98 rfl
    rw [h0]
    exact ⟨(fun h => by cases h), fun e h => by cases h; decide⟩
  | i | i32 | i64 =>
    have h0 : p n = .ok 105 := hat 0 105 rfl
    rw [h0]
    exact ⟨(fun h => by cases h), fun e h => by cases h; decide⟩
  | u | u32 | u64 =>
    have h0 : p n = .ok 117 := hat 0 117 rfl
    rw [h0]
    exact ⟨(fun h => by cases h), fun e h => by cases h; decide⟩


theorem numChar_ne : ∀ c : Byte, numChar c = true → c ≠ 46 ∧ c ≠ 45 ∧ c ≠ 34 ∧
    c ∉ ([40, 41, 91, 93, 46, 95, 39, 96, 44, 63, 123, 125, 64] : List Byte) := by decide +kernel

theorem numChar_ne' : ∀ c : Byte, numChar c = true → ¬ c = 120#8 ∧ ¬ c = 88#8 := by decide +kernel

theorem or_false_of {c : Byte} (h1 : ¬ c = 120) (h2 : ¬ c = 88) : (c == 120 || c == 88) = false := by
  rw [beq_eq_false_iff_ne.2 h1, beq_eq_false_iff_ne.2 h2]; rfl

/-- A number without a decimal point is no float. -/
theorem tokDouble_no {p : Nat → Peek} {c0 d : Byte} {ds : List Byte} {f : Nat} {neg : Bool}
    (h0 : p 0 = .ok c0) (hneg : decide (c0 = 45) = neg)
    (hat : At p (if neg then 1 else 0) (d :: ds)) (hc : ∀ c ∈ d :: ds, numChar c = true)
    (hlen : (if neg then 1 else 0) + (d :: ds).length ≤ 128)
    (hm : p ((if neg then 1 else 0) + (d :: ds).length) ≠ .more)
    (he : ∀ e, p ((if neg then 1 else 0) + (d :: ds).length) = .ok e → numChar e = false ∧ e ≠ 46)
    (hf : (d :: ds).length < f) : tokDouble p f = .none := by
  obtain ⟨e, h1, h2⟩ := digitLoop_list (body := fput) (fun b c => b ++ [c]) ds d f
    (if neg then 1 else 0) (if neg then [45] else []) hat hc (fun s i c hi => fput_ok (by omega))
    (fun e h => (he e h).1) hm hf
  have hne : e ≠ 46 := by
    rcases h2 with h | ⟨_, h⟩
    · exact (he e h).2
    · exact (numChar_ne e (hc e (h ▸ List.getLast_mem _))).1
  unfold tokDouble
  simp only [peekTok, h0, R_bind_ok, hneg, hat.cons.1, h1]
  rw [if_pos hne]

theorem tokInteger_dec {p : Nat → Peek} {c0 d : Byte} {ds : List Byte} {f : Nat} {neg : Bool}
    {sf : Suffix} (h0 : p 0 = .ok c0) (hneg : decide (c0 = 45) = neg)
    (hat : At p (if neg then 1 else 0) (d :: ds ++ sf.text))
    (hc : ∀ c ∈ d :: ds, (digitValue 10 c).isSome)
    (he : Ends p ((if neg then 1 else 0) + (d :: ds ++ sf.text).length))
    (hf : (d :: ds).length < f) :
    tokInteger p f = .ok ((if neg then 1 else 0) + (d :: ds ++ sf.text).length, sf.type, neg,
      BitVec.ofNat 64 (positional 10 (d :: ds))) := by
  obtain ⟨hat1, hat2⟩ := hat.append
  rw [List.length_append, ← Nat.add_assoc] at he
  obtain ⟨hm, hnx⟩ := after_digits sf hat2 he
  obtain ⟨e, h1, _⟩ := digitLoop_list
    (body := fun (acc : BitVec 64) _ c => R.ok (acc * 10 + BitVec.ofNat 64 (c.toNat - 48)))
    (fun acc c => acc * 10 + BitVec.ofNat 64 (c.toNat - 48)) ds d f
    (if neg then 1 else 0) 0 hat1 (fun c h => (dec_digit c (hc c h)).1) (fun _ _ _ _ => rfl)
    (fun e h => (hnx e h).1) hm hf
  have hv := foldl_positional 10 (fun c => c.toNat - 48) (d :: ds)
    (fun c h => (dec_digit c (hc c h)).2.1) 0
  have hhex : isHex p (if neg then 1 else 0) = .ok false := by
    unfold isHex
    rw [hat1.cons.1]
    simp only []
    split
    · have hno : ∀ c, p ((if neg then 1 else 0) + 1) = .ok c → (c == 120 || c == 88) = false := by
        intro c h
        cases ds with
        | nil => have := hnx c h; exact or_false_of this.2.2.1 this.2.2.2.1
        | cons d' ds =>
          rw [hat1.cons.2.cons.1] at h
          cases h
          have := numChar_ne' c (dec_digit c (hc c (by simp))).1
          exact or_false_of this.1 this.2
      cases hp : p ((if neg then 1 else 0) + 1) with
      | ok c => rw [hp] at hno; simp only []; rw [hno c rfl]
      | done => rfl
      | more =>
        cases ds with
        | nil => exact absurd hp hm
        | cons d' ds => rw [hat1.cons.2.cons.1] at hp; cases hp
    · rfl
  have hts := typeSuffix_text sf hat2 he
  have hdig : digits p f false (if neg then 1 else 0) c0 =
      .ok ((if neg then 1 else 0) + (d :: ds).length, BitVec.ofNat 64 (positional 10 (d :: ds))) := by
    unfold digits decDigits
    simp only [Bool.false_eq_true, if_false, peekKeep, hat1.cons.1, R_bind_ok, h1]
    exact congrArg (fun v => R.ok (_, v)) hv
  unfold tokInteger
  simp only [peekTok, h0, R_bind_ok, hneg, hhex, hdig]
  rw [if_neg (by simp only [List.length_cons]; omega)]
  rw [hts]
  simp only [R_bind_ok]
  rw [if_pos (by cases neg <;> simp)]
  simp only [List.length_append, Nat.add_assoc]

theorem tokInteger_hex {p : Nat → Peek} {c0 d x : Byte} {ds : List Byte} {f : Nat} {neg : Bool}
    {sf : Suffix} (h0 : p 0 = .ok c0) (hneg : decide (c0 = 45) = neg) (hx : x = 120 ∨ x = 88)
    (hsf : sf ≠ .byte)
    (hat : At p (if neg then 1 else 0) (48 :: x :: (d :: ds ++ sf.text)))
    (hc : ∀ c ∈ d :: ds, (digitValue 16 c).isSome)
    (he : Ends p ((if neg then 1 else 0) + (48 :: x :: (d :: ds ++ sf.text)).length))
    (hf : (d :: ds).length < f) :
    tokInteger p f = .ok ((if neg then 1 else 0) + (48 :: x :: (d :: ds ++ sf.text)).length, sf.type,
      neg, BitVec.ofNat 64 (positional 16 (d :: ds))) := by
  have hp0 := hat.cons.1
  have hp1 := hat.cons.2.cons.1
  obtain ⟨hat1, hat2⟩ := hat.cons.2.cons.2.append
  rw [show (if neg then 1 else 0) + (48 :: x :: (d :: ds ++ sf.text)).length =
    (if neg then 1 else 0) + 1 + 1 + (d :: ds).length + sf.text.length by
      simp only [List.length_append, List.length_cons]; omega] at he
  obtain ⟨hm, hnx⟩ := after_digits sf hat2 he
  obtain ⟨e, h1, _⟩ := digitLoop_list
    (body := fun (acc : BitVec 64) _ c => R.ok (acc * 16 + BitVec.ofNat 64 (hexVal c)))
    (fun acc c => acc * 16 + BitVec.ofNat 64 (hexVal c)) ds d f
    ((if neg then 1 else 0) + 1 + 1) 0 hat1 (fun c h => (hex_digit c (hc c h)).1) (fun _ _ _ _ => rfl)
    (fun e h => (hnx e h).2.2.2.2 hsf) hm hf
  have hv := foldl_positional 16 hexVal (d :: ds) (fun c h => (hex_digit c (hc c h)).2) 0
  have hhex : isHex p (if neg then 1 else 0) = .ok true := by
    unfold isHex
    simp only [hp0, hp1, if_true]
    rcases hx with rfl | rfl <;> rfl
  have hts := typeSuffix_text sf hat2 he
  have hdig : digits p f true (if neg then 1 else 0) c0 =
      .ok ((if neg then 1 else 0) + 1 + 1 + (d :: ds).length,
        BitVec.ofNat 64 (positional 16 (d :: ds))) := by
    unfold digits hexDigits
    rw [if_pos rfl, show (if neg then 1 else 0) + 2 = (if neg then 1 else 0) + 1 + 1 from rfl]
    simp only [peekTok, hat1.cons.1, R_bind_ok, h1]
    exact congrArg (fun v => R.ok (_, v)) hv
  unfold tokInteger
  simp only [peekTok, h0, R_bind_ok, hneg, hhex, hdig]
  rw [if_neg (by omega)]
  rw [hts]
  simp only [R_bind_ok]
  rw [if_pos (by cases neg <;> simp; omega)]
  simp only [List.length_append, List.length_cons]
  refine congrArg R.ok (Prod.ext ?_ rfl)
  simp only []
  omega


theorem numChar_space : ∀ c : Byte, numChar c = true → c ≠ 59 ∧ isSpace c = false := by decide +kernel

theorem neg_first {l : IntLit} {p : Nat → Peek} (hl : l.Ok) (hat : At p 0 l.text) :
    ∃ c0, p 0 = .ok c0 ∧ decide (c0 = 45) = l.neg ∧ c0 ≠ 34 ∧
      c0 ∉ ([40, 41, 91, 93, 46, 95, 39, 96, 44, 63, 123, 125, 64] : List Byte) := by
  obtain ⟨neg, hex, ds, sf⟩ := l
  cases neg with
  | true =>
    refine ⟨45, hat 0 45 ?_, rfl, by decide, by decide⟩
    rfl
  | false =>
    cases hex with
    | some x =>
      refine ⟨48, hat 0 48 ?_, rfl, by decide, by decide⟩
      cases x <;> rfl
    | none =>
      cases ds with
      | nil => exact absurd rfl hl.1
      | cons d ds =>
        have hd := dec_digit d (hl.2.1 d (by simp))
        have := numChar_ne d hd.1
        exact ⟨d, hat 0 d rfl, decide_eq_false this.2.1, this.2.2.1, this.2.2.2⟩

/-- The dispatch takes an integer literal for what it is. -/
theorem dispatch_int {l : IntLit} {p : Nat → Peek} {f : Nat} (hl : l.Ok) (hat : At p 0 l.text)
    (he : Ends p l.text.length) (hf : l.text.length < f)
    (hlen : l.hex = none → l.text.length ≤ 128 + l.suffix.text.length) :
    dispatch p f = (.token (.int l.suffix.type l.neg (BitVec.ofNat 64 (positional l.base l.digits))),
      l.text.length) := by
  obtain ⟨c0, h0, hneg, hq, hs⟩ := neg_first hl hat
  have hsyn := tokSyntax_no h0 hs
  have hstr : tokString p f = .none := tokString_no h0 hq
  obtain ⟨neg, hex, ds, sf⟩ := l
  cases ds with
  | nil => exact absurd rfl hl.1
  | cons d ds =>
  have htype : ∀ v, intOut sf.type neg v = .token (.int sf.type neg v) := by
    intro v; cases sf <;> rfl
  have hoff : ∀ t, At p 0 ((if neg then ascii "-" else []) ++ t) → At p (if neg then 1 else 0) t := by
    intro t h
    cases neg with
    | true => have := h.append.2; simpa [ascii] using this
    | false => simpa using h
  have hsign : ∀ t : List Byte, ((if neg then ascii "-" else []) ++ t).length =
      (if neg then 1 else 0) + t.length := by
    intro t; cases neg <;> simp [ascii]; omega
  cases hex with
  | none =>
    have htext : IntLit.text ⟨neg, none, d :: ds, sf⟩ =
        (if neg then ascii "-" else []) ++ (d :: ds ++ sf.text) := by
      simp [IntLit.text]
    rw [htext] at hat he hlen hf ⊢
    have hat' := hoff _ hat
    rw [hsign] at he hlen hf ⊢
    have hint := tokInteger_dec (f := f) h0 hneg hat' hl.2.1 he (by
      simp only [List.length_append] at hf; omega)
    have he' := he
    rw [List.length_append, ← Nat.add_assoc] at he'
    obtain ⟨hm, hnx⟩ := after_digits sf hat'.append.2 he'
    have hdbl : tokDouble p f = .none := tokDouble_no (neg := neg) h0 hneg hat'.append.1
      (fun c h => (dec_digit c (hl.2.1 c h)).1)
      (by
        have h2 : (if neg then 1 else 0) + (d :: ds ++ sf.text).length ≤ 128 + sf.text.length := hlen rfl
        simp only [List.length_append] at h2; omega) hm
      (fun e h => ⟨(hnx e h).1, (hnx e h).2.1⟩)
      (by simp only [List.length_append] at hf; omega)
    unfold dispatch
    rw [hsyn, hstr, hdbl, hint]
    simp only [orElse, htype]
    rfl
  | some x =>
    obtain ⟨xc, hxc, hx⟩ : ∃ xc : Byte, (xc = 120 ∨ xc = 88) ∧
        IntLit.text ⟨neg, some x, d :: ds, sf⟩ =
          (if neg then ascii "-" else []) ++ (48 :: xc :: (d :: ds ++ sf.text)) := by
      cases x with
      | true => exact ⟨88, Or.inr rfl, by simp [IntLit.text]; rfl⟩
      | false => exact ⟨120, Or.inl rfl, by simp [IntLit.text]; rfl⟩
    rw [hx] at hat he hlen hf ⊢
    have hat' := hoff _ hat
    rw [hsign] at he hlen hf ⊢
    have hint := tokInteger_hex (f := f) h0 hneg hxc (hl.2.2 rfl) hat' hl.2.1 he (by
      simp only [List.length_append, List.length_cons] at hf ⊢; omega)
    have hdbl : tokDouble p f = .none := by
      refine tokDouble_no (d := 48) (ds := []) h0 hneg ?_ (by decide) ?_ ?_ ?_ ?_
      · intro i c hi
        refine hat' i c ?_
        rcases i with _ | i
        · exact hi
        · simp at hi
      · cases neg <;> simp
      · show p (_ + 1) ≠ _
        rw [hat'.cons.2.cons.1]; intro h; cases h
      · show ∀ e, p (_ + 1) = _ → _
        rw [hat'.cons.2.cons.1]
        intro e h; cases h
        rcases hxc with rfl | rfl <;> decide
      · simp only [List.length_cons, List.length_nil] at hf ⊢; omega
    unfold dispatch
    rw [hsyn, hstr, hdbl, hint]
    simp only [orElse, htype]
    rfl

theorem stream_at {s : Stream} {a rest : List Byte} (h : s.avail = a ++ rest) : At s.peek 0 a := by
  intro i c hi
  have hlt : i < a.length := by
    rcases List.getElem?_eq_some_iff.1 hi with ⟨h, _⟩; exact h
  simp only [Stream.peek, h, Nat.zero_add, List.getElem?_append_left hlt, hi]

/-- The text of a token is followed by a delimiter or by the end of the input. -/
def FollowedBy (rest : List Byte) (ended : Bool) : Prop :=
  match rest with
  | [] => ended = true
  | c :: _ => Delimiter c

instance (rest : List Byte) (e : Bool) : Decidable (FollowedBy rest e) := by
  unfold FollowedBy; split <;> infer_instance

theorem stream_ends {s : Stream} {a rest : List Byte} (h : s.avail = a ++ rest)
    (hf : FollowedBy rest s.ended) : Ends s.peek a.length := by
  cases rest with
  | nil =>
    left
    rw [List.append_nil] at h
    simp only [Stream.peek, h, List.getElem?_eq_none (Nat.le_refl _)]
    exact if_pos hf
  | cons c r =>
    right
    exact ⟨c, by simp only [Stream.peek, h, List.getElem?_append_right (Nat.le_refl _), Nat.sub_self, List.getElem?_cons_zero], hf⟩

/-- A text that starts a token: neither white space nor the start of a comment. -/
theorem nextToken_at {c : Byte} {a rest : List Byte} {ended : Bool} {o : Out} {n : Nat}
    (hc : c ≠ 59 ∧ isSpace c = false)
    (hd : dispatch (Stream.peek ⟨c :: a ++ rest, ended, false⟩) ((c :: a ++ rest).length + 2) = (o, n)) :
    nextToken ⟨c :: a ++ rest, ended, false⟩ = (o, ⟨(c :: a ++ rest).drop n, ended, false⟩) := by
  have h1 : cleanWhitespace ⟨c :: a ++ rest, ended, false⟩ = (true, ⟨c :: a ++ rest, ended, false⟩) := by
    simp only [cleanWhitespace, List.cons_append, cleanLoop]
    rw [if_neg hc.1, hc.2]
    rfl
  unfold nextToken
  rw [h1]
  simp only [List.cons_append, List.isEmpty_cons, Bool.and_false, Bool.false_eq_true, if_false]
  rw [← List.cons_append, hd]

/-- Reading an integer literal yields its value modulo `2^64` with the type of the
suffix, and uses up exactly the literal.  A decimal literal may have up to 128
characters before the suffix (see `C53_overflow` for longer ones). -/
theorem C17_integer_literal (l : IntLit) (hl : l.Ok) (rest : List Byte) (ended : Bool)
    (hr : FollowedBy rest ended)
    (hlen : l.hex = none → l.text.length ≤ 128 + l.suffix.text.length) :
    nextToken ⟨l.text ++ rest, ended, false⟩ =
      (.token (.int l.suffix.type l.neg (BitVec.ofNat 64 (positional l.base l.digits))),
        ⟨rest, ended, false⟩) := by
  have hat := stream_at (s := ⟨l.text ++ rest, ended, false⟩) rfl
  have hd := dispatch_int hl hat (stream_ends (s := ⟨l.text ++ rest, ended, false⟩) rfl hr)
    (f := (l.text ++ rest).length + 2) (by simp only [List.length_append]; omega) hlen
  obtain ⟨c0, h0, _, hq, hs⟩ := neg_first hl hat
  cases ht : l.text with
  | nil =>
    rw [ht] at hd
    have := (dispatch_uses (Stream.peek ⟨[] ++ rest, ended, false⟩) (([] ++ rest).length + 2)).1
    rw [hd] at this
    exact absurd (this _ rfl) (by simp)
  | cons c a =>
    rw [ht] at hd h0
    have hcc : c = c0 := by
      have : (Stream.peek ⟨c :: a ++ rest, ended, false⟩ 0) = .ok c := rfl
      rw [this] at h0; cases h0; rfl
    have hchar : c ≠ 59 ∧ isSpace c = false := by
      obtain ⟨neg, hex, ds, sf⟩ := l
      cases neg with
      | true => cases ht; decide
      | false =>
        cases hex with
        | some x => cases x <;> (cases ht; decide)
        | none =>
          cases ds with
          | nil => exact absurd rfl hl.1
          | cons d ds =>
            cases ht
            exact numChar_space _ (dec_digit _ (hl.2.1 _ (by simp))).1
    rw [nextToken_at hchar hd]
    simp only [List.drop_left]

/-- The reader turns the token into a value of the type's width
(eval_cps.c:3933-3957): `(T)(negative ? -value : value)`. -/
def readerInt (neg : Bool) (value : BitVec 64) (w : Nat) : BitVec w :=
  (if neg then -value else value).setWidth w

/-- The value handed to the encoder of the type is the literal modulo `2^w`. -/
theorem C17_value (l : IntLit) (w : Nat) (hw : w ≤ 64) :
    readerInt l.neg (BitVec.ofNat 64 (positional l.base l.digits)) w = BitVec.ofInt w l.value := by
  unfold readerInt IntLit.value
  cases l.neg with
  | false =>
    simp only [Bool.false_eq_true, if_false]
    rw [BitVec.setWidth_ofNat_of_le hw, BitVec.ofInt_natCast]
  | true =>
    simp only [if_true]
    rw [BitVec.ofInt_neg, BitVec.ofInt_natCast, BitVec.setWidth_neg_of_le hw,
      BitVec.setWidth_ofNat_of_le hw]

/-- A literal of the default type reads as its value modulo the payload of an
unboxed integer (28 or 56 bits), so as exactly its value when it fits. -/
theorem C17_default_type (b : Val.Build) (l : IntLit) :
    (Val.decI b (Val.encI b (readerInt l.neg (BitVec.ofNat 64 (positional l.base l.digits)) b.w))).toInt
      = Int.bmod l.value (2 ^ Val.payload b) := by
  have hw : b.w ≤ 64 := by cases b <;> decide
  have hp : Val.payload b ≤ b.w := by cases b <;> decide
  rw [Val.C11_signed_general, C17_value l b.w hw, BitVec.toInt_ofInt, Int.bmod_bmod_of_dvd]
  exact_mod_cast Nat.pow_dvd_pow 2 hp

/-- `-0x1Fu64)` -/
example : (nextToken ⟨ascii "-0x1Fu64)", false, false⟩) =
    (.token (.int 106 true 31), ⟨ascii ")", false, false⟩) :=
  C17_integer_literal ⟨true, some false, ascii "1F", .u64⟩
    ⟨by decide, by decide, by decide⟩ (ascii ")") false (by decide +kernel) (by decide)

/-- Thirty digits at the end of the input; the value is taken modulo `2^64`. -/
example : nextToken ⟨ascii "340282366920938463463374607431768211457b", true, false⟩ =
    (.token (.int 100 false 1), ⟨[], true, false⟩) :=
  C17_integer_literal ⟨false, none, ascii "340282366920938463463374607431768211457", .byte⟩
    ⟨by decide, by decide, by decide⟩ [] true (by decide +kernel) (by decide)

/-- What the grammar does not cover: `0x` without digits is read as 0. -/
theorem C17_empty_hex_accepted : nextToken ⟨ascii "0x)", true, false⟩ =
    (.token (.int 101 false 0), ⟨ascii ")", true, false⟩) := by decide +kernel

end Verif.Tok
