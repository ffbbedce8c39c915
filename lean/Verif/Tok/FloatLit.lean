import Verif.Tok.StrLit

/-!
# C130: literals of floating point numbers and of characters
-/

namespace Verif.Tok

/-! ## Specification -/

/-- Type suffixes of floating point numbers. -/
inductive FSuffix where
  | none | f32 | f64
  deriving DecidableEq

def FSuffix.text : FSuffix → List Byte
  | .none => []
  | .f32 => ascii "f32"
  | .f64 => ascii "f64"

/-- The numbers of the types (tokpar.h:48-58); no suffix is the same as `f32`. -/
def FSuffix.type : FSuffix → Nat
  | .none => 107
  | .f32 => 107
  | .f64 => 108

/-- A floating point literal: sign, digits, point, digits, exponent with sign, suffix. -/
structure FloatLit where
  neg : Bool
  whole : List Byte
  frac : List Byte
  exp : Option (Bool × List Byte)
  suffix : FSuffix

def sign (neg : Bool) : List Byte := if neg then ascii "-" else []

/-- The text of the exponent. -/
def expText : Option (Bool × List Byte) → List Byte
  | none => []
  | some (neg, ds) => ascii "e" ++ (sign neg ++ ds)

/-- The text of the number itself, as `strtod` understands it. -/
def FloatLit.number (l : FloatLit) : List Byte := sign l.neg ++ (l.whole ++ (ascii "." ++ (l.frac ++ expText l.exp)))

def FloatLit.text (l : FloatLit) : List Byte := l.number ++ l.suffix.text

/-- A sequence of at least one decimal digit. -/
def Digits (ds : List Byte) : Prop := ds ≠ [] ∧ ∀ c ∈ ds, c ∈ ascii "0123456789"

instance (ds : List Byte) : Decidable (Digits ds) := inferInstanceAs (Decidable (_ ∧ _))

def FloatLit.Ok (l : FloatLit) : Prop := Digits l.whole ∧ Digits l.frac ∧ ∀ e, l.exp = some e → Digits e.2

/-- The characters with a name (the comment at tokpar.c:40-52): control-g, backspace, tab, newline, vertical tab, form feed, carriage return, escape, space, backslash, delete. -/
def charNames : List (Char × Nat) :=
  [('a', 0x07), ('b', 0x08), ('t', 0x09), ('n', 0x0A), ('v', 0x0B), ('f', 0x0C), ('r', 0x0D), ('e', 0x1B), ('s', 0x20), ('\\', 0x5C), ('d', 0x7F)]

/-! ## Proofs -/

theorem digit_num : ∀ c : Byte, c ∈ ascii "0123456789" → numChar c = true := by decide +kernel

theorem foldl_snoc (ds b : List Byte) : ds.foldl (fun (b : List Byte) c => b ++ [c]) b = b ++ ds := by
  induction ds generalizing b with
  | nil => simp
  | cons d ds ih => simp [List.foldl_cons, ih]

theorem delimiter_float : ∀ c : Byte, Delimiter c → numChar c = false ∧ ¬ c = 101#8 ∧ ¬ c = 45#8 := by decide +kernel

theorem after_float {p : Nat → Peek} {n : Nat} (sf : FSuffix) (hat : At p n sf.text) (he : Ends p (n + sf.text.length)) :
    p n ≠ .more ∧ ∀ e, p n = .ok e → numChar e = false ∧ e ≠ 101 ∧ e ≠ 45 := by
  cases sf with
  | none =>
    refine ⟨ends_not_more he, fun e h => ?_⟩
    rcases he with h' | ⟨c, h', hc⟩ <;> rw [show n + FSuffix.none.text.length = n from rfl, h] at h' <;> cases h'
    exact delimiter_float e hc
  | f32 | f64 =>
    have h0 : p n = .ok 102 := hat 0 102 rfl
    rw [h0]
    exact ⟨(fun h => by cases h), fun e h => by cases h; decide⟩

theorem typeSuffix_float {p : Nat → Peek} {n : Nat} (sf : FSuffix) (hat : At p n sf.text) (he : Ends p (n + sf.text.length)) :
    typeSuffix p n 107 = .ok (sf.text.length, sf.type) := by
  cases sf with
  | none =>
    simp only [FSuffix.text, List.length_nil, Nat.add_zero] at he ⊢
    rcases he with h | ⟨c, h, hc⟩
    · simp [typeSuffix, typeQualTable, matchFixed, matchStr, h, R_bind_ok, FSuffix.type]
    · have := delimiter_facts c hc
      simp [typeSuffix, typeQualTable, matchFixed, matchStr, h, R_bind_ok, this, FSuffix.type]
  | f32 =>
    have h0 := hat 0 102 rfl; have h1 := hat 1 51 rfl; have h2 := hat 2 50 rfl
    simp [typeSuffix, typeQualTable, matchFixed, matchStr, R_bind_ok, FSuffix.type, FSuffix.text, ascii] at h0 h1 h2 ⊢
    simp [h0, h1, h2, R_bind_ok]; rfl
  | f64 =>
    have h0 := hat 0 102 rfl; have h1 := hat 1 54 rfl; have h2 := hat 2 52 rfl
    simp [typeSuffix, typeQualTable, matchFixed, matchStr, R_bind_ok, FSuffix.type, FSuffix.text, ascii] at h0 h1 h2 ⊢
    simp [h0, h1, h2, R_bind_ok]; rfl

/-- A loop that fills the buffer with the characters of a list. -/
theorem fputLoop {p : Nat → Peek} {cond : Byte → Bool} {ds b : List Byte} {d : Byte} {f n : Nat} (hat : At p n (d :: ds)) (hc : ∀ c ∈ d :: ds, cond c = true)
    (hl : n + (d :: ds).length ≤ 128) (he : ∀ e, p (n + (d :: ds).length) = .ok e → cond e = false) (hm : p (n + (d :: ds).length) ≠ .more) (hf : (d :: ds).length < f) :
    ∃ e, digitLoop p cond fput f n d b = .ok (n + (d :: ds).length, e, b ++ (d :: ds)) ∧
      (p (n + (d :: ds).length) = .ok e ∨ p (n + (d :: ds).length) = .done ∧ e = (d :: ds).getLast (by simp)) := by
  have := digitLoop_list (body := fput) (fun b c => b ++ [c]) ds d f n b hat hc (fun s i c hi => fput_ok (by omega)) he hm hf
  rwa [foldl_snoc] at this

theorem exponent_float {p : Nat → Peek} {n f : Nat} {c : Byte} {b : List Byte} {x : Option (Bool × List Byte)} (hx : ∀ e, x = some e → Digits e.2)
    (hat : At p n (expText x)) (hc : x ≠ none → c = 101) (hc' : x = none → c ≠ 101) (hl : n + (expText x).length ≤ 127) (hf : (expText x).length < f)
    (hm : p (n + (expText x).length) ≠ .more) (he : ∀ e, p (n + (expText x).length) = .ok e → numChar e = false ∧ e ≠ 45) :
    exponent p f n c b = .ok (n + (expText x).length, b ++ expText x) := by
  rcases x with _ | ⟨neg, ds⟩
  · unfold exponent
    rw [if_neg (hc' rfl)]
    simp [expText]
  · obtain ⟨hne, hds⟩ := hx _ rfl
    have hcc := hc (by simp)
    subst hcc
    have ht : expText (some (neg, ds)) = 101 :: (sign neg ++ ds) := rfl
    rw [ht] at hat hl hf hm he ⊢
    obtain ⟨d, ds', hd⟩ : ∃ d ds', sign neg ++ ds = d :: ds' := by
      cases h : sign neg ++ ds with
      | nil => exact absurd (List.append_eq_nil_iff.1 h).2 hne
      | cons d ds' => exact ⟨d, ds', rfl⟩
    have hall : ∀ c ∈ d :: ds', (numChar c || c == 45) = true := by
      rw [← hd]
      intro c hc
      rcases List.mem_append.1 hc with h | h
      · cases neg with
        | true => simp only [sign, if_true] at h; have : c = 45 := by simpa [ascii] using h
                  subst this; rfl
        | false => simp [sign] at h
      · rw [digit_num c (hds c h)]; rfl
    rw [hd] at hat hl hf hm he ⊢
    have e1 : n + (101 :: d :: ds').length = n + 1 + (d :: ds').length := by simp only [List.length_cons]; omega
    rw [e1] at hl hm he
    obtain ⟨e, h1, _⟩ := fputLoop (cond := fun c => numChar c || c == 45) (b := b ++ [101]) (f := f) hat.cons.2 hall (by omega)
      (fun e h => by obtain ⟨h1, h2⟩ := he e h; simp only [h1, Bool.false_or]; exact beq_eq_false_iff_ne.2 h2) hm (by simp only [List.length_cons] at hf ⊢; omega)
    unfold exponent
    rw [if_pos rfl, fput_ok (by omega)]
    simp only [R_bind_ok, peekTok, hat.cons.2.cons.1, hall d (by simp), Bool.not_true, Bool.false_eq_true, if_false, h1]
    simp only [List.append_assoc, List.singleton_append, e1]

theorem sign_len (neg : Bool) : (sign neg).length = if neg then 1 else 0 := by cases neg <;> rfl

theorem tokDouble_float {l : FloatLit} {p : Nat → Peek} {f : Nat} (hl : l.Ok) (hat : At p 0 l.text) (he : Ends p l.text.length) (hlen : l.number.length ≤ 127) (hf : l.text.length < f) :
    tokDouble p f = .ok (l.text.length, l.suffix.type, l.neg, l.number) := by
  obtain ⟨neg, whole, frac, x, sf⟩ := l
  obtain ⟨⟨hw, hwd⟩, ⟨hfr, hfd⟩, hx⟩ := hl
  simp only at hx hw hwd hfr hfd
  obtain ⟨w, ws, rfl⟩ := List.exists_cons_of_ne_nil hw
  obtain ⟨r, rs, rfl⟩ := List.exists_cons_of_ne_nil hfr
  simp only [FloatLit.text, FloatLit.number] at hat he hlen hf ⊢
  obtain ⟨hatn, hatsf⟩ := hat.append
  obtain ⟨hats, hat1⟩ := hatn.append
  obtain ⟨hatw, hat2⟩ := hat1.append
  obtain ⟨hatp, hat3⟩ := hat2.append
  obtain ⟨hatf, hate⟩ := hat3.append
  have hpt : p (0 + (sign neg).length + (w :: ws).length) = .ok 46 := hatp 0 46 rfl
  simp only [List.length_append] at hlen hf hatsf he
  simp only [Nat.zero_add, show (ascii ".").length = 1 from rfl] at hatsf he hat1 hatw hate hatf hpt hlen hf
  rw [sign_len] at hat1 hatw hate hatf hpt hatsf he hlen hf
  have h0 : p (if neg then 1 else 0) = .ok w := hatw.cons.1
  have hc0 : ∃ c0, p 0 = .ok c0 ∧ decide (c0 = 45) = neg := by
    cases neg with
    | true => exact ⟨45, hats 0 45 rfl, rfl⟩
    | false => exact ⟨w, h0, decide_eq_false (numChar_ne w (digit_num w (hwd w (by simp)))).2.1⟩
  obtain ⟨c0, hp0, hneg⟩ := hc0
  generalize hm0 : (if neg then 1 else 0 : Nat) = m0 at *
  have hsx := after_float sf hatsf (by rw [Nat.zero_add] at *; exact he)
  obtain ⟨e1, hd1, hr1⟩ := fputLoop (cond := numChar) (b := sign neg) (f := f) hatw (fun c hc => digit_num c (hwd c hc)) (by omega)
    (fun e h => by rw [hpt] at h; cases h; rfl) (by rw [hpt]; intro h; cases h) (by omega)
  have he1 : e1 = 46 := by
    rcases hr1 with h | ⟨h, _⟩ <;> rw [hpt] at h <;> cases h
    rfl
  subst he1
  -- what follows the fraction
  have hq : m0 + ((w :: ws).length + (1 + ((r :: rs).length + (expText x).length))) = m0 + (w :: ws).length + 1 + (r :: rs).length + (expText x).length := by omega
  rw [hq] at hsx hatsf
  have hnext : p (m0 + (w :: ws).length + 1 + (r :: rs).length) ≠ .more ∧
      ∀ e, p (m0 + (w :: ws).length + 1 + (r :: rs).length) = .ok e → numChar e = false ∧ (x ≠ none → e = 101) ∧ (x = none → e ≠ 101) := by
    rcases x with _ | ⟨xn, xd⟩
    · have := hsx
      simp only [expText, List.length_nil, Nat.add_zero] at this
      exact ⟨this.1, fun e h => ⟨(this.2 e h).1, fun h => absurd rfl h, fun _ => (this.2 e h).2.1⟩⟩
    · have : p (m0 + (w :: ws).length + 1 + (r :: rs).length) = .ok 101 := hate 0 101 rfl
      rw [this]
      exact ⟨(fun h => by cases h), fun e h => by cases h; exact ⟨rfl, fun _ => rfl, fun h => by cases h⟩⟩
  obtain ⟨e2, hd2, hr2⟩ := fputLoop (cond := numChar) (b := sign neg ++ w :: ws ++ [46]) (f := f) hatf (fun c hc => digit_num c (hfd c hc)) (by omega)
    (fun e h => (hnext.2 e h).1) hnext.1 (by omega)
  have he2 : (x ≠ none → e2 = 101) ∧ (x = none → e2 ≠ 101) := by
    rcases hr2 with h | ⟨h, h'⟩
    · exact (hnext.2 e2 h).2
    · constructor
      · intro hxn
        exfalso
        rcases x with _ | ⟨xn, xd⟩
        · exact hxn rfl
        · have : p (m0 + (w :: ws).length + 1 + (r :: rs).length) = .ok 101 := hate 0 101 rfl
          rw [this] at h; cases h
      · intro _ h2
        have := digit_num e2 (hfd e2 (h' ▸ List.getLast_mem _))
        rw [h2] at this
        exact absurd this (by decide)
  have hex := exponent_float (b := sign neg ++ w :: ws ++ [46] ++ r :: rs) (f := f) hx hate he2.1 he2.2 (by omega) (by omega) hsx.1 (fun e h => ⟨(hsx.2 e h).1, (hsx.2 e h).2.2⟩)
  have hts := typeSuffix_float sf hatsf (by rw [← hq]; exact he)
  have hsg : (if neg then [45] else [] : List Byte) = sign neg := by cases neg <;> rfl
  unfold tokDouble
  simp only [peekTok, hp0, R_bind_ok, hneg]
  rw [hm0, hsg]
  simp only [h0, R_bind_ok, hd1]
  rw [if_neg (by simp), fput_ok (by omega)]
  simp only [R_bind_ok, hatf.cons.1, digit_num r (hfd r (by simp)), Bool.not_true, Bool.false_eq_true, if_false, hd2, hex, hts]
  rw [if_neg (by omega), if_pos (by simp only [List.length_cons]; cases neg <;> simp at hm0 ⊢ <;> omega)]
  simp only [List.length_append, sign_len, hm0, show (ascii ".").length = 1 from rfl, List.append_assoc]
  have hdot : ascii "." = [46] := rfl
  rw [hdot]
  congr 2
  omega

/-- The first character of a literal. -/
theorem float_first {l : FloatLit} (hl : l.Ok) : ∃ c a, l.text = c :: a ∧ (c ≠ 59 ∧ isSpace c = false) ∧ c ≠ 34 ∧ c ∉ ([40, 41, 91, 93, 46, 95, 39, 96, 44, 63, 123, 125, 64] : List Byte) := by
  obtain ⟨neg, whole, frac, x, sf⟩ := l
  obtain ⟨⟨hw, hwd⟩, -, -⟩ := hl
  simp only at hw hwd
  obtain ⟨w, ws, rfl⟩ := List.exists_cons_of_ne_nil hw
  cases neg with
  | true => exact ⟨45, _, rfl, by decide, by decide, by decide⟩
  | false =>
    have hn := digit_num w (hwd w (by simp))
    exact ⟨w, _, rfl, numChar_space w hn, (numChar_ne w hn).2.2.1, (numChar_ne w hn).2.2.2⟩

/-- C130 for floating point numbers: the literal is read whole, with the type of its suffix, and nothing after it; the text that is converted to a number is the number without the suffix. -/
theorem C130_float_literal (l : FloatLit) (hl : l.Ok) (rest : List Byte) (ended : Bool) (hr : FollowedBy rest ended) (hlen : l.number.length ≤ 127) :
    nextToken ⟨l.text ++ rest, ended, false⟩ = (.token (.float l.suffix.type l.number), ⟨rest, ended, false⟩) := by
  obtain ⟨c, a, ht, hsp, hq, hsy⟩ := float_first hl
  have hat := stream_at (s := ⟨l.text ++ rest, ended, false⟩) rfl
  have hd := tokDouble_float (f := (l.text ++ rest).length + 2) hl hat (stream_ends (s := ⟨l.text ++ rest, ended, false⟩) rfl hr) hlen (by simp only [List.length_append]; omega)
  have h0 : Stream.peek ⟨l.text ++ rest, ended, false⟩ 0 = .ok c := hat 0 c (by rw [ht]; rfl)
  have hdis : dispatch (Stream.peek ⟨l.text ++ rest, ended, false⟩) ((l.text ++ rest).length + 2) = (.token (.float l.suffix.type l.number), l.text.length) := by
    unfold dispatch
    rw [tokSyntax_no h0 hsy, tokString_no h0 hq, hd]
    simp only [orElse, floatOut]
    rw [if_pos (by cases l.suffix <;> simp [FSuffix.type])]
  rw [ht] at hdis ⊢
  rw [nextToken_at hsp hdis]
  simp only [List.drop_left]

/-- Text that starts with `\#` is only tried as a character. -/
theorem dispatch_char {p : Nat → Peek} {f : Nat} (h0 : p 0 = .ok 92) : dispatch p (f + 1) = orElse (tokChar p) (fun r => (.token (.char r.2), r.1)) (.error, 0) := by
  have hd : tokDouble p (f + 1) = .none := by
    unfold tokDouble
    simp only [peekTok, h0, R_bind_ok, show decide ((92 : Byte) = 45) = false from rfl, Bool.false_eq_true, if_false, digitLoop_no (show numChar 92 = false from rfl)]
    rw [if_pos (by decide)]
  have hi : tokInteger p (f + 1) = .none := by
    have hx : isHex p 0 = .ok false := by simp only [isHex, h0]; rw [if_neg (by decide)]
    have hdg : digits p (f + 1) false 0 92 = .ok (0, 0) := by
      simp only [digits, decDigits, peekKeep, h0, R_bind_ok, digitLoop_no (show numChar 92 = false from rfl), Bool.false_eq_true, if_false]
    unfold tokInteger
    simp only [peekTok, h0, R_bind_ok, show decide ((92 : Byte) = 45) = false from rfl, Bool.false_eq_true, if_false, hx, hdg, if_true]
  have hs : tokSymbol p (f + 1) = .none := by
    unfold tokSymbol
    simp only [peekTok, h0, R_bind_ok, show symChar0 92 = false from by decide, Bool.not_false, if_true]
  unfold dispatch
  rw [tokSyntax_no h0 (by decide), tokString_no h0 (by decide), hd, hi, hs]
  rfl

/-- C130 for characters: after `\#`, every character except the backslash stands for itself. -/
theorem C130_char (c : Byte) (hc : c ≠ 92) (rest : List Byte) (ended : Bool) :
    nextToken ⟨ascii "\\#" ++ [c] ++ rest, ended, false⟩ = (.token (.char c), ⟨rest, ended, false⟩) := by
  have hd : dispatch (Stream.peek ⟨92 :: [35, c] ++ rest, ended, false⟩) ((92 :: [35, c] ++ rest).length + 2) = (.token (.char c), 3) := by
    rw [dispatch_char rfl]
    unfold tokChar
    simp only [peekTok, Stream.peek, List.cons_append, List.getElem?_cons_zero, List.getElem?_cons_succ, R_bind_ok]
    rw [if_neg (by simp), if_neg (by simp), if_neg hc]
    rfl
  exact nextToken_at (by decide) hd

/-- C130 for characters: after `\#\`, the names of characters stand for these characters. -/
theorem C130_named_char (e : Char × Nat) (he : e ∈ charNames) (rest : List Byte) (ended : Bool) :
    nextToken ⟨ascii "\\#\\" ++ ascii (String.singleton e.1) ++ rest, ended, false⟩ = (.token (.char (BitVec.ofNat 8 e.2)), ⟨rest, ended, false⟩) := by
  have key : ∀ (n v : Byte), specialChars.find? (·.1 == n) = some (n, v) → nextToken ⟨92 :: [35, 92, n] ++ rest, ended, false⟩ = (.token (.char v), ⟨rest, ended, false⟩) := by
    intro n v hs
    have hd : dispatch (Stream.peek ⟨92 :: [35, 92, n] ++ rest, ended, false⟩) ((92 :: [35, 92, n] ++ rest).length + 2) = (.token (.char v), 4) := by
      rw [dispatch_char rfl]
      unfold tokChar
      simp only [peekTok, Stream.peek, List.cons_append, List.getElem?_cons_zero, List.getElem?_cons_succ, R_bind_ok, hs]
      rfl
    exact nextToken_at (by decide) hd
  simp only [charNames, List.mem_cons, List.not_mem_nil, or_false] at he
  rcases he with rfl | rfl | rfl | rfl | rfl | rfl | rfl | rfl | rfl | rfl | rfl <;> exact key _ _ (by decide)

/-- C130 for characters: every other name is an error. -/
theorem C130_unknown_char (c : Byte) (hc : ∀ e ∈ charNames, ascii (String.singleton e.1) ≠ [c]) (rest : List Byte) (ended : Bool) :
    (nextToken ⟨ascii "\\#\\" ++ [c] ++ rest, ended, false⟩).1 = .error := by
  have hs : specialChars.find? (·.1 == c) = none := by
    revert hc
    revert c
    decide +kernel
  have hd : dispatch (Stream.peek ⟨92 :: [35, 92, c] ++ rest, ended, false⟩) ((92 :: [35, 92, c] ++ rest).length + 2) = (.error, 0) := by
    rw [dispatch_char rfl]
    unfold tokChar
    simp only [peekTok, Stream.peek, List.cons_append, List.getElem?_cons_zero, List.getElem?_cons_succ, R_bind_ok, hs]
    rfl
  have := nextToken_at (by decide) hd
  exact congrArg Prod.fst this

/-- C130 fails for the exponent: signs between its digits are accepted, and the whole text is used up. `strtod` only reads the text before the second sign. -/
theorem C130_exponent_violated : nextToken ⟨ascii "1.0e5-3)", true, false⟩ = (.token (.float 107 (ascii "1.0e5-3")), ⟨ascii ")", true, false⟩) ∧
    ∀ l : FloatLit, l.Ok → l.number ≠ ascii "1.0e5-3" := by
  refine ⟨by decide +kernel, ?_⟩
  rintro ⟨neg, whole, frac, x, sf⟩ ⟨⟨hw, hwd⟩, ⟨hf, hfd⟩, hx⟩ h
  simp only at hw hwd hf hfd hx
  simp only [FloatLit.number] at h
  have hlast : (ascii "1.0e5-3").reverse = [51, 45, 53, 101, 48, 46, 49] := by decide +kernel
  rcases x with _ | ⟨xn, xd⟩
  · have hcount := congrArg (List.count (101 : Byte)) h
    have hc : ∀ ds : List Byte, (∀ c ∈ ds, c ∈ ascii "0123456789") → ds.count (101 : Byte) = 0 := fun ds hds => List.count_eq_zero.2 (fun hm => absurd (hds _ hm) (by decide))
    simp only [List.count_append, hc _ hwd, hc _ hfd, expText, List.count_nil] at hcount
    cases neg <;> exact absurd hcount (by decide +kernel)
  · obtain ⟨hxn, hxd⟩ := hx _ rfl
    simp only at hxn hxd
    have hr := congrArg List.reverse h
    rw [hlast] at hr
    simp only [expText, List.reverse_append, List.append_assoc] at hr
    cases hxr : xd.reverse with
    | nil => exact hxn (by simpa using hxr)
    | cons y ys =>
      rw [hxr] at hr
      simp only [List.cons_append] at hr
      obtain ⟨-, hr⟩ := List.cons.inj hr
      have hys : ∀ c ∈ ys, c ∈ ascii "0123456789" := fun c hc => hxd c (by rw [← List.mem_reverse, hxr]; simp [hc])
      cases ys with
      | cons z zs =>
        obtain ⟨hz, -⟩ := List.cons.inj hr
        exact absurd (hys z (by simp)) (by rw [hz]; decide)
      | nil =>
        cases xn with
        | true =>
          simp only [sign, if_true] at hr
          have := (List.cons.inj (List.cons.inj hr).2).1
          exact absurd this (by decide)
        | false =>
          simp only [sign, Bool.false_eq_true, if_false] at hr
          have := (List.cons.inj hr).1
          exact absurd this (by decide)

/-- `-12.50e-3f64)` -/
example : nextToken ⟨ascii "-12.50e-3f64)", false, false⟩ = (.token (.float 108 (ascii "-12.50e-3")), ⟨ascii ")", false, false⟩) :=
  C130_float_literal ⟨true, ascii "12", ascii "50", some (true, ascii "3"), .f64⟩ ⟨by decide, by decide, by rintro e h; cases h; decide⟩ (ascii ")") false (by decide +kernel) (by decide)
example : nextToken ⟨ascii "\\#\\n)", false, false⟩ = (.token (.char 10), ⟨ascii ")", false, false⟩) := C130_named_char ('n', 10) (by decide) (ascii ")") false
example : nextToken ⟨ascii "\\#;x", false, false⟩ = (.token (.char 59), ⟨ascii "x", false, false⟩) := C130_char 59 (by decide) (ascii "x") false
example : ∀ e ∈ charNames, ascii (String.singleton e.1) ≠ [113] := by decide +kernel

end Verif.Tok
