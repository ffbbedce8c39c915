import Verif.Print.Spec

/-! # What the printer writes -/

namespace Verif.Print

open Verif.Tok (Byte ascii)
open Verif.Eq (T NTy Val Heap)

/-! ## The channel -/

/-- A channel with a buffer, not overrun. -/
structure Ch.Wf (c : Ch) : Prop where
  pos : 1 ≤ c.len
  lt : c.len < 2 ^ 32
  le : c.out.length ≤ c.len - 1
  ok : c.ub = false

/-- Writing as much of `t` as there is room for. -/
def Ch.put (c : Ch) (t : List Byte) : Ch := { c with out := (c.out ++ t).take (c.len - 1) }

/-- There is room for all of `t` and a terminating zero. -/
def fits (c : Ch) (t : List Byte) : Bool := decide (c.out.length + t.length < c.len)

theorem Ch.Wf.put {c : Ch} (h : c.Wf) (t : List Byte) : (c.put t).Wf :=
  ⟨h.pos, h.lt, by simp only [Ch.put, List.length_take]; omega, h.ok⟩

theorem put_nil {c : Ch} (h : c.Wf) : c.put [] = c := by
  have := h.le
  cases c
  simp only [Ch.put, List.append_nil, Ch.mk.injEq, and_true]
  exact List.take_of_length_le this

theorem put_put (c : Ch) (a b : List Byte) : (c.put a).put b = c.put (a ++ b) := by
  simp only [Ch.put, Ch.mk.injEq, and_true]
  rw [← List.append_assoc]
  generalize c.out ++ a = x
  by_cases h : x.length ≤ c.len - 1
  · rw [List.take_of_length_le h]
  · have h2 : (x.take (c.len - 1)).length = c.len - 1 := by rw [List.length_take]; omega
    rw [List.take_append_of_le_length (by omega), List.take_append_of_le_length (by omega), List.take_take,
      Nat.min_self]

theorem put_fit {c : Ch} {a : List Byte} (h : fits c a = true) : (c.put a).out = c.out ++ a := by
  have h := of_decide_eq_true h
  simp only [Ch.put]
  exact List.take_of_length_le (by rw [List.length_append]; omega)

theorem put_full {c : Ch} {a : List Byte} (hc : c.Wf) (h : fits c a = false) : (c.put a).out.length = c.len - 1 := by
  have h := of_decide_eq_false h
  have := hc.le
  simp only [Ch.put, List.length_take, List.length_append]; omega

theorem put_stuck {c : Ch} {a : List Byte} (hc : c.Wf) (h : fits c a = false) (b : List Byte) :
    c.put (a ++ b) = c.put a ∧ fits c (a ++ b) = false := by
  refine ⟨?_, ?_⟩
  · have h := of_decide_eq_false h
    simp only [Ch.put, Ch.mk.injEq, and_true]
    rw [← List.append_assoc, List.take_append_of_le_length]
    rw [List.length_append]; omega
  · have h := of_decide_eq_false h
    simp only [fits, decide_eq_false_iff_not, List.length_append]; omega

theorem fits_append {c : Ch} {a : List Byte} (h : fits c a = true) (b : List Byte) :
    fits (c.put a) b = fits c (a ++ b) := by
  have : (c.put a).len = c.len := rfl
  unfold fits
  rw [put_fit h, this]
  simp only [List.length_append, Nat.add_assoc]

theorem fits_append' {c : Ch} (hc : c.Wf) (a : List Byte) {b : List Byte} (hb : b ≠ []) :
    fits (c.put a) b = fits c (a ++ b) := by
  cases h : fits c a with
  | true => exact fits_append h b
  | false =>
    rw [(put_stuck hc h b).2]
    have := put_full hc h
    have h1 : (c.put a).len = c.len := rfl
    have := hc.pos
    have : 0 < b.length := List.length_pos_iff.2 hb
    simp only [fits, decide_eq_false_iff_not, h1]
    omega

/-- `f` writes `t`. -/
def Em (f : Ch → Ch × Bool) (t : List Byte) : Prop := ∀ c, c.Wf → f c = (c.put t, fits c t)

theorem em_write (x : Byte) : Em (fun c => c.write x) [x] := by
  intro c hc
  have h1 := hc.pos
  have h2 := hc.lt
  have h3 := hc.le
  have h4 : (c.len + 2 ^ 32 - 1) % 2 ^ 32 = c.len - 1 := by omega
  simp only [Ch.write, h4, fits, Ch.put, List.length_singleton]
  by_cases h : c.out.length < c.len - 1
  · rw [if_pos h, List.take_of_length_le (by rw [List.length_append, List.length_singleton]; omega)]
    have e1 : decide (c.len ≤ c.out.length) = false := decide_eq_false (by omega)
    have e2 : decide (c.out.length + 1 < c.len) = true := decide_eq_true (by omega)
    rw [e1, e2, Bool.or_false]
  · rw [if_neg h]
    have e2 : decide (c.out.length + 1 < c.len) = false := decide_eq_false (by omega)
    rw [e2, List.take_append_of_le_length (by omega), List.take_of_length_le (by omega)]

theorem em_nil : Em (fun c => (c, true)) [] := by
  intro c hc
  have := hc.le
  have := hc.pos
  rw [put_nil hc]
  simp only [fits, List.length_nil, Prod.mk.injEq, true_and]
  exact (decide_eq_true (by omega)).symm

theorem em_seq {f g : Ch → Ch × Bool} {a b : List Byte} (hf : Em f a) (hg : Em g b) :
    Em (fun c => andThen (f c) g) (a ++ b) := by
  intro c hc
  simp only [hf c hc, andThen]
  cases h : fits c a with
  | true => simp only [if_true, hg _ (hc.put a), put_put, fits_append h]
  | false => rw [(put_stuck hc h b).1, (put_stuck hc h b).2]; rfl

theorem em_str (t : List Byte) : Em (fun c => emitStr c t) t := by
  induction t with
  | nil => exact em_nil
  | cons x t ih => exact em_seq (em_write x) ih

theorem emitStr_eq {c : Ch} (h : c.Wf) (t : List Byte) : emitStr c t = (c.put t, fits c t) := em_str t c h

theorem write_eq {c : Ch} (h : c.Wf) (x : Byte) : c.write x = (c.put [x], fits c [x]) := em_write x c h

theorem em_congr {f g : Ch → Ch × Bool} {a : List Byte} (h : ∀ c, f c = g c) (hg : Em g a) : Em f a :=
  fun c hc => (h c).trans (hg c hc)

theorem em_escape (x : Byte) : Em (fun c => emitEscape c x) (charText x) := by
  unfold emitEscape charText
  by_cases h1 : x = 34
  · simp only [if_pos h1]; exact em_str _
  by_cases h2 : x = 10
  · simp only [if_neg h1, if_pos h2]; exact em_str _
  by_cases h3 : x = 13
  · simp only [if_neg h1, if_neg h2, if_pos h3]; exact em_str _
  by_cases h4 : x = 9
  · simp only [if_neg h1, if_neg h2, if_neg h3, if_pos h4]; exact em_str _
  by_cases h5 : x = 92
  · simp only [if_neg h1, if_neg h2, if_neg h3, if_neg h4, if_pos h5]; exact em_str _
  simp only [if_neg h1, if_neg h2, if_neg h3, if_neg h4, if_neg h5]
  exact em_write x

theorem em_strVal (s : List Byte) (hs : ∀ c ∈ s, c ≠ 0) (r : List Byte) :
    Em (fun c => emitStrVal c (s ++ 0 :: r)) (s.flatMap charText) := by
  induction s with
  | nil => exact em_congr (fun c => by simp [emitStrVal]) em_nil
  | cons x s ih =>
    have hx : x ≠ 0 := hs x (by simp)
    refine em_congr (fun c => ?_) (em_seq (em_escape x) (ih (fun c h => hs c (by simp [h]))))
    simp only [List.cons_append, emitStrVal, if_neg hx]

/-! ## Numbers -/

theorem digitChar_byte : ∀ d : Fin 10, BitVec.ofNat 8 (Nat.digitChar d.1).toNat = BitVec.ofNat 8 (48 + d.1) := by
  decide

theorem digits10_lt {n : Nat} (h : n < 10) : digits10 n = [BitVec.ofNat 8 (48 + n)] := by
  have : digits10 n = (Nat.toDigits 10 n).map fun c => BitVec.ofNat 8 c.toNat := by
    simp [digits10, ascii, Nat.repr]
  rw [this, Nat.toDigits_of_lt_base h, List.map_singleton, digitChar_byte ⟨n, h⟩]

theorem digits10_ge {n : Nat} (h : 10 ≤ n) :
    digits10 n = digits10 (n / 10) ++ [BitVec.ofNat 8 (48 + n % 10)] := by
  have e : ∀ n, digits10 n = (Nat.toDigits 10 n).map fun c => BitVec.ofNat 8 c.toNat := by
    intro n; simp [digits10, ascii, Nat.repr]
  rw [e, e, Nat.toDigits_of_base_le (by omega) h, List.map_append, List.map_singleton,
    digitChar_byte ⟨n % 10, Nat.mod_lt _ (by omega)⟩]

theorem decText_eq : ∀ n, decText n = digits10 n := by
  intro n
  induction n using Nat.strongRecOn with
  | ind n ih =>
    unfold decText
    by_cases h : n < 10
    · rw [if_pos h, digits10_lt h]
    · rw [if_neg h, ih _ (by omega), ← digits10_ge (by omega)]

theorem digits10_length : ∀ k n, n < 10 ^ (k + 1) → (digits10 n).length ≤ k + 1 := by
  intro k
  induction k with
  | zero => intro n h; rw [digits10_lt (by simpa using h)]; simp
  | succ k ih =>
    intro n h
    by_cases h10 : n < 10
    · rw [digits10_lt h10]; simp
    · rw [digits10_ge (by omega), List.length_append, List.length_singleton]
      have := ih (n / 10) (by rw [Nat.div_lt_iff_lt_mul (by omega)]; rw [Nat.pow_succ] at h; omega)
      omega

theorem digits10_ne (n : Nat) : digits10 n ≠ [] := by
  by_cases h10 : n < 10
  · rw [digits10_lt h10]; simp
  · rw [digits10_ge (by omega)]; simp

theorem suffix_eq (t : NTy) (h : t ≠ .float ∧ t ≠ .double) (z : Int) :
    intText z ++ suffix t = intLiteral t z := by
  have e : intText z = (if z < 0 then ascii "-" else []) ++ digits10 z.natAbs := by
    unfold intText
    split
    · rw [decText_eq]; rfl
    · rw [decText_eq]; rfl
  rw [e]
  unfold intLiteral
  cases t <;> first | rfl | exact absurd rfl h.1 | exact absurd rfl h.2

theorem intLiteral_length {b : Verif.Val.Build} {t : NTy} {z : Int} (h : InRange b t z) :
    (intLiteral t z).length ≤ 29 := by
  have hz : z.natAbs < 10 ^ (19 + 1) := by
    have : (2:Int) ^ 64 < 10 ^ 20 := by decide
    cases b <;> cases t <;> simp only [InRange, bits, Nat.reduceSub, Int.reducePow, Int.reduceNeg] at h <;> omega
  have := digits10_length 19 _ hz
  have hs : ((if z < 0 then ascii "-" else [] : List Byte)).length ≤ 1 := by split <;> decide
  unfold intLiteral
  rw [List.length_append, List.length_append]
  refine Nat.le_trans (Nat.add_le_add_left (m := 3) ?_ _) (by omega)
  cases t <;> decide

theorem numText_eq (D : Dev) {t : NTy} {z : Int} (h : InRange D.b t z) : numText D t z = intLiteral t z := by
  have hf : t ≠ .float ∧ t ≠ .double := by
    constructor <;> (intro e; subst e; exact h)
  have := intLiteral_length h
  unfold numText
  cases t <;> first
    | exact absurd rfl hf.1
    | exact absurd rfl hf.2
    | (simp only [snprintf]; rw [suffix_eq _ hf, List.take_of_length_le this])

theorem byteText (x : Byte) : snprintf (decText x.toNat) = digits10 x.toNat := by
  have := digits10_length 2 x.toNat (by have := x.isLt; omega)
  rw [decText_eq]
  exact List.take_of_length_le (by omega)

/-! ## Byte arrays -/

/-- Characters of strings. -/
def good (c : Byte) : Bool := isPrint c || (8 ≤ c.toNat && c.toNat ≤ 13)

theorem good_iff : ∀ c : Byte, good c = true ↔ ((32 ≤ c.toNat ∧ c.toNat ≤ 126) ∨ (8 ≤ c.toNat ∧ c.toNat ≤ 13)) := by
  intro c; simp [good, isPrint]

theorem good_ne {c : Byte} (h : good c = true) : c ≠ 0 := by
  intro e; subst e; exact absurd h (by decide)

theorem scan_good {c : Byte} (h : good c = true) : (!isPrint c && (c.toNat < 8 || c.toNat > 13)) = false := by
  revert h; revert c; decide +kernel

theorem scan_bad {c : Byte} (h : good c = false) : (!isPrint c && (c.toNat < 8 || c.toNat > 13)) = true := by
  revert h; revert c; decide +kernel

/-- The loop stops after the longest prefix of good characters. -/
theorem scan_eq (p r : List Byte) (hp : ∀ c ∈ p, good c = true) (hr : ∀ c, r.head? = some c → good c = false) (i : Nat) :
    scan (p ++ r) i = (decide (r = [] ∨ r.head? = some 0), i + p.length) := by
  induction p generalizing i with
  | nil =>
    cases r with
    | nil => simp [scan]
    | cons c r =>
      have hc := hr c rfl
      by_cases h0 : c = 0
      · simp [scan, h0]
      · simp only [List.nil_append, scan, if_neg h0, scan_bad hc, if_true, List.head?_cons, Option.some.injEq,
          h0, List.length_nil, Nat.add_zero, Prod.mk.injEq, and_true]
        simp
  | cons c p ih =>
    have hc := hp c (by simp)
    simp only [List.cons_append, scan, if_neg (good_ne hc), scan_good hc, List.length_cons, Bool.false_eq_true, if_false]
    rw [ih (fun c h => hp c (by simp [h]))]
    simp only [Prod.mk.injEq, true_and]
    omega

theorem split_good (l : List Byte) : ∃ p r, l = p ++ r ∧ (∀ c ∈ p, good c = true) ∧
    ∀ c, r.head? = some c → good c = false := by
  induction l with
  | nil => exact ⟨[], [], rfl, by simp, by simp⟩
  | cons c l ih =>
    cases h : good c with
    | false => exact ⟨[], c :: l, rfl, by simp, by simpa using h⟩
    | true =>
      obtain ⟨p, r, rfl, h1, h2⟩ := ih
      exact ⟨c :: p, r, rfl, by simpa [h] using h1, h2⟩

/-- Whether an array is printed as a string. -/
theorem isString_eq (D : Dev) (l : List Byte) (h : LooksBack l → D.stray.isSome) :
    isString D l = some (decide (StringData l l.dropLast)) := by
  obtain ⟨p, r, rfl, hp, hr⟩ := split_good l
  have hs : StringData (p ++ r) (p ++ r).dropLast ↔ p ≠ [] ∧ r = [0] := by
    constructor
    · rintro ⟨h1, h2, h3⟩
      generalize (p ++ r).dropLast = s at h1 h2 h3
      have h3 : ∀ c ∈ s, good c = true := fun c hc => (good_iff c).2 (h3 c hc)
      rcases List.append_eq_append_iff.1 h1 with ⟨q, rfl, h5⟩ | ⟨q, rfl, h5⟩
      · cases q with
        | nil => rw [List.nil_append] at h5; rw [List.append_nil] at h2; exact ⟨h2, h5⟩
        | cons c q =>
          rw [List.cons_append] at h5
          have := hr c (by rw [h5]; rfl)
          rw [h3 c (by simp)] at this; cases this
      · cases q with
        | nil => rw [List.nil_append] at h5; rw [List.append_nil]; exact ⟨h2, h5.symm⟩
        | cons c q =>
          rw [List.cons_append] at h5
          have h6 := (List.cons.inj h5).1
          have := hp c (by simp)
          rw [← h6] at this
          exact absurd this (by decide)
    · rintro ⟨h1, rfl⟩
      rw [List.dropLast_concat]
      exact ⟨rfl, h1, fun c hc => (good_iff c).1 (hp c hc)⟩
  rw [decide_eq_decide.2 hs]
  have hlook : p = [] → r.length ≠ 1 → D.stray.isSome := by
    rintro rfl hl
    refine h ⟨by simpa using hl, fun c hc => ?_⟩
    rw [← good_iff, hr c (by simpa using hc)]
    simp
  unfold isString
  cases p with
  | nil =>
    simp only [List.nil_append] at h ⊢
    have hf : (if 1 ≤ r.length ∧ r[0]? ≠ some 0 then scan r 0 else (false, 0)) = (false, 0) := by
      split
      · rename_i h1
        have := scan_eq [] r (by simp) hr 0
        simp only [List.nil_append, List.length_nil, Nat.add_zero] at this
        rw [this]
        simp only [Prod.mk.injEq, and_true, decide_eq_false_iff_not]
        rintro (h2 | h2)
        · rw [h2] at h1; simp at h1
        · exact h1.2 (by rw [List.head?_eq_getElem?] at h2; exact h2)
      · rfl
    rw [hf]
    have hd : decide (([] : List Byte) ≠ [] ∧ r = [0]) = false := by simp
    rw [hd]
    by_cases hl : r.length = 0 + 1
    · simp only [hl, if_true]
    · simp only [if_neg hl]
      obtain ⟨x, hx⟩ := Option.isSome_iff_exists.1 (hlook rfl (by simpa using hl))
      rw [hx]
      simp
  | cons c p =>
    have hc := hp c (by simp)
    have hcond : 1 ≤ (c :: p ++ r).length ∧ (c :: p ++ r)[0]? ≠ some 0 := by
      refine ⟨by simp, ?_⟩
      simpa using good_ne hc
    rw [if_pos hcond, scan_eq (c :: p) r hp hr 0]
    simp only [Nat.zero_add]
    by_cases hl : (c :: p ++ r).length = (c :: p).length + 1
    · simp only [hl, if_true, Option.some.injEq, decide_eq_decide]
      have h1 : r.length = 1 := by rw [List.length_append] at hl; omega
      obtain ⟨x, rfl⟩ := List.length_eq_one_iff.1 h1
      simp
    · simp only [if_neg hl]
      have h1 : r.length ≠ 1 := by intro e; rw [List.length_append, e] at hl; exact hl rfl
      have hne : (c :: p ++ r)[p.length]? ≠ some 0 := by
        have : (c :: p ++ r)[p.length]? = (c :: p)[p.length]? := by
          rw [List.getElem?_append_left (by simp)]
        rw [this]
        intro e
        have := List.mem_of_getElem? e
        exact good_ne (hp 0 this) rfl
      simp only [List.length_cons, if_pos hne, Option.some.injEq]
      symm
      simp only [decide_eq_false_iff_not, not_and]
      intro _ e
      exact h1 (by rw [e]; rfl)

/-- Looking back is undefined behaviour. -/
theorem isString_ub (D : Dev) (hD : D.stray = none) (l : List Byte) (h : LooksBack l) : isString D l = none := by
  obtain ⟨p, r, rfl, hp, hr⟩ := split_good l
  cases p with
  | cons c p =>
    have := h.2 c rfl
    rw [← good_iff, hp c (by simp)] at this
    exact absurd rfl this
  | nil =>
    simp only [List.nil_append] at h ⊢
    have hf : (if 1 ≤ r.length ∧ r[0]? ≠ some 0 then scan r 0 else (false, 0)) = (false, 0) := by
      split
      · rename_i h1
        have := scan_eq [] r (by simp) hr 0
        simp only [List.nil_append, List.length_nil, Nat.add_zero] at this
        rw [this]
        simp only [Prod.mk.injEq, and_true, decide_eq_false_iff_not]
        rintro (h2 | h2)
        · rw [h2] at h1; simp at h1
        · exact h1.2 (by rw [List.head?_eq_getElem?] at h2; exact h2)
      · rfl
    unfold isString
    rw [hf]
    simp only [if_neg h.1, hD, Option.map_none]

theorem em_bytes (r : Bool) : ∀ l : List Byte, l ≠ [] →
    Em (fun c => emitBytes c r l) ((l.map fun c => digits10 c.toNat).intersperse (ascii " ")).flatten := by
  intro l
  induction l generalizing r with
  | nil => intro h; exact absurd rfl h
  | cons x l ih =>
    intro _
    cases l with
    | nil =>
      have he : ((List.map (fun c => digits10 c.toNat) [x]).intersperse (ascii " ")).flatten = digits10 x.toNat := by
        simp
      rw [he]
      refine em_congr (fun c => ?_) (em_str (digits10 x.toNat))
      simp only [emitBytes, byteText]
    | cons y l =>
      intro c hc
      have h1 : Em (fun c => andThen (emitStr c (snprintf (decText x.toNat))) fun c1 => c1.write 32)
          (digits10 x.toNat ++ [32]) := by
        have := em_seq (em_str (digits10 x.toNat)) (em_write 32)
        rw [byteText]; exact this
      simp only [emitBytes]
      have h1 := h1 c hc
      simp only at h1
      rw [h1]
      simp only
      have ih := fun r => ih r (by simp) _ (hc.put (digits10 x.toNat ++ [32]))
      simp only at ih
      rw [ih, put_put]
      have he : ((List.map (fun c => digits10 c.toNat) (x :: y :: l)).intersperse (ascii " ")).flatten =
          (digits10 x.toNat ++ [32]) ++ ((List.map (fun c => digits10 c.toNat) (y :: l)).intersperse (ascii " ")).flatten := by
        simp [List.intersperse, ascii]
      rw [he, fits_append' hc]
      cases l with
      | nil => simpa using digits10_ne _
      | cons z l => simp [List.intersperse, digits10_ne]

theorem em_array (l : List Byte) : Em (fun c => emitArray c l) (arrayText l) := by
  cases l with
  | nil =>
    have := em_seq (em_write 91) (em_seq em_nil (em_write 93))
    exact this
  | cons x l =>
    have := em_seq (em_write 91) (em_seq (em_bytes true (x :: l) (by simp)) (em_write 93))
    unfold arrayText
    rw [List.append_assoc]
    exact this

theorem em_byteArray (D : Dev) (l : List Byte) (h : LooksBack l → D.stray.isSome) :
    Em (fun c => emitByteArray D c l) (bytesText l) := by
  unfold emitByteArray bytesText
  rw [isString_eq D l h]
  by_cases hs : StringData l l.dropLast
  · rw [if_pos hs, decide_eq_true hs]
    unfold stringText
    rw [List.append_assoc]
    refine em_seq (em_write 34) (em_seq ?_ (em_write 34))
    generalize l.dropLast = s at hs
    obtain ⟨rfl, _, h3⟩ := hs
    exact em_strVal s (fun c hc => good_ne ((good_iff c).2 (h3 c hc))) []
  · rw [if_neg hs, decide_eq_false hs]
    exact em_array l

/-! ## The stack machine -/

variable {D : Dev} {tab : Sym.Tab} {H : Heap} {size : Nat}

theorem prun_add (n m : Nat) (p : P) : prun D tab H size (n + m) p =
    match prun D tab H size n p with
    | .run q => prun D tab H size m q
    | r => r := by
  induction n generalizing p with
  | zero => rw [Nat.zero_add]; rfl
  | succ n ih =>
    rw [Nat.succ_add]
    simp only [prun]
    cases pstep D tab H size p with
    | run q => exact ih q
    | ret c r => rfl
    | ub => rfl

/-- The machine writes `t` and is left with the stack `K`, or returns a failure because there was no
room. -/
def Emits (D : Dev) (tab : Sym.Tab) (H : Heap) (size : Nat) (p : P) (t : List Byte) (K : List PF) : Prop :=
  ∃ n, prun D tab H size n p = .run ⟨K, p.c.put t, fits p.c t⟩ ∨
    (fits p.c t = false ∧ prun D tab H size n p = .ret (p.c.put t) false)

theorem Emits.seq {p : P} (hc : p.c.Wf) {a b : List Byte} {K K' : List PF} (h1 : Emits D tab H size p a K) (hb : b ≠ [])
    (h2 : ∀ r, Emits D tab H size ⟨K, p.c.put a, r⟩ b K') : Emits D tab H size p (a ++ b) K' := by
  obtain ⟨n, h1 | ⟨h0, h1⟩⟩ := h1
  · obtain ⟨m, h2 | ⟨h0, h2⟩⟩ := h2 (fits p.c a)
    · refine ⟨n + m, .inl ?_⟩
      rw [prun_add, h1]
      simp only
      rw [h2, put_put, fits_append' hc a hb]
    · refine ⟨n + m, .inr ⟨?_, ?_⟩⟩
      · rw [← fits_append' hc a hb]; exact h0
      · rw [prun_add, h1]
        simp only
        rw [h2, put_put]
  · have := put_stuck hc h0 b
    exact ⟨n, .inr ⟨this.2, by rw [h1, this.1]⟩⟩

theorem Emits.step {p q : P} {t : List Byte} {K : List PF} (h : pstep D tab H size p = .run q) (hq : q.c = p.c)
    (h2 : Emits D tab H size q t K) : Emits D tab H size p t K := by
  obtain ⟨n, h2⟩ := h2
  refine ⟨n + 1, ?_⟩
  simp only [prun, h]
  rw [← hq]
  exact h2

/-- A step that writes `t`. -/
theorem Emits.write {p : P} {t : List Byte} {K : List PF} (h : pstep D tab H size p = .run ⟨K, p.c.put t, fits p.c t⟩ ∨
    (fits p.c t = false ∧ pstep D tab H size p = .ret (p.c.put t) false)) : Emits D tab H size p t K := by
  refine ⟨1, ?_⟩
  rcases h with h | ⟨h0, h⟩
  · exact .inl (by simp only [prun, h])
  · exact .inr ⟨h0, by simp only [prun, h]⟩

theorem sp_cons (f : PF) (s : List PF) : sp (f :: s) = f.words + sp s := by
  simp [sp]

/-- The frames for the rest of a list. -/
def restFrames (d : Val) : List PF :=
  match d.tag with
  | .cons => [.contList d]
  | _ => if d = .sym 0 then [.endList] else [.dot, .print d, .endList]

theorem restFrames_sp (d : Val) (s : List PF) : sp (restFrames d ++ s) ≤ sp s + 4 := by
  unfold restFrames
  split
  · simp [sp, PF.words]; omega
  · split <;> simp [sp, PF.words] <;> omega

theorem pushRest_ok {a d : Val} {s : List PF} (h : sp s + 6 < size) :
    pushRest size a d s = some (.print a :: (restFrames d ++ s)) := by
  have h1 : ∀ x, sp x ≤ sp s + 4 → pushN size 2 [.print a] x = some (.print a :: x) := by
    intro x hx
    exact if_pos (by omega)
  have hr := restFrames_sp d s
  unfold pushRest
  unfold restFrames at hr ⊢
  split at hr
  · rename_i hd
    simp only [hd]
    rw [show pushN size 2 [PF.contList d] s = some ([.contList d] ++ s) from if_pos (by omega)]
    exact h1 _ hr
  · rename_i hd
    cases hd' : d.tag with
    | cons => exact absurd hd' hd
    | _ =>
      simp only
      split at hr
      · rename_i h0
        rw [if_pos h0, if_pos h0, show push1 size .endList s = some ([.endList] ++ s) from if_neg (by omega)]
        exact h1 _ hr
      · rename_i h0
        rw [if_neg h0, if_neg h0, show pushN size 4 [.dot, .print d, .endList] s = some ([.dot, .print d, .endList] ++ s)
          from if_pos (by omega)]
        exact h1 _ hr

/-- A value and its text have something in them. -/
theorem nameBytes_ne {n : Sym.Name} (h : n ≠ []) : nameBytes n ≠ [] := by
  cases n with
  | nil => exact absurd rfl h
  | cons x n => simp [nameBytes]

theorem intLiteral_ne (t : NTy) (z : Int) : intLiteral t z ≠ [] := by
  unfold intLiteral
  simp [digits10_ne]

theorem bytesText_ne (l : List Byte) : bytesText l ≠ [] := by
  unfold bytesText stringText arrayText
  split <;> simp [ascii]

theorem atomText_ne {t : T} (h : Printable D tab t) (hc : ∀ a d, t ≠ .cons a d) : atomText tab t ≠ [] := by
  cases t with
  | sym id =>
    obtain ⟨n, h1, h2⟩ := h
    simp only [atomText, h1, Option.getD_some]
    exact nameBytes_ne h2
  | num t z => exact intLiteral_ne t z
  | bytes l => exact bytesText_ne l
  | cons a d => exact absurd rfl (hc a d)
  | arr l => exact h.elim
  | obj n => exact h.elim

theorem txt_atom {t : T} (hc : ∀ a d, t ≠ .cons a d) : txt tab false t = atomText tab t := by
  cases t with
  | sym id => cases id <;> rfl
  | cons a d => exact absurd rfl (hc a d)
  | _ => rfl

theorem txt_ne {t : T} {tail : Bool} (h : Printable D tab t) : txt tab tail t ≠ [] := by
  cases t with
  | cons a d => cases tail <;> simp [txt, ascii]
  | sym id =>
    cases tail with
    | false => rw [txt_atom (by simp)]; exact atomText_ne h (by simp)
    | true => cases id <;> simp [txt, ascii]
  | _ =>
    cases tail with
    | false => rw [txt_atom (by simp)]; exact atomText_ne h (by simp)
    | true => simp [txt, ascii]

/-- Atoms. -/
theorem emits_atom {t : T} {v : Val} (hv : Eq.Rep H v t) (hp : Printable D tab t) (hc : ∀ a d, t ≠ .cons a d)
    {K : List PF} {c : Ch} {r : Bool} (hw : c.Wf) : Emits D tab H size ⟨.print v :: K, c, r⟩ (atomText tab t) K := by
  refine Emits.write (.inl ?_)
  cases hv with
  | @sym id =>
    obtain ⟨n, h1, _⟩ := hp
    simp only [pstep, Val.tag, Verif.Eq.Val.tag, emitSymbol, h1, atomText, Option.getD_some]
    rw [emitStr_eq hw]
  | @imm t z =>
    simp only [pstep, Verif.Eq.Val.tag, Eq.numOf, numText_eq D hp, atomText]
    rw [emitStr_eq hw]
  | @boxed t k ix z h =>
    simp only [pstep, Verif.Eq.Val.tag, Eq.numOf, h, numText_eq D hp, atomText]
    rw [emitStr_eq hw]
  | cons => exact absurd rfl (hc _ _)
  | @bytes k ix l h =>
    have he := em_byteArray D l hp c hw
    simp only at he
    simp only [pstep, Verif.Eq.Val.tag, Eq.bytesOf, h, he, atomText]
    rw [(hw.put _).ok]
    rfl
  | arr => exact hp.elim
  | obj => exact hp.elim

theorem emits_end {K : List PF} {c : Ch} {r : Bool} (hw : c.Wf) :
    Emits D tab H size ⟨.endList :: K, c, r⟩ (ascii ")") K := by
  refine Emits.write ?_
  show pstep D tab H size _ = .run ⟨K, c.put [41], fits c [41]⟩ ∨ fits c [41] = false ∧ _ = PRes.ret (c.put [41]) false
  simp only [pstep, write_eq hw]
  cases hf : fits c [41] with
  | true => exact .inl rfl
  | false => exact .inr ⟨rfl, rfl⟩

theorem emits_dot {K : List PF} {c : Ch} {r : Bool} (hw : c.Wf) :
    Emits D tab H size ⟨.dot :: K, c, r⟩ (ascii " . ") K := by
  refine Emits.write ?_
  show pstep D tab H size _ = .run ⟨K, c.put [32, 46, 32], fits c [32, 46, 32]⟩ ∨
    fits c [32, 46, 32] = false ∧ _ = PRes.ret (c.put [32, 46, 32]) false
  simp only [pstep, emitStr_eq hw]
  cases hf : fits c [32, 46, 32] with
  | true => exact .inl rfl
  | false => exact .inr ⟨rfl, rfl⟩

/-- The end of a dotted list. -/
theorem emits_tail {t : T} {v : Val} (hv : Eq.Rep H v t) (hp : Printable D tab t) (hc : ∀ a d, t ≠ .cons a d)
    (h0 : t ≠ .sym 0) {K : List PF} {c : Ch} {r : Bool} (hw : c.Wf) :
    Emits D tab H size ⟨restFrames v ++ K, c, r⟩ (ascii " . " ++ atomText tab t ++ ascii ")") K := by
  have hr : restFrames v = [.dot, .print v, .endList] := by
    cases hv with
    | sym => exact if_neg (by intro e; cases e; exact h0 rfl)
    | imm => simp [restFrames, Verif.Eq.Val.tag]
    | boxed => simp [restFrames, Verif.Eq.Val.tag]
    | cons => exact absurd rfl (hc _ _)
    | bytes => simp [restFrames, Verif.Eq.Val.tag]
    | arr => exact hp.elim
    | obj => exact hp.elim
  rw [hr, List.append_assoc]
  refine Emits.seq (K := [.print v, .endList] ++ K) hw (emits_dot hw) (by simp [ascii]) (fun r => ?_)
  exact Emits.seq (K := .endList :: K) (hw.put _) (emits_atom hv hp hc (hw.put _)) (by simp [ascii])
    (fun r => emits_end ((hw.put _).put _))

/-- A value on its own, and the rest of a list. -/
theorem emits_value : ∀ {t : T} {v : Val}, Eq.Rep H v t → Printable D tab t → ∀ {K : List PF} {c : Ch} {r : Bool}, c.Wf →
    (0 < depth t → sp K + 4 * depth t + 2 < size) →
    Emits D tab H size ⟨.print v :: K, c, r⟩ (txt tab false t) K ∧
    Emits D tab H size ⟨restFrames v ++ K, c, r⟩ (txt tab true t) K
  | .cons ta td, v, hv, hp, K, c, r, hw, hd => by
    cases hv with
    | @cons k ix a d _ _ h ha hd' =>
      have hd := hd (by simp only [depth]; omega)
      have h1 : depth (.cons ta td) ≥ depth ta + 1 ∧ depth (.cons ta td) ≥ depth td := by
        simp only [depth]; omega
      have hpush : pushRest size a d K = some (.print a :: (restFrames d ++ K)) := pushRest_ok (by omega)
      -- the part after the first character
      have hin : ∀ x r, Emits D tab H size ⟨.print a :: (restFrames d ++ K), c.put [x], r⟩
          (txt tab false ta ++ txt tab true td) K := by
        intro x r
        refine Emits.seq (hw.put _) ((emits_value ha hp.1 (hw.put _) ?_).1) (txt_ne hp.2) (fun r => ?_)
        · intro _
          have := restFrames_sp d K
          omega
        · exact (emits_value hd' hp.2 ((hw.put _).put _) (by intro _; omega)).2
      have hne : txt tab false ta ++ txt tab true td ≠ [] := by
        simp [txt_ne (tab := tab) (tail := true) hp.2]
      constructor
      · refine Emits.step (q := ⟨.startList (.ptr .cons k ix) :: K, c, r⟩) ?_ rfl ?_
        · simp only [pstep, Verif.Eq.Val.tag]
          rw [show pushN size 2 [PF.startList (.ptr .cons k ix)] K = some (.startList (.ptr .cons k ix) :: K)
            from if_pos (by omega)]
        · have he := write_eq hw 40
          show Emits D tab H size _ ([40] ++ txt tab false ta ++ txt tab true td) K
          rw [List.append_assoc]
          refine Emits.seq (K := .print a :: (restFrames d ++ K)) hw (Emits.write ?_) hne (fun r => hin _ r)
          simp only [pstep, he, Eq.pairOf, h, hpush]
          cases hf : fits c [40] with
          | true => exact .inl rfl
          | false => exact .inr ⟨rfl, rfl⟩
      · have he := write_eq hw 32
        show Emits D tab H size _ ([32] ++ txt tab false ta ++ txt tab true td) K
        rw [List.append_assoc]
        refine Emits.seq (K := .print a :: (restFrames d ++ K)) hw (Emits.write ?_) hne (fun r => hin _ r)
        simp only [restFrames, Verif.Eq.Val.tag, List.singleton_append, pstep, he, Eq.pairOf, h, hpush]
        rw [if_neg (by simp)]
        cases hf : fits c [32] with
        | true => exact .inl rfl
        | false => exact .inr ⟨rfl, rfl⟩
  | .sym id, v, hv, hp, K, c, r, hw, hd => by
    refine ⟨txt_atom (tab := tab) (t := .sym id) (by simp) ▸ emits_atom hv hp (by simp) hw, ?_⟩
    by_cases hid : id = 0
    · subst hid
      cases hv
      exact emits_end hw
    · have := emits_tail (size := size) hv hp (by simp) (by simpa using hid) (K := K) (r := r) hw
      cases id with
      | zero => exact absurd rfl hid
      | succ id => exact this
  | .num t z, v, hv, hp, K, c, r, hw, hd => ⟨emits_atom hv hp (by simp) hw, emits_tail hv hp (by simp) (by simp) hw⟩
  | .bytes l, v, hv, hp, K, c, r, hw, hd => ⟨emits_atom hv hp (by simp) hw, emits_tail hv hp (by simp) (by simp) hw⟩
  | .arr l, v, hv, hp, K, c, r, hw, hd => hp.elim
  | .obj n, v, hv, hp, K, c, r, hw, hd => hp.elim

theorem prun_ret {n : Nat} {p : P} {c : Ch} {r : Bool} (h : prun D tab H size n p = .ret c r) {f : Nat} (hf : n ≤ f) :
    prun D tab H size f p = .ret c r := by
  obtain ⟨k, rfl⟩ := Nat.le.dest hf
  rw [prun_add, h]

/-- The buffer after printing: as much of the text as fits, followed by zeros; and whether all of it fits. -/
theorem print_text {t : T} {v : Val} (hv : Eq.Rep H v t) (hp : Printable D tab t) (hs : 4 * depth t + 2 < size) {len : Nat}
    (h1 : 1 ≤ len) (h2 : len < 2 ^ 32) :
    ∃ n, ∀ fuel ≥ n, printValue D tab H size len fuel v =
      some ((txt tab false t).take (len - 1) ++ List.replicate (len - min (len - 1) (txt tab false t).length) 0,
        decide ((txt tab false t).length < len)) := by
  have hw : Ch.Wf ⟨[], len, false⟩ := ⟨h1, h2, by simp, rfl⟩
  have hpush : (pushN size 2 [.print v] []).getD [] = [.print v] := by
    rw [show pushN size 2 [.print v] [] = some ([.print v] ++ []) from if_pos (by simp only [sp, List.map_nil, List.sum_nil]; omega)]
    rfl
  have he := (emits_value (size := size) hv hp (K := []) (c := ⟨[], len, false⟩) (r := false) hw
    (by simp only [sp, List.map_nil, List.sum_nil]; omega)).1
  have hret : ∃ n, prun D tab H size n ⟨[.print v], ⟨[], len, false⟩, false⟩ =
      .ret (Ch.put ⟨[], len, false⟩ (txt tab false t)) (fits ⟨[], len, false⟩ (txt tab false t)) := by
    obtain ⟨n, h | ⟨h0, h⟩⟩ := he
    · refine ⟨n + 1, ?_⟩
      rw [prun_add, h]
      rfl
    · exact ⟨n, by rw [h, h0]⟩
  obtain ⟨n, hn⟩ := hret
  refine ⟨n, fun fuel hf => ?_⟩
  unfold printValue
  rw [hpush, prun_ret hn hf]
  simp only [(hw.put _).ok, Ch.put, fits, List.nil_append, List.length_nil, Nat.zero_add, List.length_take, Bool.false_eq_true, if_false]

/-! ## With any print stack -/

/-- The machine writes `t` and is left with the stack `K`, or returns a failure after a part of `t`. -/
def Tries (D : Dev) (tab : Sym.Tab) (H : Heap) (size : Nat) (p : P) (t : List Byte) (K : List PF) : Prop :=
  ∃ n, prun D tab H size n p = .run ⟨K, p.c.put t, fits p.c t⟩ ∨
    ∃ a, a <+: t ∧ prun D tab H size n p = .ret (p.c.put a) false

theorem Emits.tries {p : P} {t : List Byte} {K : List PF} (h : Emits D tab H size p t K) : Tries D tab H size p t K := by
  obtain ⟨n, h | ⟨_, h⟩⟩ := h
  · exact ⟨n, .inl h⟩
  · exact ⟨n, .inr ⟨t, List.prefix_refl t, h⟩⟩

theorem Tries.seq {p : P} (hc : p.c.Wf) {a b : List Byte} {K K' : List PF} (h1 : Tries D tab H size p a K) (hb : b ≠ [])
    (h2 : ∀ r, Tries D tab H size ⟨K, p.c.put a, r⟩ b K') : Tries D tab H size p (a ++ b) K' := by
  obtain ⟨n, h1 | ⟨x, h0, h1⟩⟩ := h1
  · obtain ⟨m, h2 | ⟨y, h0, h2⟩⟩ := h2 (fits p.c a)
    · refine ⟨n + m, .inl ?_⟩
      rw [prun_add, h1]
      simp only
      rw [h2, put_put, fits_append' hc a hb]
    · refine ⟨n + m, .inr ⟨a ++ y, List.prefix_append_right_inj a |>.2 h0, ?_⟩⟩
      rw [prun_add, h1]
      simp only
      rw [h2, put_put]
  · exact ⟨n, .inr ⟨x, h0.trans (List.prefix_append a b), h1⟩⟩

theorem Tries.step {p q : P} {t : List Byte} {K : List PF} (h : pstep D tab H size p = .run q) (hq : q.c = p.c)
    (h2 : Tries D tab H size q t K) : Tries D tab H size p t K := by
  obtain ⟨n, h2⟩ := h2
  refine ⟨n + 1, ?_⟩
  simp only [prun, h]
  rw [← hq]
  exact h2

theorem Tries.fail {p : P} {a t : List Byte} {K : List PF} (ha : a <+: t) (h : pstep D tab H size p = .ret (p.c.put a) false) :
    Tries D tab H size p t K := ⟨1, .inr ⟨a, ha, by simp only [prun, h]⟩⟩

/-- Pushing the rest of a list fails, or leaves room for a list. -/
theorem pushRest_cases (a d : Val) (s : List PF) : pushRest size a d s = none ∨
    (pushRest size a d s = some (.print a :: (restFrames d ++ s)) ∧ sp (restFrames d ++ s) + 2 < size) := by
  have h1 : ∀ x, pushN size 2 [.print a] x = none ∨ (pushN size 2 [.print a] x = some (.print a :: x) ∧ sp x + 2 < size) := by
    intro x
    by_cases hx : sp x + 2 < size
    · exact .inr ⟨if_pos hx, hx⟩
    · exact .inl (if_neg hx)
  unfold pushRest restFrames
  cases hd : d.tag with
  | cons =>
    simp only
    by_cases h : sp s + 2 < size
    · rw [show pushN size 2 [PF.contList d] s = some ([.contList d] ++ s) from if_pos h]
      exact h1 _
    · rw [show pushN size 2 [PF.contList d] s = none from if_neg h]
      exact .inl rfl
  | _ =>
    simp only
    split
    · by_cases h : sp s = size
      · rw [show push1 size .endList s = none from if_pos h]
        exact .inl rfl
      · rw [show push1 size .endList s = some ([.endList] ++ s) from if_neg h]
        exact h1 _
    · by_cases h : sp s + 4 < size
      · rw [show pushN size 4 [.dot, .print d, .endList] s = some ([.dot, .print d, .endList] ++ s) from if_pos h]
        exact h1 _
      · rw [show pushN size 4 [.dot, .print d, .endList] s = none from if_neg h]
        exact .inl rfl

theorem tries_value : ∀ {t : T} {v : Val}, Eq.Rep H v t → Printable D tab t → ∀ {K : List PF} {c : Ch} {r : Bool}, c.Wf →
    (sp K + 2 < size → Tries D tab H size ⟨.print v :: K, c, r⟩ (txt tab false t) K) ∧
    Tries D tab H size ⟨restFrames v ++ K, c, r⟩ (txt tab true t) K
  | .cons ta td, v, hv, hp, K, c, r, hw => by
    cases hv with
    | @cons k ix a d _ _ h ha hd' =>
      have hin : sp (restFrames d ++ K) + 2 < size → ∀ x r, Tries D tab H size ⟨.print a :: (restFrames d ++ K), c.put [x], r⟩
          (txt tab false ta ++ txt tab true td) K := by
        intro hsp x r
        exact Tries.seq (hw.put _) ((tries_value ha hp.1 (hw.put _)).1 hsp) (txt_ne hp.2) fun r =>
          (tries_value hd' hp.2 ((hw.put _).put _)).2
      have hne : txt tab false ta ++ txt tab true td ≠ [] := by
        simp [txt_ne (tab := tab) (tail := true) hp.2]
      constructor
      · intro hK
        refine Tries.step (q := ⟨.startList (.ptr .cons k ix) :: K, c, r⟩) ?_ rfl ?_
        · simp only [pstep, Verif.Eq.Val.tag]
          rw [show pushN size 2 [PF.startList (.ptr .cons k ix)] K = some (.startList (.ptr .cons k ix) :: K)
            from if_pos hK]
        · have he := write_eq hw 40
          show Tries D tab H size _ ([40] ++ txt tab false ta ++ txt tab true td) K
          rw [List.append_assoc]
          rcases pushRest_cases (size := size) a d K with hpush | ⟨hpush, hsp⟩
          · refine Tries.fail (List.prefix_append [40] _) ?_
            simp only [pstep, he, Eq.pairOf, h, hpush]
            cases hf : fits c [40] <;> rfl
          · refine Tries.seq (K := .print a :: (restFrames d ++ K)) hw (Emits.tries (Emits.write ?_)) hne (fun r => hin hsp _ r)
            simp only [pstep, he, Eq.pairOf, h, hpush]
            cases hf : fits c [40] with
            | true => exact .inl rfl
            | false => exact .inr ⟨rfl, rfl⟩
      · have he := write_eq hw 32
        show Tries D tab H size _ ([32] ++ txt tab false ta ++ txt tab true td) K
        rw [List.append_assoc]
        rcases pushRest_cases (size := size) a d K with hpush | ⟨hpush, hsp⟩
        · refine Tries.fail (List.prefix_append [32] _) ?_
          simp only [restFrames, Verif.Eq.Val.tag, List.singleton_append, pstep, he, Eq.pairOf, h, hpush]
          rw [if_neg (by simp)]
          cases hf : fits c [32] <;> rfl
        · refine Tries.seq (K := .print a :: (restFrames d ++ K)) hw (Emits.tries (Emits.write ?_)) hne (fun r => hin hsp _ r)
          simp only [restFrames, Verif.Eq.Val.tag, List.singleton_append, pstep, he, Eq.pairOf, h, hpush]
          rw [if_neg (by simp)]
          cases hf : fits c [32] with
          | true => exact .inl rfl
          | false => exact .inr ⟨rfl, rfl⟩
  | .sym id, v, hv, hp, K, c, r, hw =>
    have := emits_value (size := size) (K := K) (r := r) hv hp hw (fun h => absurd h (by simp [depth]))
    ⟨fun _ => this.1.tries, this.2.tries⟩
  | .num t z, v, hv, hp, K, c, r, hw =>
    have := emits_value (size := size) (K := K) (r := r) hv hp hw (fun h => absurd h (by simp [depth]))
    ⟨fun _ => this.1.tries, this.2.tries⟩
  | .bytes l, v, hv, hp, K, c, r, hw =>
    have := emits_value (size := size) (K := K) (r := r) hv hp hw (fun h => absurd h (by simp [depth]))
    ⟨fun _ => this.1.tries, this.2.tries⟩
  | .arr l, v, hv, hp, K, c, r, hw => hp.elim
  | .obj n, v, hv, hp, K, c, r, hw => hp.elim

/-- Printing with any print stack: the text as far as there is room, or failure after a part of the text. -/
theorem print_tries {t : T} {v : Val} (hv : Eq.Rep H v t) (hp : Printable D tab t) {len : Nat} (h1 : 1 ≤ len) (h2 : len < 2 ^ 32) :
    ∃ n a ok, a <+: txt tab false t ∧ a.length < len ∧ (ok = true → a = txt tab false t) ∧
      ∀ fuel ≥ n, printValue D tab H size len fuel v = some (a ++ List.replicate (len - a.length) 0, ok) := by
  have hw : Ch.Wf ⟨[], len, false⟩ := ⟨h1, h2, by simp, rfl⟩
  by_cases hs : 2 < size
  · have hpush : (pushN size 2 [.print v] []).getD [] = [.print v] := by
      rw [show pushN size 2 [.print v] [] = some ([.print v] ++ []) from if_pos (by simp only [sp, List.map_nil, List.sum_nil]; omega)]
      rfl
    have he := (tries_value (size := size) hv hp (K := []) (c := ⟨[], len, false⟩) (r := false) hw).1
      (by simp only [sp, List.map_nil, List.sum_nil]; omega)
    have hret : ∃ n x ok, x <+: txt tab false t ∧ (ok = true → x = txt tab false t ∧ x.length < len) ∧
        prun D tab H size n ⟨[.print v], ⟨[], len, false⟩, false⟩ = .ret (Ch.put ⟨[], len, false⟩ x) ok := by
      obtain ⟨n, h | ⟨x, h0, h⟩⟩ := he
      · refine ⟨n + 1, _, fits ⟨[], len, false⟩ (txt tab false t), List.prefix_refl _, fun hf => ⟨rfl, ?_⟩, ?_⟩
        · have := of_decide_eq_true hf
          simpa using this
        · rw [prun_add, h]
          rfl
      · exact ⟨n, x, false, h0, (by simp), h⟩
    obtain ⟨n, x, ok, hx, hok, hn⟩ := hret
    refine ⟨n, x.take (len - 1), ok, (List.take_prefix _ _).trans hx, by rw [List.length_take]; omega, ?_, fun fuel hf => ?_⟩
    · intro h
      obtain ⟨e, hl⟩ := hok h
      rw [List.take_of_length_le (by omega), e]
    · unfold printValue
      rw [hpush, prun_ret hn hf]
      simp only [Ch.put, List.nil_append, Bool.false_eq_true, if_false]
  · refine ⟨1, [], false, List.nil_prefix, by rw [List.length_nil]; omega, (by simp), fun fuel hf => ?_⟩
    obtain ⟨k, rfl⟩ := Nat.exists_eq_add_of_le hf
    unfold printValue
    rw [show pushN size 2 [.print v] [] = none from if_neg (by simp only [sp, List.map_nil, List.sum_nil]; omega)]
    rw [Nat.add_comm]
    rfl

end Verif.Print
