import Verif.Str.Find
import Verif.Str.ConvModel
import Verif.Print.Reader

/-!
# Numbers and text, to-str
-/

namespace Verif.Str

open Verif.Val (Build payload)
open Verif.Arith

variable {b : Build} {F : FOps} {S : Type} {A : Alloc S}

theorem intText_eq (z : Int) : Print.intText z = decimal z := by
  unfold Print.intText decimal
  cases z with
  | ofNat n =>
    rw [if_neg (by simp)]
    show Print.decText n = ascii (Nat.repr n)
    rw [Print.decText_eq]; rfl
  | negSucc n =>
    rw [if_pos (by omega)]
    have : toString (Int.negSucc n) = "-" ++ Nat.repr (n + 1) := rfl
    rw [this, Print.decText_eq]
    simp [ascii, Print.digits10, Tok.ascii]

theorem i32_toInt {z : Int} (h1 : -2 ^ 31 ≤ z) (h2 : z < 2 ^ 31) : (BitVec.ofInt 32 z).toInt = z := by
  rw [BitVec.toInt_ofInt, Int.bmod_eq_of_le]
  all_goals (simp; try omega)

theorem decimal_length {z : Int} (h1 : -2 ^ 31 ≤ z) (h2 : z < 2 ^ 31) : (decimal z).length ≤ 11 := by
  rw [← intText_eq]
  unfold Print.intText
  have := Print.digits10_length 9 z.natAbs (by omega)
  rw [Print.decText_eq]
  split <;> simp <;> omega

theorem strFromN_eq {fmtG : Num b → List Byte} {s : S} {n : Num b} (hn : n.ty.int = true) (h1 : -2 ^ 31 ≤ n.val) (h2 : n.val < 2 ^ 31) :
    Gives A s (decimal n.val) (strFromN F A fmtG s [(.v (.num n) : Arg b)]) := by
  have e : decAsI32 F (.num n) = BitVec.ofInt 32 n.val := decAsI32_eq F n hn
  have hl := decimal_length h1 h2
  have key : strFromN F A fmtG s [(.v (.num n) : Arg b)] =
      (match A.arr s ((decimal n.val).length + 1) with
      | none => (merror : Option (Arg b))
      | some _ => (memcpy (zeros ((decimal n.val).length + 1)) 0 (decimal n.val ++ [0]) (decimal n.val).length).bind fun d =>
          (writeAt d (decimal n.val).length [0]).map .arr) := by
    have hm : min (decimal n.val).length 100 = (decimal n.val).length := by omega
    have ht : (decimal n.val).take 99 = decimal n.val := List.take_of_length_le (by omega)
    cases n <;> first
      | (simp [Num.ty, Ty.int] at hn; done)
      | (simp only [strFromN]; rw [e, i32_toInt h1 h2, intText_eq, hm, ht]; cases A.arr s _ <;> rfl)
  rw [key]
  have := gives_fill (A := A) (b := b) (s := s) (d := decimal n.val ++ [0]) (n := (decimal n.val).length) (by simp)
  rwa [List.take_left] at this

/-! ## str-to-i -/

/-- The value of digits in a base. -/
def value (base : Nat) (ds : List Byte) : Nat := ds.foldl (fun a c => a * base + digitVal c) 0

theorem digitsVal_eq {base : Nat} {ds : List Byte} (h : ∀ c ∈ ds, digitVal c < base) (acc : Nat) :
    digitsVal base ds acc = ds.foldl (fun a c => a * base + digitVal c) acc := by
  induction ds generalizing acc with
  | nil => rfl
  | cons x t ih =>
    unfold digitsVal
    rw [if_pos (h x (by simp)), ih (fun c hc => h c (by simp [hc]))]; rfl

theorem digit_not_special : ∀ x : Byte, digitVal x < 36 → isspace x = false ∧ x ≠ 45 ∧ x ≠ 43 ∧ x ≠ 0 := by decide +kernel

theorem x_not_hex : ¬ digitVal (120 : Byte) < 16 ∧ ¬ digitVal (88 : Byte) < 16 := by decide +kernel

/-- A sign. -/
inductive Sign where
  | plus | minus | none
  deriving DecidableEq

def Sign.text : Sign → List Byte
  | .plus => ascii "+"
  | .minus => ascii "-"
  | .none => []

def Sign.of (s : Sign) (v : Int) : Int := if s = .minus then -v else v

theorem signOf_digit {x : Byte} {t : List Byte} (h1 : x ≠ 45) (h2 : x ≠ 43) : signOf (x :: t) = (false, x :: t) := by
  unfold signOf
  split
  · rename_i e; simp only [List.cons.injEq] at e; exact absurd e.1 h1
  · rename_i e; simp only [List.cons.injEq] at e; exact absurd e.1 h2
  · rfl

theorem signOf_eq (sg : Sign) {x : Byte} {t : List Byte} (h : digitVal x < 36) :
    signOf ((sg.text ++ x :: t).dropWhile isspace) = (decide (sg = .minus), x :: t) := by
  obtain ⟨h0, h1, h2, _⟩ := digit_not_special x h
  cases sg with
  | plus => rfl
  | minus => rfl
  | none =>
    simp only [Sign.text, List.nil_append]
    rw [List.dropWhile_cons_of_neg (by simp [h0]), signOf_digit h1 h2]
    rfl

theorem baseOf_given {base : Nat} (hb : 2 ≤ base) (hb2 : base ≤ 36) {c : List Byte} (h : ∀ x ∈ c, digitVal x < base) : baseOf base c = (base, c) := by
  unfold baseOf
  split
  · rename_i x d t
    have hx := h x (by simp)
    rw [if_neg, if_neg (by omega)]
    rintro ⟨h1, h2, h3⟩
    have : base = 16 := by omega
    subst this
    rcases h2 with e | e <;> subst e
    · exact x_not_hex.1 hx
    · exact x_not_hex.2 hx
  · rw [if_neg (by omega)]
  · rw [if_neg (by omega)]

/-- Digits in the given base. -/
theorem strtol_digits {w : Nat} {base : Nat} (hb : 2 ≤ base) (hb2 : base ≤ 36) (sg : Sign) {ds : List Byte} (hne : ds ≠ []) (h : ∀ c ∈ ds, digitVal c < base)
    (hv : -2 ^ (w - 1) ≤ sg.of (value base ds) ∧ sg.of (value base ds) < 2 ^ (w - 1)) :
    strtol w (sg.text ++ ds) base = sg.of (value base ds) := by
  cases ds with
  | nil => exact absurd rfl hne
  | cons x t =>
    unfold strtol
    rw [if_neg (by omega)]
    have hx : digitVal x < 36 := by have := h x (by simp); omega
    simp only [signOf_eq sg hx, Int.toNat_natCast, baseOf_given hb hb2 h, digitsVal_eq h 0]
    have e : (if decide (sg = .minus) = true then -((List.foldl (fun a c => a * base + digitVal c) 0 (x :: t) : Nat) : Int)
        else ((List.foldl (fun a c => a * base + digitVal c) 0 (x :: t) : Nat) : Int)) = sg.of (value base (x :: t)) := by
      simp only [decide_eq_true_eq]; rfl
    rw [e]
    omega

theorem digitVal_dec : ∀ d : Fin 10, digitVal (BitVec.ofNat 8 (48 + d.1)) = d.1 := by decide +kernel

theorem digits10_value (n : Nat) : (∀ c ∈ Print.digits10 n, digitVal c < 10) ∧ value 10 (Print.digits10 n) = n := by
  induction n using Nat.strongRecOn with
  | ind n ih =>
    by_cases h : n < 10
    · rw [Print.digits10_lt h]
      have := digitVal_dec ⟨n, h⟩
      simp only at this
      refine ⟨fun c hc => ?_, ?_⟩
      · rw [List.mem_singleton.1 hc, this]; exact h
      · simp [value, this]
    · have hi := ih (n / 10) (by omega)
      have := digitVal_dec ⟨n % 10, Nat.mod_lt _ (by omega)⟩
      simp only at this
      rw [Print.digits10_ge (by omega)]
      refine ⟨fun c hc => ?_, ?_⟩
      · rcases List.mem_append.1 hc with hc | hc
        · exact hi.1 c hc
        · rw [List.mem_singleton.1 hc, this]; omega
      · have e : value 10 (Print.digits10 (n / 10) ++ [BitVec.ofNat 8 (48 + n % 10)]) =
            value 10 (Print.digits10 (n / 10)) * 10 + digitVal (BitVec.ofNat 8 (48 + n % 10)) := by simp [value]
        rw [e, hi.2, this]
        omega

/-- The decimal text of a positive number does not begin with a zero. -/
theorem digits10_head (n : Nat) (h0 : 0 < n) : ∃ x t, Print.digits10 n = x :: t ∧ x ≠ 48 := by
  induction n using Nat.strongRecOn with
  | ind n ih =>
    by_cases h : n < 10
    · refine ⟨BitVec.ofNat 8 (48 + n), [], Print.digits10_lt h, ?_⟩
      intro e
      have := congrArg BitVec.toNat e
      rw [BitVec.toNat_ofNat, Nat.mod_eq_of_lt (by omega)] at this
      have h48 : (48 : Byte).toNat = 48 := rfl
      rw [h48] at this
      omega
    · obtain ⟨x, t, e, hx⟩ := ih (n / 10) (by omega) (by omega)
      exact ⟨x, t ++ [BitVec.ofNat 8 (48 + n % 10)], by rw [Print.digits10_ge (by omega), e]; rfl, hx⟩

theorem decimal_sign (z : Int) : decimal z = (if z < 0 then Sign.minus else Sign.none).text ++ Print.digits10 z.natAbs := by
  rw [← intText_eq]
  unfold Print.intText
  rw [Print.decText_eq]
  split <;> rfl

theorem baseOf_zero {x : Byte} {t : List Byte} (h : x ≠ 48) : baseOf 0 (x :: t) = (10, x :: t) := by
  unfold baseOf
  split
  · rename_i e; simp only [List.cons.injEq] at e; exact absurd e.1 h
  · rename_i e; simp only [List.cons.injEq] at e; exact absurd e.1 h
  · rw [if_pos rfl]

theorem strtol_decimal {w : Nat} {z : Int} (hw : -2 ^ (w - 1) ≤ z ∧ z < 2 ^ (w - 1)) {base : Nat} (hb : base = 0 ∨ base = 10) :
    strtol w (decimal z) base = z := by
  obtain ⟨hd, hv⟩ := digits10_value z.natAbs
  have hs : (if z < 0 then Sign.minus else Sign.none).of (z.natAbs : Int) = z := by
    unfold Sign.of
    by_cases h : z < 0
    · rw [if_pos h, if_pos rfl]; omega
    · rw [if_neg h, if_neg (by simp)]; omega
  rcases hb with rfl | rfl
  · rw [decimal_sign]
    by_cases hz : z = 0
    · subst hz
      have hp : (0 : Int) < 2 ^ (w - 1) := Int.pow_pos (by omega)
      have e : Sign.none.text ++ Print.digits10 (0 : Int).natAbs = [48] := by
        rw [show (0 : Int).natAbs = 0 from rfl, Print.digits10_lt (by omega)]; rfl
      rw [if_neg (by omega), e]
      have e2 : strtol w [48] 0 = max (-2 ^ (w - 1)) (min (2 ^ (w - 1) - 1) 0) := rfl
      show strtol w [48] 0 = 0
      rw [e2]
      omega
    · obtain ⟨x, t, e, hx⟩ := digits10_head z.natAbs (by omega)
      rw [e] at hd hv ⊢
      unfold strtol
      rw [if_neg (by omega)]
      have hx36 : digitVal x < 36 := by have := hd x (by simp); omega
      have h0 : ((0 : Nat) : Int).toNat = 0 := rfl
      simp only [signOf_eq _ hx36, h0, baseOf_zero hx, digitsVal_eq hd 0]
      have hv' : List.foldl (fun a c => a * 10 + digitVal c) 0 (x :: t) = z.natAbs := hv
      rw [hv']
      by_cases h : z < 0
      · simp [h]; omega
      · simp [h]; omega
  · have := strtol_digits (w := w) (base := 10) (by omega) (by omega) (if z < 0 then .minus else .none) (Print.digits10_ne z.natAbs) hd
      (by rw [hv, hs]; exact hw)
    rw [hv, hs, ← decimal_sign] at this
    exact this

theorem decimal_no_zero (z : Int) : 0 ∉ decimal z := by
  rw [decimal_sign]
  intro h
  rcases List.mem_append.1 h with h | h
  · split at h
    · simp [Sign.text, ascii] at h
    · simp [Sign.text] at h
  · exact Print.digits10_ne_zero _ h

theorem enc_isI32 {z : Int} (h1 : -2 ^ 31 ≤ z) (h2 : z < 2 ^ 31) : ∃ n : Num b, Arith.enc true (.i32 (BitVec.ofInt 32 z) : Num b) = .num n ∧ n.ty = .i32 ∧ n.val = z :=
  ⟨.i32 (BitVec.ofInt 32 z), enc_ok _, rfl, i32_toInt h1 h2⟩

/-! ## to-str -/

/-- The texts one after another; the delimiter is left out before the first character. -/
def glued (delim : List Byte) (acc : List Byte) : List (List Byte) → List Byte
  | [] => acc
  | t :: ts => glued delim (if acc = [] then t else acc ++ delim ++ t) ts

theorem glued_join {delim : List Byte} : ∀ {ts : List (List Byte)} {acc : List Byte}, acc ≠ [] → glued delim acc ts = List.intercalate delim (acc :: ts) := by
  intro ts
  induction ts with
  | nil => intro acc h; simp [glued, List.intercalate]
  | cons t ts ih =>
    intro acc h
    unfold glued
    rw [if_neg h, ih (by simp [h])]
    cases ts <;> simp [List.intercalate]

theorem glued_take {delim : List Byte} (ts : List (List Byte)) : ∀ {acc acc' : List Byte} {n : Nat}, acc' ≠ [] → acc ≠ [] → n ≤ acc'.length → n ≤ acc.length → acc.take n = acc'.take n →
    (glued delim acc ts).take n = acc'.take n := by
  induction ts with
  | nil => intro acc acc' n _ _ _ _ h; exact h
  | cons t ts ih =>
    intro acc acc' n h' h0 hn hn2 h
    unfold glued
    rw [if_neg h0]
    refine ih h' (by simp [h0]) hn (by simp; omega) ?_
    rw [List.append_assoc, List.take_append_of_le_length hn2, h]

theorem glued_length (delim : List Byte) (ts : List (List Byte)) : ∀ (acc : List Byte), acc ≠ [] → acc.length ≤ (glued delim acc ts).length := by
  induction ts with
  | nil => intro acc _; exact Nat.le_refl _
  | cons t ts ih =>
    intro acc h
    unfold glued
    rw [if_neg h]
    have := ih (acc ++ delim ++ t) (by simp [h])
    simp only [List.length_append] at this
    omega

/-- The buffer of `to_str`: the text so far, a zero and the rest. -/
def Holds (buf : List Byte) (t : List Byte) : Prop := buf.length = 300 ∧ t.length < 300 ∧ ∃ r, buf = t ++ 0 :: r

theorem writeAt_some {p e r d : List Byte} (h : e.length = d.length) : writeAt (p ++ e ++ r) p.length d = some (p ++ d ++ r) := writeAt_eq h

theorem snprintfAt_eq {p r t : List Byte} {x : Byte} {max : Nat} (hl : (p ++ x :: r).length = p.length + max + 1) (hm : 0 < max) :
    ∃ r', snprintfAt (p ++ x :: r) p.length max t = some (p ++ t.take (max - 1) ++ 0 :: r') ∧ (p ++ t.take (max - 1) ++ 0 :: r').length = (p ++ x :: r).length := by
  unfold snprintfAt
  rw [if_neg (by omega)]
  have h1 : (t.take (max - 1) ++ [0]).length ≤ (x :: r).length := by
    simp only [List.length_append, List.length_take, List.length_cons, List.length_nil] at hl ⊢; omega
  generalize ht : t.take (max - 1) ++ [0] = u at h1
  have e : p ++ x :: r = p ++ (x :: r).take u.length ++ (x :: r).drop u.length := by rw [List.append_assoc, List.take_append_drop]
  have h2 := writeAt_eq (p := p) (e := (x :: r).take u.length) (r := (x :: r).drop u.length) (d := u) (by rw [List.length_take]; omega)
  rw [← e] at h2
  refine ⟨(x :: r).drop u.length, ?_, ?_⟩
  · rw [h2, ← ht]; simp
  · have e3 : p ++ t.take (max - 1) ++ 0 :: (x :: r).drop u.length = p ++ u ++ (x :: r).drop u.length := by rw [← ht]; simp
    rw [e3]
    simp only [List.length_append, List.length_drop]; omega

/-- The state of the loop: `ofs` is the length of the text as long as it fits, 299 when it has been cut off. -/
structure Loop (ofs : Nat) (buf full : List Byte) : Prop where
  len : buf.length = 300
  fits : full.length < 299 → ofs = full.length ∧ (full ≠ [] → ∃ r, buf = full ++ 0 :: r)
  cut : 299 ≤ full.length → ofs = 299 ∧ ∃ r, buf = full.take 298 ++ 0 :: r

theorem toStrLoop_eq {pr : Arg b → List Byte} {delim : List Byte} : ∀ (args : List (Arg b)), (∀ a ∈ args, pr a ≠ []) → ∀ {ofs : Nat} {buf full : List Byte}, Loop ofs buf full →
    ∃ ofs' buf', toStrLoop pr delim args ofs buf = some (ofs', buf') ∧ Loop ofs' buf' (glued delim full (args.map pr)) := by
  intro args
  induction args with
  | nil => intro _ ofs buf full h; exact ⟨ofs, buf, rfl, h⟩
  | cons a t ih =>
    intro hne ofs buf full h
    have hpa : pr a ≠ [] := hne a (by simp)
    have hpl : 0 < (pr a).length := by cases hp : pr a; exact absurd hp hpa; simp
    have hne' : ∀ a ∈ t, pr a ≠ [] := fun a ha => hne a (by simp [ha])
    unfold toStrLoop
    simp only [List.map_cons, glued]
    by_cases hcut : 299 ≤ full.length
    · obtain ⟨ho, r, hb⟩ := h.cut hcut
      subst ho
      have hf0 : full ≠ [] := by intro e; subst e; simp at hcut
      have hs : ∀ t, snprintfAt buf 299 (300 - 299 - 1) t = some buf := fun t => rfl
      rw [hs, Option.bind_some, if_neg hf0]
      have e : (if (if (299 : Nat) = 0 then pr a else delim ++ pr a).length ≥ 300 - 299 - 1 then 299 + (300 - 299 - 1)
          else 299 + (if (299 : Nat) = 0 then pr a else delim ++ pr a).length) = 299 := by simp
      rw [e]
      refine ih hne' ⟨h.len, ?_, ?_⟩
      · intro hl; simp only [List.length_append] at hl; omega
      · intro _
        refine ⟨rfl, r, ?_⟩
        rw [hb, List.append_assoc, List.take_append_of_le_length (by omega)]
    · obtain ⟨ho, hb⟩ := h.fits (by omega)
      subst ho
      -- the text that is added
      have hif : (if full.length = 0 then pr a else delim ++ pr a) = (if full = [] then pr a else delim ++ pr a) := by
        cases full <;> simp
      have hnew : (if full = [] then pr a else full ++ delim ++ pr a) = full ++ (if full = [] then pr a else delim ++ pr a) := by
        cases full <;> simp
      rw [hif, hnew]
      generalize hu : (if full = [] then pr a else delim ++ pr a) = u
      have hul : 0 < u.length := by rw [← hu]; split; exact hpl; simp; omega
      have hbuf : ∃ x r, buf = full ++ x :: r := by
        by_cases hf : full = []
        · subst hf
          have := h.len
          cases buf with
          | nil => simp at this
          | cons x r => exact ⟨x, r, rfl⟩
        · obtain ⟨r, hr⟩ := hb hf; exact ⟨0, r, hr⟩
      obtain ⟨x, r, hx⟩ := hbuf
      have hlen := h.len
      rw [hx] at hlen
      obtain ⟨r', e1, e2⟩ := snprintfAt_eq (p := full) (x := x) (r := r) (t := u) (max := 300 - full.length - 1) (by rw [hlen]; omega) (by omega)
      rw [hx, e1, Option.bind_some]
      refine ih hne' ⟨by rw [e2, hlen], ?_, ?_⟩
      · intro hl
        simp only [List.length_append] at hl
        have ht : u.take (300 - full.length - 1 - 1) = u := List.take_of_length_le (by omega)
        refine ⟨?_, fun _ => ⟨r', by rw [ht]⟩⟩
        rw [if_neg (by omega), List.length_append]
      · intro hl
        simp only [List.length_append] at hl
        refine ⟨by rw [if_pos (by omega)]; omega, r', ?_⟩
        congr 1
        rw [List.take_append, List.take_of_length_le (l := full) (i := 298) (by omega)]
        congr 2
        omega

end Verif.Str
