import Verif.Str.Spec
import Verif.Arith.Lemmas

/-!
# Lemmas about the C library functions
-/

namespace Verif.Str

open Verif.Val (Build payload)
open Verif.Arith

variable {b : Build} {F : FOps} {S : Type} {A : Alloc S}

theorem text_nil : text [] = [] := rfl
theorem text_zero (t : List Byte) : text (0 :: t) = [] := by simp [text]
theorem text_cons {x : Byte} (h : x ≠ 0) (t : List Byte) : text (x :: t) = x :: text t :=
  List.takeWhile_cons_of_pos (by simpa using h)

theorem text_length_le (d : List Byte) : (text d).length ≤ d.length := by
  unfold text
  have := List.takeWhile_append_dropWhile (p := fun x : Byte => decide (x ≠ 0)) (l := d)
  have h2 := congrArg List.length this
  rw [List.length_append] at h2
  omega

theorem text_not_zero {d : List Byte} {x : Byte} (h : x ∈ text d) : x ≠ 0 := by
  induction d with
  | nil => cases h
  | cons y t ih =>
    by_cases hy : y = 0
    · subst hy; rw [text_zero] at h; cases h
    · rw [text_cons hy] at h
      rcases List.mem_cons.1 h with e | e
      · exact e ▸ hy
      · exact ih e

/-- An array is its text, a zero and the rest; or it is its text. -/
theorem split_text (d : List Byte) (h : 0 ∈ d) : ∃ r, d = text d ++ 0 :: r := by
  induction d with
  | nil => simp at h
  | cons x t ih =>
    by_cases hx : x = 0
    · subst hx; exact ⟨t, by rw [text_zero]; rfl⟩
    · rw [text_cons hx]
      obtain ⟨r, hr⟩ := ih (by rcases List.mem_cons.1 h with h | h; exact absurd h.symm hx; exact h)
      exact ⟨r, by rw [List.cons_append, ← hr]⟩

theorem text_of_not_mem {d : List Byte} (h : 0 ∉ d) : text d = d := by
  induction d with
  | nil => rfl
  | cons x t ih =>
    rw [text_cons (fun e => h (by simp [e])), ih (fun h' => h (List.mem_cons_of_mem _ h'))]

theorem text_append {t r : List Byte} (h : 0 ∉ t) : text (t ++ 0 :: r) = t := by
  induction t with
  | nil => exact text_zero r
  | cons x t ih =>
    have hx : x ≠ 0 := fun e => h (by simp [e])
    rw [List.cons_append, text_cons hx, ih (fun h' => h (List.mem_cons_of_mem _ h'))]

theorem text_prefix (d : List Byte) : text d <+: d := List.takeWhile_prefix _

theorem take_text (d : List Byte) : d.take (text d).length = text d := (List.prefix_iff_eq_take.1 (text_prefix d)).symm

theorem zero_not_mem_text (d : List Byte) : 0 ∉ text d := fun h => text_not_zero h rfl

theorem text_lt {d : List Byte} (h : 0 ∈ d) : (text d).length < d.length := by
  obtain ⟨r, hr⟩ := split_text d h
  have := congrArg List.length hr
  simp only [List.length_append, List.length_cons] at this
  omega

theorem drop_text {d : List Byte} {k : Nat} (h : k ≤ (text d).length) : text (d.drop k) = (text d).drop k := by
  induction k generalizing d with
  | zero => simp
  | succ k ih =>
    cases d with
    | nil => simp [text_nil]
    | cons x t =>
      by_cases hx : x = 0
      · subst hx; rw [text_zero] at h; simp at h
      · rw [text_cons hx] at h ⊢
        simp only [List.drop_succ_cons]
        exact ih (by simpa using h)

theorem mem_drop {d : List Byte} (h : 0 ∈ d) {k : Nat} (hk : k ≤ (text d).length) : 0 ∈ d.drop k := by
  obtain ⟨r, hr⟩ := split_text d h
  rw [hr, List.drop_append_of_le_length hk]
  simp

theorem strlenMax_eq (d : List Byte) : strlenMax d d.length = some (text d).length := by
  induction d with
  | nil => rfl
  | cons x t ih =>
    simp only [List.length_cons, strlenMax]
    by_cases hx : x = 0
    · subst hx; rw [text_zero]; rfl
    · rw [if_neg hx, ih, text_cons hx]; rfl

theorem cstr_eq {d : List Byte} (h : 0 ∈ d) : cstr d = some (text d) := by
  induction d with
  | nil => simp at h
  | cons x t ih =>
    unfold cstr
    by_cases hx : x = 0
    · subst hx; rw [text_zero]; rfl
    · rw [if_neg hx, ih (by rcases List.mem_cons.1 h with h | h; exact absurd h.symm hx; exact h), text_cons hx]; rfl

theorem cstr_none {d : List Byte} (h : 0 ∉ d) : cstr d = none := by
  induction d with
  | nil => rfl
  | cons x t ih =>
    unfold cstr
    rw [if_neg (fun e => h (by simp [e])), ih (fun h' => h (List.mem_cons_of_mem _ h'))]; rfl

theorem strlen_eq {d : List Byte} (h : 0 ∈ d) : strlen d = some (text d).length := by simp [strlen, cstr_eq h]

theorem readN_eq {d : List Byte} {n : Nat} (h : n ≤ d.length) : readN d n = some (d.take n) := if_pos h

theorem writeAt_eq {p r d e : List Byte} (h : e.length = d.length) : writeAt (p ++ e ++ r) p.length d = some (p ++ d ++ r) := by
  unfold writeAt
  rw [if_pos (by simp only [List.length_append]; omega)]
  congr 1
  rw [List.append_assoc p e r, List.take_left]
  congr 1
  rw [← List.append_assoc, ← h, ← List.length_append]
  exact List.drop_left

theorem writeAt_zeros {p d : List Byte} {n : Nat} (h : d.length ≤ n) :
    writeAt (p ++ zeros n) p.length d = some (p ++ d ++ zeros (n - d.length)) := by
  have : zeros n = zeros d.length ++ zeros (n - d.length) := by
    unfold zeros
    rw [List.replicate_append_replicate]
    congr 1; omega
  rw [this, ← List.append_assoc]
  exact writeAt_eq (by simp [zeros])

theorem writeAt_zeros0 {d : List Byte} {n : Nat} (h : d.length ≤ n) : writeAt (zeros n) 0 d = some (d ++ zeros (n - d.length)) := by
  have := writeAt_zeros (p := []) h
  simpa using this

/-- Copying `n` bytes to a new array of `n + 1` bytes and terminating it. -/
theorem fill_eq {d : List Byte} {n : Nat} (h : n ≤ d.length) :
    ((memcpy (zeros (n + 1)) 0 d n).bind fun buf => (writeAt buf n [0])) = some (d.take n ++ [0]) := by
  have hl : (d.take n).length = n := by simp [h]
  rw [memcpy, readN_eq h, Option.bind_some, writeAt_zeros0 (by omega), Option.bind_some, hl]
  have : n + 1 - n = 1 := by omega
  rw [this]
  have := writeAt_zeros (p := d.take n) (d := [0]) (n := 1) (by simp)
  rw [hl] at this
  rw [this]
  simp [zeros]

theorem spanLen_eq {p : Byte → Bool} {d : List Byte} (h : ∃ x ∈ d, p x = false) : spanLen p d = some (d.takeWhile p).length := by
  induction d with
  | nil => simp at h
  | cons x t ih =>
    unfold spanLen
    by_cases hx : p x = true
    · rw [if_pos hx, ih (by obtain ⟨y, hy, h'⟩ := h; rcases List.mem_cons.1 hy with e | e; subst e; rw [hx] at h'; cases h'; exact ⟨y, e, h'⟩),
        List.takeWhile_cons_of_pos hx]; rfl
    · rw [if_neg hx, List.takeWhile_cons_of_neg hx]; rfl

theorem strspn_eq {d seps : List Byte} (hd : 0 ∈ d) (hs : 0 ∈ seps) :
    strspn d seps = some (d.takeWhile (fun x => decide (x ∈ text seps))).length := by
  rw [strspn, cstr_eq hs, Option.bind_some]
  exact spanLen_eq ⟨0, hd, by simpa using zero_not_mem_text seps⟩

theorem strcspn_eq {d seps : List Byte} (hd : 0 ∈ d) (hs : 0 ∈ seps) :
    strcspn d seps = some (d.takeWhile (fun x => !decide (x ∈ text seps) && x != 0)).length := by
  rw [strcspn, cstr_eq hs, Option.bind_some]
  exact spanLen_eq ⟨0, hd, by simp⟩

theorem indexOf_some {n h : List Byte} {k : Nat} (e : indexOf n h = some k) :
    At n h k ∧ k ≤ h.length ∧ ∀ i, i < k → ¬ At n h i := by
  induction h generalizing k with
  | nil =>
    unfold indexOf at e
    split at e
    · rename_i hn
      cases e
      subst hn
      exact ⟨List.nil_prefix, by simp, by simp⟩
    · cases e
  | cons x t ih =>
    unfold indexOf at e
    split at e
    · rename_i hp
      cases e
      exact ⟨by simpa [At] using hp, by simp, by simp⟩
    · rename_i hp
      cases hi : indexOf n t with
      | none => rw [hi] at e; cases e
      | some j =>
        rw [hi] at e
        simp only [Option.map_some, Option.some.injEq] at e
        subst e
        obtain ⟨h1, h2, h3⟩ := ih hi
        refine ⟨by simpa [At] using h1, by simp; omega, ?_⟩
        intro i hi'
        cases i with
        | zero => simpa [At] using hp
        | succ i =>
          have := h3 i (by omega)
          simpa [At] using this

theorem indexOf_none {n h : List Byte} (e : indexOf n h = none) (i : Nat) : ¬ At n h i := by
  induction h generalizing i with
  | nil =>
    unfold indexOf at e
    split at e
    · cases e
    · rename_i hn
      intro hp
      simp only [At, List.drop_nil] at hp
      exact hn (List.prefix_nil.1 hp)
  | cons x t ih =>
    unfold indexOf at e
    split at e
    · cases e
    · rename_i hp
      have hi : indexOf n t = none := by
        cases hi : indexOf n t with
        | none => rfl
        | some j => rw [hi] at e; cases e
      cases i with
      | zero => simpa [At] using hp
      | succ i => simpa [At] using ih hi i

theorem strstr_eq {d n : List Byte} (hd : 0 ∈ d) (hn : 0 ∈ n) : strstr d n = some (indexOf (text n) (text d)) := by
  rw [strstr, cstr_eq hd, cstr_eq hn]; rfl

theorem strncpySrc_eq {d : List Byte} {n : Nat} (h : n ≤ (text d).length) : strncpySrc d n = some (d.take n) := by
  induction d generalizing n with
  | nil => rw [text_nil] at h; simp at h; subst h; rfl
  | cons x t ih =>
    cases n with
    | zero => rfl
    | succ n =>
      by_cases hx : x = 0
      · subst hx; rw [text_zero] at h; simp at h
      · rw [text_cons hx] at h
        unfold strncpySrc
        rw [if_neg hx, ih (by simpa using h)]
        rfl

theorem isInt_u32 {a : Arg b} {z : Int} (h : IsInt a z) : a.isNumber = true ∧ decAsU32 F a.val = BitVec.ofInt 32 z := by
  obtain ⟨n, rfl, h1, rfl⟩ := h
  exact ⟨rfl, decAsU32_eq F n h1⟩

theorem isInt_i32 {a : Arg b} {z : Int} (h : IsInt a z) : a.isNumber = true ∧ decAsI32 F a.val = BitVec.ofInt 32 z := by
  obtain ⟨n, rfl, h1, rfl⟩ := h
  exact ⟨rfl, decAsI32_eq F n h1⟩

theorem isInt_char {a : Arg b} {z : Int} (h : IsInt a z) : a.isNumber = true ∧ decAsChar F a.val = BitVec.ofInt 8 z := by
  obtain ⟨n, rfl, h1, rfl⟩ := h
  exact ⟨rfl, decAsChar_eq F n h1⟩

theorem ofInt_nat {k : Nat} (h : k < 2 ^ 32) : (BitVec.ofInt 32 (k : Int)).toNat = k := by
  rw [BitVec.ofInt_natCast, BitVec.toNat_ofNat, Nat.mod_eq_of_lt h]

theorem w_cases' (b : Build) : b.w = 32 ∨ b.w = 64 := by cases b; exact .inl rfl; exact .inr rfl

theorem encInt_isI {z : Int} (h1 : -2 ^ 27 ≤ z) (h2 : z < 2 ^ 27) : IsI (encInt z : Arg b) z := by
  refine ⟨ofZ b .i z, by rw [encInt, encI_ofInt], ofZ_ty _ _, ?_⟩
  rw [(ofZ_is (b := b) (t := .i) rfl z).2]
  simp only [wrap, Ty.signed, if_true, Ty.bits]
  rw [Int.bmod_eq_of_le]
  · cases b <;> simp [payload] at * <;> omega
  · cases b <;> simp [payload] at * <;> omega

end Verif.Str
