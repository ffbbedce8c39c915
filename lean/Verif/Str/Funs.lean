import Verif.Str.Lemmas

/-!
# What the string extensions compute
-/

namespace Verif.Str

open Verif.Val (Build payload)
open Verif.Arith

variable {b : Build} {F : FOps} {S : Type} {A : Alloc S}

theorem strLen_eq (d : List Byte) (h : d.length < 2 ^ 31) : strLen [(.arr d : Arg b)] = some (encInt (text d).length) := by
  simp only [strLen, decStrSize, strlenMax_eq, Option.map_some]
  have hl := text_length_le d
  congr 4
  apply BitVec.eq_of_toInt_eq
  have hw : 32 ≤ b.w := by rcases w_cases' b with h | h <;> omega
  rw [BitVec.toInt_signExtend_of_le hw, BitVec.toInt_ofInt, BitVec.toInt_eq_toNat_bmod, BitVec.toNat_ofNat, Nat.mod_eq_of_lt (by omega)]
  rw [Int.bmod_eq_of_le, Int.bmod_eq_of_le]
  · rcases w_cases' b with h | h <;> rw [h] <;> simp <;> omega
  · rcases w_cases' b with h | h <;> rw [h] <;> simp <;> omega
  all_goals (simp; try omega)

theorem gives_fill {s : S} {d : List Byte} {n : Nat} (h : n ≤ d.length) :
    Gives A s (d.take n) (match A.arr s (n + 1) with
      | none => (merror : Option (Arg b))
      | some _ => (memcpy (zeros (n + 1)) 0 d n).bind fun buf => (writeAt buf n [0]).map .arr) := by
  have hl : (d.take n).length = n := by simp [h]
  unfold Gives
  rw [hl]
  cases A.arr s (n + 1) with
  | none => rfl
  | some s' =>
    have := congrArg (Option.map (Arg.arr (b := b))) (fill_eq h)
    rw [Option.map_bind] at this
    exact this

theorem fin_part {s : S} {d : List Byte} {start n : Nat} (h : start + n ≤ (text d).length) (hn : n + 1 < 2 ^ 32) :
    Gives A s (((text d).drop start).take n) (strPart.fin A s d start n : Option (Arg b)) := by
  simp only [strPart.fin]
  rw [Nat.mod_eq_of_lt hn]
  have hd := text_length_le d
  have := gives_fill (A := A) (b := b) (s := s) (d := d.drop start) (n := n) (by simp; omega)
  have e : (d.drop start).take n = ((text d).drop start).take n := by
    rw [← drop_text (by omega)]
    have h2 := drop_text (d := d) (k := start) (by omega)
    have h3 : n ≤ (text (d.drop start)).length := by rw [h2, List.length_drop]; omega
    obtain ⟨r, hr⟩ := text_prefix (d.drop start)
    conv => lhs; rw [← hr]
    exact List.take_append_of_le_length h3
  rw [e] at this
  exact this

theorem strPart_eq2 {s : S} {d : List Byte} {st : Arg b} {a : Nat} (hd : d.length < 2 ^ 32 - 1) (hs : IsInt st a) (ha : a < 2 ^ 32) :
    (a < (text d).length → Gives A s ((text d).drop a) (strPart F A s [.arr d, st])) ∧
    ((text d).length ≤ a → strPart F A s [.arr d, st] = eerror) := by
  have hl := text_length_le d
  obtain ⟨h1, h2⟩ := isInt_u32 (F := F) hs
  simp only [strPart, strPart.go, h1, Bool.not_true, Bool.false_eq_true, if_false, decStrSize, strlenMax_eq, Option.bind_some, h2, ofInt_nat ha]
  rw [Nat.mod_eq_of_lt (by omega)]
  constructor
  · intro h
    rw [if_neg (by omega)]
    have := fin_part (A := A) (b := b) (s := s) (d := d) (start := a) (n := (text d).length - a) (by omega) (by omega)
    rw [List.take_of_length_le (by simp)] at this
    exact this
  · intro h; rw [if_pos h]

theorem strPart_eq3 {s : S} {d : List Byte} {st n : Arg b} {a k : Nat} (hd : d.length < 2 ^ 32 - 1) (hs : IsInt st a) (ha : a < 2 ^ 32)
    (hn : IsInt n k) (hk : k < 2 ^ 32) :
    (a < (text d).length → Gives A s (((text d).drop a).take k) (strPart F A s [.arr d, st, n])) ∧
    ((text d).length ≤ a → strPart F A s [.arr d, st, n] = eerror) := by
  have hl := text_length_le d
  obtain ⟨h1, h2⟩ := isInt_u32 (F := F) hs
  obtain ⟨h3, h4⟩ := isInt_u32 (F := F) hn
  simp only [strPart, strPart.go, h1, h3, Bool.not_true, Bool.false_eq_true, if_false, decStrSize, strlenMax_eq, Option.bind_some, h2, h4, ofInt_nat ha,
    ofInt_nat hk]
  rw [Nat.mod_eq_of_lt (by omega)]
  constructor
  · intro h
    rw [if_neg (by omega)]
    have := fin_part (A := A) (b := b) (s := s) (d := d) (start := a) (n := min k ((text d).length - a)) (by omega) (by omega)
    have e : ((text d).drop a).take (min k ((text d).length - a)) = ((text d).drop a).take k := by
      rw [← List.length_drop, List.take_eq_take_iff]; omega
    rw [e] at this
    exact this
  · intro h; rw [if_pos h]

/-! ## str-join -/

theorem listTo_split (l : Arg b) : ∃ xs tail, l = listTo xs tail ∧ ∀ a d, tail ≠ .cons a d := by
  induction l with
  | v x => exact ⟨[], .v x, rfl, by intros; simp⟩
  | arr d => exact ⟨[], .arr d, rfl, by intros; simp⟩
  | cons a d _ ih =>
    obtain ⟨xs, t, rfl, h⟩ := ih
    exact ⟨a :: xs, t, rfl, h⟩

theorem listTo_nil (xs : List (Arg b)) : listTo xs nil = listOf xs := by
  induction xs with
  | nil => rfl
  | cons a t ih => simp only [listTo, listOf, ih]

/-- The length of some texts together. -/
def total (ds : List (List Byte)) : Nat := (ds.map fun d => (text d).length).sum

theorem joinScan_eq {tail : Arg b} (ht : ∀ a d, tail ≠ .cons a d) (ds : List (List Byte)) (len cnt : Nat)
    (h1 : len + total ds < 2 ^ b.w) (h2 : cnt + ds.length < 2 ^ b.w) :
    joinScan (listTo (ds.map .arr) tail) len cnt = some (some (len + total ds, cnt + ds.length)) := by
  induction ds generalizing len cnt with
  | nil =>
    cases tail with
    | cons a d => exact absurd rfl (ht a d)
    | v x => simp [listTo, joinScan, total]
    | arr x => simp [listTo, joinScan, total]
  | cons d ds ih =>
    have e : total (d :: ds) = (text d).length + total ds := by simp [total]
    rw [e] at h1 ⊢
    simp only [List.length_cons] at h2 ⊢
    simp only [List.map_cons, listTo, joinScan, decStrSize, strlenMax_eq, Option.bind_some]
    rw [Nat.mod_eq_of_lt (by omega), Nat.mod_eq_of_lt (by omega), ih _ _ (by omega) (by omega)]
    congr 3 <;> omega

theorem joined_nil (sep : List Byte) : joined sep [] = [] := rfl
theorem joined_one (sep d : List Byte) : joined sep [d] = text d := by simp [joined, List.intercalate]
theorem joined_cons (sep d e : List Byte) (ds : List (List Byte)) : joined sep (d :: e :: ds) = text d ++ sep ++ joined sep (e :: ds) := by
  simp [joined, List.intercalate]

theorem joined_length (sep : List Byte) (ds : List (List Byte)) :
    (joined sep ds).length = total ds + (ds.length - 1) * sep.length := by
  induction ds with
  | nil => simp [joined_nil, total]
  | cons d ds ih =>
    cases ds with
    | nil => simp [joined_one, total]
    | cons e ds =>
      rw [joined_cons]
      simp only [List.length_append, ih, total, List.map_cons, List.sum_cons, List.length_cons]
      have : ds.length + 1 + 1 - 1 = (ds.length + 1 - 1) + 1 := by omega
      rw [this, Nat.add_mul]
      omega

theorem memcpy_zeros {p s : List Byte} {n k : Nat} (h1 : k ≤ s.length) (h2 : k ≤ n) :
    memcpy (p ++ zeros n) p.length s k = some (p ++ s.take k ++ zeros (n - k)) := by
  rw [memcpy, readN_eq h1, Option.bind_some]
  have hl : (s.take k).length = k := by simp [h1]
  rw [writeAt_zeros (by omega), hl]

theorem joinCopy_eq {tail : Arg b} (ht : ∀ a d, tail ≠ .cons a d) {delim : List Byte} {cnt : Nat} (hc : cnt < 2 ^ b.w) (ds : List (List Byte)) :
    ∀ (i : Nat) (p : List Byte) (n : Nat), cnt = i + ds.length → (joined (text delim) ds).length ≤ n →
      joinCopy delim (text delim).length cnt (listTo (ds.map .arr) tail) i p.length (p ++ zeros n) =
        some (p ++ joined (text delim) ds ++ zeros (n - (joined (text delim) ds).length)) := by
  induction ds with
  | nil =>
    intro i p n _ _
    cases tail with
    | cons a d => exact absurd rfl (ht a d)
    | v x => simp [listTo, joinCopy, joined_nil]
    | arr x => simp [listTo, joinCopy, joined_nil]
  | cons d ds ih =>
    intro i p n hi hn
    have hdl := text_length_le d
    simp only [List.map_cons, listTo, joinCopy, strlenMax_eq, Option.bind_some]
    have e1 : (cnt + 2 ^ b.w - 1) % 2 ^ b.w = cnt - 1 := by
      simp only [List.length_cons] at hi
      have : cnt + 2 ^ b.w - 1 = (cnt - 1) + 2 ^ b.w := by omega
      rw [this, Nat.add_mod_right, Nat.mod_eq_of_lt (by omega)]
    have e2 : (i + 1) % 2 ^ b.w = i + 1 := Nat.mod_eq_of_lt (by simp only [List.length_cons] at hi; omega)
    rw [e1, e2]
    cases ds with
    | nil =>
      rw [joined_one] at hn ⊢
      rw [memcpy_zeros (by omega) hn, Option.bind_some, take_text, if_neg (by simp at hi; omega)]
      have := ih (i + 1) (p ++ text d) (n - (text d).length) (by simp at hi ⊢; omega) (by rw [joined_nil]; simp)
      rw [joined_nil, List.length_append] at this
      simpa using this
    | cons e ds =>
      rw [joined_cons] at hn ⊢
      simp only [List.length_append] at hn
      rw [memcpy_zeros (by omega) (by omega), Option.bind_some, take_text, if_pos (by simp at hi; omega)]
      have h1 := memcpy_zeros (p := p ++ text d) (s := delim) (n := n - (text d).length) (text_length_le delim) (by omega)
      rw [List.length_append, take_text] at h1
      rw [h1, Option.bind_some]
      have h2 := ih (i + 1) (p ++ text d ++ text delim) (n - (text d).length - (text delim).length)
        (by simp only [List.length_cons] at hi ⊢; omega) (by omega)
      simp only [List.length_append] at h2
      rw [h2]
      congr 1
      simp only [List.append_assoc, List.length_append]
      congr 5
      omega

theorem strJoin_fin {s : S} {tail : Arg b} (ht : ∀ a d, tail ≠ .cons a d) {delim : List Byte} (hz : 0 ∈ delim) (ds : List (List Byte))
    (h1 : (joined (text delim) ds).length + 1 < 2 ^ b.w) (h2 : ds.length < 2 ^ b.w) :
    Gives A s (joined (text delim) ds) (strJoin.fin A s (listTo (ds.map .arr) tail) delim (total ds) ds.length) := by
  simp only [strJoin.fin, strlen_eq hz, Option.bind_some]
  have hl := joined_length (text delim) ds
  have e : (if ds.length > 0 then (total ds + (ds.length - 1) * (text delim).length) % 2 ^ b.w else total ds) =
      (joined (text delim) ds).length := by
    split
    · rw [← hl, Nat.mod_eq_of_lt (by omega)]
    · rename_i h
      have : ds = [] := by cases ds; rfl; simp at h
      subst this; rfl
  rw [e, Nat.mod_eq_of_lt h1]
  unfold Gives
  cases A.arr s ((joined (text delim) ds).length + 1) with
  | none => rfl
  | some s' =>
    simp only [Option.isSome_some, if_true]
    have := joinCopy_eq ht (delim := delim) (cnt := ds.length) h2 ds 0 [] ((joined (text delim) ds).length + 1) (by simp) (by omega)
    simp only [List.nil_append, List.length_nil] at this
    rw [this, Option.bind_some]
    have h3 : (joined (text delim) ds).length + 1 - (joined (text delim) ds).length = 1 := by omega
    rw [h3, writeAt_zeros (by simp)]
    simp [zeros, str]

theorem isList_listTo {xs : List (Arg b)} : (listOf xs).isList = true := by cases xs <;> rfl

theorem total_le (sep : List Byte) (ds : List (List Byte)) : total ds ≤ (joined sep ds).length := by rw [joined_length]; omega

theorem strJoin_eq1 {s : S} (ds : List (List Byte)) (h1 : (joined [] ds).length + 1 < 2 ^ b.w) (h2 : ds.length < 2 ^ b.w) :
    Gives A s (joined [] ds) (strJoin A s [(listOf (ds.map .arr) : Arg b)]) := by
  simp only [strJoin, strJoin.go, isList_listTo, Bool.not_true, Bool.false_eq_true, if_false]
  have ht := total_le [] ds
  rw [← listTo_nil, joinScan_eq (by intros; simp [nil]) ds 0 0 (by omega) (by omega)]
  simp only [Option.bind_some, Nat.zero_add]
  have := strJoin_fin (A := A) (s := s) (tail := (nil : Arg b)) (by intros; simp [nil]) (delim := [0]) (by simp) ds
    (by rw [text_zero]; exact h1) h2
  rw [text_zero] at this
  exact this

theorem strJoin_eq2 {s : S} {delim : List Byte} (hz : 0 ∈ delim) (ds : List (List Byte))
    (h1 : (joined (text delim) ds).length + 1 < 2 ^ b.w) (h2 : ds.length < 2 ^ b.w) :
    Gives A s (joined (text delim) ds) (strJoin A s [(listOf (ds.map .arr) : Arg b), .arr delim]) := by
  simp only [strJoin, strJoin.go, isList_listTo, Bool.not_true, Bool.false_eq_true, if_false]
  have ht := total_le (text delim) ds
  rw [← listTo_nil, joinScan_eq (by intros; simp [nil]) ds 0 0 (by omega) (by omega)]
  cases delim with
  | nil => simp at hz
  | cons x t =>
    simp only [Option.bind_some, Nat.zero_add, decStr]
    exact strJoin_fin (A := A) (s := s) (tail := (nil : Arg b)) (by intros; simp [nil]) hz ds h1 h2

/-! ## Letter case, replication -/

theorem caseLoop_eq {f : Byte → Byte} {d : List Byte} : ∀ (k i : Nat) (p : List Byte) (n : Nat), p.length = i → i + k ≤ d.length → k ≤ n →
    caseLoop f d k i (p ++ zeros n) = some (p ++ ((d.drop i).take k).map f ++ zeros (n - k)) := by
  intro k
  induction k with
  | zero => intro i p n _ _ _; simp [caseLoop]
  | succ k ih =>
    intro i p n hp hi hn
    have hlt : i < d.length := by omega
    have h1 : d[i]? = some d[i] := List.getElem?_eq_getElem hlt
    have h2 := writeAt_zeros (p := p) (d := [f d[i]]) (n := n) (by simp; omega)
    rw [hp] at h2
    simp only [caseLoop, h1, Option.bind_some, h2]
    have := ih (i + 1) (p ++ [f d[i]]) (n - 1) (by simp [hp]) (by omega) (by omega)
    simp only [List.length_cons, List.length_nil, Nat.zero_add] at this ⊢
    rw [this, List.drop_eq_getElem_cons hlt]
    simp only [List.take_succ_cons, List.map_cons, List.append_assoc, List.cons_append, List.nil_append]
    congr 5
    omega

theorem toupper_eq (x : Byte) : toupper x = upper x := by
  unfold toupper upper
  have h1 : 'a'.toNat = 97 := rfl
  have h2 : 'z'.toNat = 122 := rfl
  have h3 : 'A'.toNat = 65 := rfl
  rw [h1, h2, h3]
  split
  · rename_i h
    apply BitVec.eq_of_toNat_eq
    have := x.isLt
    rw [BitVec.toNat_sub, BitVec.toNat_ofNat]
    simp
    omega
  · rfl

theorem tolower_eq (x : Byte) : tolower x = lower x := by
  unfold tolower lower
  have h1 : 'a'.toNat = 97 := rfl
  have h2 : 'Z'.toNat = 90 := rfl
  have h3 : 'A'.toNat = 65 := rfl
  rw [h1, h2, h3]
  split
  · rename_i h
    apply BitVec.eq_of_toNat_eq
    have := x.isLt
    rw [BitVec.toNat_add, BitVec.toNat_ofNat]
    simp
    omega
  · rfl

theorem changeCase_eq {s : S} (up : Bool) (d : List Byte) :
    Gives A s ((text d).map (if up then upper else lower)) (changeCase A s up [(.arr d : Arg b)]) := by
  have hl := text_length_le d
  have hf : (if up then toupper else tolower) = if up then upper else lower := by
    cases up
    · exact funext tolower_eq
    · exact funext toupper_eq
  simp only [changeCase, decStrSize, strlenMax_eq, Option.bind_some, hf]
  unfold Gives
  rw [List.length_map]
  cases A.arr s ((text d).length + 1) with
  | none => rfl
  | some s' =>
    simp only [Option.isSome_some, if_true]
    have := caseLoop_eq (f := if up then upper else lower) (d := d) (text d).length 0 [] ((text d).length + 1) rfl (by omega) (by omega)
    simp only [List.nil_append, List.drop_zero, take_text] at this
    rw [this, Option.bind_some]
    have h3 : (text d).length + 1 - (text d).length = 1 := by omega
    have h4 := writeAt_zeros (p := (text d).map (if up then upper else lower)) (d := [0]) (n := 1) (by simp)
    rw [List.length_map] at h4
    rw [h3, h4]
    simp [zeros, str]

theorem strReplicate_eq {s : S} {n c : Arg b} {k : Nat} {z : Int} (hn : IsInt n k) (hk : k < 2 ^ 32 - 1) (hc : IsInt c z) :
    Gives A s (List.replicate k (BitVec.ofInt 8 z)) (strReplicate F A s [n, c]) := by
  obtain ⟨h1, h2⟩ := isInt_u32 (F := F) hn
  obtain ⟨h3, h4⟩ := isInt_char (F := F) hc
  simp only [strReplicate, h1, h3, Bool.and_self, if_true, h2, h4, ofInt_nat (show k < 2 ^ 32 by omega)]
  rw [Nat.mod_eq_of_lt (by omega)]
  unfold Gives
  rw [List.length_replicate]
  cases A.arr s (k + 1) with
  | none => rfl
  | some s' =>
    simp only [Option.isSome_some, if_true]
    rw [writeAt_zeros0 (by simp), Option.bind_some]
    have h5 : k + 1 - (List.replicate k (BitVec.ofInt 8 z)).length = 1 := by simp
    have h6 := writeAt_zeros (p := List.replicate k (BitVec.ofInt 8 z)) (d := [0]) (n := 1) (by simp)
    rw [h5]
    rw [List.length_replicate] at h6
    rw [h6]
    simp [zeros, str]

end Verif.Str
