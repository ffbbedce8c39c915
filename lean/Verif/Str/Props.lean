import Verif.Str.Safe
import Verif.Arith.Props

/-!
# C65 – C72: the string extensions
-/

namespace Verif.Str

open Verif.Val (Build payload)
open Verif.Arith

variable {b : Build} {F : FOps} {S : Type} {A : Alloc S}

/-! ## C65: no access outside of the arrays -/

/-- **C65, partial.** These calls never access memory outside of the arguments and the result, never overflow
a signed number and always end, whatever the arguments are: any number of them, of any type. -/
theorem C65_any_partial (s : S) (sl sn : Nat) (fmtG : Num b → List Byte) (pr : Arg b → List Byte) (delim : List Byte)
    {junk : Option (List Byte)} (hj : ∀ j, junk = some j → j.length = 300) (args : List (Arg b)) :
    strLen args ≠ none ∧ changeCase A s true args ≠ none ∧ changeCase A s false args ≠ none ∧ strFind F A sl sn s args ≠ none ∧
      strFromN F A fmtG s args ≠ none ∧ toStr A pr delim junk s args ≠ none ∧
      ((∀ a ∈ args, Sized (2 ^ 32 - 2) a) → strPart F A s args ≠ none) ∧
      ((∀ n ∈ args.head?, (decAsU32 F n.val).toNat ≠ 2 ^ 32 - 1) → strReplicate F A s args ≠ none) :=
  ⟨strLen_safe args, changeCase_safe s true args, changeCase_safe s false args, strFind_safe sl sn s args, strFromN_safe fmtG s args,
    toStr_safe pr delim hj s args, strPart_safe s, strReplicate_safe s⟩

/-- **C65, partial.** If every array among the arguments contains a zero, neither do these; for `str-replace`
the product of two sizes fits into a word, for `str-join` the size of the result and the number of strings. -/
theorem C65_terminated_partial (s : S) (ok : Bool) {args : List (Arg b)} (h : ∀ a ∈ args, Terminated a) :
    strCmp F args ≠ none ∧ strToI F ok args ≠ none ∧
      ((∀ a ∈ args, Sized (2 ^ 30) a) → strSplit F A s args ≠ none) ∧
      (∀ n, n * n < 2 ^ b.w → (∀ a ∈ args, Sized n a) → strReplace A s args ≠ none) ∧
      ((∀ l ∈ args.head?, joinSize (sepLen args) l + 1 < 2 ^ b.w) → strJoin A s args ≠ none) :=
  ⟨strCmp_safe h, strToI_safe ok h, strSplit_safe s h, fun _ hn => strReplace_safe s hn h, strJoin_safe s h⟩

/-- **C65 is violated by arrays without a zero**, such as the buffers that `bufcreate` and the reader make: `str-cmp`,
`str-to-i`, `str-split`, `str-replace` and the delimiter of `str-join` are read past the end. -/
theorem C65_unterminated_violated (s : S) (ok : Bool) {x : Byte} (hx : x ≠ 0) :
    strCmp F [(.arr [x] : Arg b), .arr [x]] = none ∧ strToI F ok [(.arr [x] : Arg b)] = none ∧
      strSplit F A s [(.arr [x] : Arg b), .arr [x, 0]] = none ∧
      strReplace A s [(.arr [x] : Arg b), .arr [x, 0]] = none ∧
      strJoin A s [(nil : Arg b), .arr [x]] = none := by
  have hx' : x ≠ 0#8 := hx
  have hc : cstr [x] = none := by unfold cstr; rw [if_neg hx]; rfl
  refine ⟨?_, ?_, ?_, ?_, ?_⟩
  · simp [strCmp, strCmp.go, strCmp.fin, decStr, strcmp, hx']
  · simp [strToI, strToI.go, strToI.fin, decStr, hc]
  · have h2 : cstr [x, 0#8] = some [x] := by simp [cstr, hx']
    simp [strSplit, decStrSize, decStr, splitChars, strspn, h2, spanLen]
  · simp [strReplace, strReplace.go, strReplace.fin, decStrSize, strlenMax, hx', countOcc, strstr, hc]
  · simp [strJoin, strJoin.go, Arg.isList, nil, joinScan, decStr, strJoin.fin, strlen, hc]

/-- **C65 is violated by the array without bytes**, whose data pointer is null. -/
theorem C65_empty_violated (s : S) {x : Byte} (hx : x ≠ 0) :
    strSplit F A s [(.arr [] : Arg b), .arr [x, 0]] = none ∧ strReplace A s [(.arr [] : Arg b), .arr [x, 0]] = none := by
  have hx' : x ≠ 0#8 := hx
  have h2 : cstr [x, 0#8] = some [x] := by simp [cstr, hx']
  constructor
  · simp [strSplit, decStrSize, decStr, splitChars, strspn, h2, spanLen]
  · simp [strReplace, strReplace.go, strReplace.fin, decStrSize, strlenMax, hx', countOcc, strstr, cstr]

/-- **C65 is violated by `(str-replicate 4294967295u32 65)`**, or -1 as count: the array has no bytes. -/
theorem C65_replicate_violated {s s' : S} (hA : A.arr s 0 = some s') {n c : Arg b} {z : Int} (hn : IsInt n (-1) ∨ IsInt n (2 ^ 32 - 1)) (hc : IsInt c z) :
    strReplicate F A s [n, c] = none := by
  have h1 : n.isNumber = true ∧ (decAsU32 F n.val).toNat = 2 ^ 32 - 1 := by
    rcases hn with h | h
    · obtain ⟨h1, h2⟩ := isInt_u32 (F := F) h; exact ⟨h1, by rw [h2]; rfl⟩
    · obtain ⟨h1, h2⟩ := isInt_u32 (F := F) h; exact ⟨h1, by rw [h2]; rfl⟩
  obtain ⟨h3, _⟩ := isInt_char (F := F) hc
  have h0 : (2 ^ 32 - 1 + 1) % 2 ^ 32 = 0 := rfl
  simp only [strReplicate, h1.1, h3, Bool.and_self, if_true, h1.2, h0, hA]
  unfold writeAt
  rw [if_neg (by rw [List.length_replicate]; simp [zeros])]
  rfl

theorem joinScan_same {x : List Byte} : ∀ (k len cnt : Nat), len < 2 ^ b.w → cnt < 2 ^ b.w →
    joinScan (listOf (List.replicate k (.arr x : Arg b))) len cnt = some (some ((len + k * (text x).length) % 2 ^ b.w, (cnt + k) % 2 ^ b.w)) := by
  intro k
  induction k with
  | zero =>
    intro len cnt h1 h2
    simp only [List.replicate, listOf, nil, joinScan, Nat.zero_mul, Nat.add_zero]
    rw [Nat.mod_eq_of_lt h1, Nat.mod_eq_of_lt h2]
  | succ k ih =>
    intro len cnt h1 h2
    have hp : 0 < 2 ^ b.w := Nat.pow_pos (by omega)
    simp only [List.replicate_succ, listOf, joinScan, decStrSize, strlenMax_eq, Option.bind_some]
    rw [ih _ _ (Nat.mod_lt _ hp) (Nat.mod_lt _ hp), Nat.mod_add_mod, Nat.mod_add_mod, Nat.succ_mul]
    congr 4 <;> omega

/-- **C65 is violated by `str-join` on 32-bit builds** if the strings are longer than memory together, which is
possible because they may be the same string: with 65536 times the same string of 65536 characters, the
array for the result has one byte. -/
theorem C65_join_violated {s s' : S} (hA : A.arr s 1 = some s') {x : Byte} (hx : x ≠ 0) :
    strJoin A s [(listOf (List.replicate 65536 (.arr (List.replicate 65536 x ++ [0]))) : Arg .b32)] = none := by
  have ht : text (List.replicate 65536 x ++ [0]) = List.replicate 65536 x := text_append (by
    intro h; exact hx (List.eq_of_mem_replicate h).symm)
  simp only [strJoin, strJoin.go, isList_listTo, Bool.not_true, Bool.false_eq_true, if_false]
  rw [joinScan_same 65536 0 0 (by decide) (by decide), ht, List.length_replicate]
  have e1 : (0 + 65536 * 65536) % 2 ^ Build.b32.w = 0 := rfl
  have e2 : (0 + 65536) % 2 ^ Build.b32.w = 65536 := rfl
  rw [e1, e2, Option.bind_some]
  simp only [strJoin.fin]
  have e3 : strlen [0] = some 0 := rfl
  have e4 : ((if 65536 > 0 then (0 + (65536 - 1) * 0) % 2 ^ Build.b32.w else 0) + 1) % 2 ^ Build.b32.w = 1 := rfl
  rw [e3, Option.bind_some, e4, hA]
  simp only
  have e5 : listOf (List.replicate 65536 (.arr (List.replicate 65536 x ++ [0]) : Arg .b32)) =
      .cons (.arr (List.replicate 65536 x ++ [0])) (listOf (List.replicate 65535 (.arr (List.replicate 65536 x ++ [0])))) := by
    rw [show (65536 : Nat) = 65535 + 1 from rfl, List.replicate_succ]; rfl
  rw [e5]
  simp only [joinCopy, strlenMax_eq, ht, List.length_replicate, Option.bind_some]
  have e6 : memcpy (zeros 1) 0 (List.replicate 65536 x ++ [0]) 65536 = none := by
    unfold memcpy
    rw [readN_eq (by rw [List.length_append, List.length_replicate]; omega), Option.bind_some]
    unfold writeAt
    rw [if_neg]
    rw [List.take_left' (List.length_replicate ..), List.length_replicate]
    simp [zeros]
  rw [e6]
  rfl

/-! ## C66: length, parts, joining, letter case, replication -/

/-- **C66.** `str-len` is the length of the text. -/
theorem C66_len {d : List Byte} (h : d.length < 2 ^ 27) : ∃ r, strLen [(.arr d : Arg b)] = some r ∧ IsI r (text d).length := by
  have := text_length_le d
  exact ⟨_, strLen_eq d (by omega), encInt_isI (by omega) (by omega)⟩

/-- **C66.** `str-part` is the rest of the text from an index, or the given number of characters of it; an index at or
behind the end is an error. -/
theorem C66_part {s : S} {d : List Byte} {st n : Arg b} {a k : Nat} (hd : d.length < 2 ^ 32 - 1) (hs : IsInt st a) (ha : a < 2 ^ 32)
    (hn : IsInt n k) (hk : k < 2 ^ 32) :
    (a < (text d).length → Gives A s ((text d).drop a) (strPart F A s [.arr d, st]) ∧
      Gives A s (((text d).drop a).take k) (strPart F A s [.arr d, st, n])) ∧
    ((text d).length ≤ a → strPart F A s [.arr d, st] = some (.v (.sym symEERROR)) ∧ strPart F A s [.arr d, st, n] = some (.v (.sym symEERROR))) := by
  have h2 := strPart_eq2 (F := F) (A := A) (s := s) hd hs ha
  have h3 := strPart_eq3 (F := F) (A := A) (s := s) hd hs ha hn hk
  exact ⟨fun h => ⟨h2.1 h, h3.1 h⟩, fun h => ⟨h2.2 h, h3.2 h⟩⟩

/-- **C66.** `str-join` is the texts one after another, with the delimiter between them if one is given. -/
theorem C66_join {s : S} (ds : List (List Byte)) (h2 : ds.length < 2 ^ b.w) :
    ((joined [] ds).length + 1 < 2 ^ b.w → Gives A s (List.intercalate [] (ds.map text)) (strJoin A s [(listOf (ds.map .arr) : Arg b)])) ∧
    ∀ delim : List Byte, 0 ∈ delim → (joined (text delim) ds).length + 1 < 2 ^ b.w →
      Gives A s (List.intercalate (text delim) (ds.map text)) (strJoin A s [(listOf (ds.map .arr) : Arg b), .arr delim]) :=
  ⟨fun h1 => strJoin_eq1 ds h1 h2, fun _ hz h1 => strJoin_eq2 hz ds h1 h2⟩

/-- **C66.** `str-to-upper` and `str-to-lower` change the letters of the text and nothing else. -/
theorem C66_case {s : S} (d : List Byte) :
    Gives A s ((text d).map upper) (changeCase A s true [(.arr d : Arg b)]) ∧ Gives A s ((text d).map lower) (changeCase A s false [(.arr d : Arg b)]) :=
  ⟨changeCase_eq true d, changeCase_eq false d⟩

/-- **C66.** `str-replicate` is the given number of equal characters. -/
theorem C66_replicate {s : S} {n c : Arg b} {k : Nat} {z : Int} (hn : IsInt n k) (hk : k < 2 ^ 32 - 1) (hc : IsInt c z) :
    Gives A s (List.replicate k (BitVec.ofInt 8 z)) (strReplicate F A s [n, c]) :=
  strReplicate_eq hn hk hc

/-- Splitting a text at any index and joining the parts gives the text again. -/
theorem C66_part_join {s : S} {t : List Byte} (h0 : 0 ∉ t) {a : Arg b} {z : Arg b} {k : Nat} (hz : IsInt z 0) (ha : IsInt a k) (hk : 0 < k) (hk2 : k < t.length) (ht : t.length + 1 < 2 ^ 32 - 1)
    (hA : A.Enough) :
    ∃ p q, strPart F A s [str t, z, a] = some p ∧ strPart F A s [str t, a] = some q ∧ strJoin A s [listOf [p, q]] = some (str t) := by
  have htx : text (t ++ [0]) = t := text_append (r := []) h0
  have h1 := (strPart_eq3 (F := F) (A := A) (s := s) (d := t ++ [0]) (a := 0) (by simp; omega) hz (by omega) ha (by omega)).1
    (by rw [htx]; omega)
  have h2 := (strPart_eq2 (F := F) (A := A) (s := s) (d := t ++ [0]) (by simp; omega) ha (by omega)).1 (by rw [htx]; omega)
  rw [htx] at h1 h2
  rw [List.drop_zero] at h1
  unfold Gives at h1 h2
  rw [if_pos (hA s _).1] at h1 h2
  refine ⟨_, _, h1, h2, ?_⟩
  have e1 : text (t.take k ++ [0]) = t.take k := text_append (r := []) (fun h => h0 (List.mem_of_mem_take h))
  have e2 : text (t.drop k ++ [0]) = t.drop k := text_append (r := []) (fun h => h0 (List.mem_of_mem_drop h))
  have ej : joined [] [t.take k ++ [0], t.drop k ++ [0]] = t := by
    rw [joined_cons, joined_one, e1, e2]; simp
  have hw : 2 ^ 32 ≤ 2 ^ b.w := by rcases w_cases' b with h | h <;> rw [h] <;> decide
  have h3 := strJoin_eq1 (A := A) (b := b) (s := s) [t.take k ++ [0], t.drop k ++ [0]] (by rw [ej]; omega) (by simp; omega)
  rw [ej] at h3
  unfold Gives at h3
  rw [if_pos (hA s _).1] at h3
  exact h3

/-! ## C67: splitting -/

/-- **C67.** With a number, `str-split` gives the text in pieces of that length, the last one being shorter if necessary; with a
string, the nonempty runs of characters that are not in the string, in order.  If memory runs out, the
result is the memory error, never a part of the list. -/
theorem C67_split {s : S} {d : List Byte} (hd : d.length ≤ 2 ^ 30) :
    (∀ (n : Arg b) (z : Int), IsInt n z → -2 ^ 31 ≤ z → z < 2 ^ 31 →
      ∃ r, strSplit F A s [.arr d, n] = some r ∧
        (r = .v (.sym symMERROR) ∨ ∃ ps, Chunks (max z 1).toNat (text d) ps ∧ r = listOf (ps.map str)) ∧
        (A.Enough → ∃ ps, Chunks (max z 1).toNat (text d) ps ∧ r = listOf (ps.map str))) ∧
    (0 ∈ d → ∀ seps : List Byte, 0 ∈ seps →
      ∃ r : Arg b, strSplit F A s [.arr d, .arr seps] = some r ∧
        (r = .v (.sym symMERROR) ∨ ∃ ps, Splits (text seps) (text d) ps ∧ r = listOf (ps.map str)) ∧
        (A.Enough → ∃ ps, Splits (text seps) (text d) ps ∧ r = listOf (ps.map str))) :=
  ⟨fun _ _ hn h1 h2 => strSplit_num hd hn h1 h2, fun h0 _ hs => strSplit_chars h0 hs⟩

theorem append_cons_inj {α : Type} {P : α → Prop} : ∀ {g g' : List α} {x y : α} {u v : List α}, (∀ a ∈ g, P a) → (∀ a ∈ g', P a) → ¬ P x → ¬ P y →
    g ++ x :: u = g' ++ y :: v → g = g' ∧ x = y ∧ u = v := by
  intro g
  induction g with
  | nil =>
    intro g' x y u v _ h2 hx _ e
    cases g' with
    | nil => simp only [List.nil_append, List.cons.injEq] at e; exact ⟨rfl, e⟩
    | cons a t =>
      simp only [List.nil_append, List.cons_append, List.cons.injEq] at e
      exact absurd (e.1 ▸ h2 a (by simp)) hx
  | cons a t ih =>
    intro g' x y u v h1 h2 hx hy e
    cases g' with
    | nil =>
      simp only [List.nil_append, List.cons_append, List.cons.injEq] at e
      exact absurd (e.1 ▸ h1 a (by simp)) hy
    | cons c t' =>
      simp only [List.cons_append, List.cons.injEq] at e
      obtain ⟨h3, h4⟩ := ih (fun a ha => h1 a (by simp [ha])) (fun a ha => h2 a (by simp [ha])) hx hy e.2
      exact ⟨by rw [e.1, h3], h4⟩

theorem run_inj {α : Type} {P : α → Prop} {p p' t t' : List α} (h1 : ∀ a ∈ p, ¬ P a) (h2 : ∀ a ∈ p', ¬ P a) (h3 : ∀ x, t.head? = some x → P x)
    (h4 : ∀ x, t'.head? = some x → P x) (e : p ++ t = p' ++ t') : p = p' ∧ t = t' := by
  induction p generalizing p' with
  | nil =>
    cases p' with
    | nil => exact ⟨rfl, e⟩
    | cons a p' =>
      simp only [List.nil_append] at e
      subst e
      exact absurd (h3 a (by simp)) (h2 a (by simp))
  | cons a p ih =>
    cases p' with
    | nil =>
      simp only [List.nil_append] at e
      subst e
      exact absurd (h4 a (by simp)) (h1 a (by simp))
    | cons c p' =>
      simp only [List.cons_append, List.cons.injEq] at e
      obtain ⟨h5, h6⟩ := ih (fun a ha => h1 a (by simp [ha])) (fun a ha => h2 a (by simp [ha])) e.2
      exact ⟨by rw [e.1, h5], h6⟩

/-- **C67.** There is one list of such pieces only. -/
theorem C67_unique {seps t : List Byte} {ps qs : List (List Byte)} (h1 : Splits seps t ps) (h2 : Splits seps t qs) : ps = qs := by
  induction h1 generalizing qs with
  | none hg =>
    cases h2 with
    | none => rfl
    | @piece g p t ps _ hp h1 _ _ =>
      cases p with
      | nil => exact absurd rfl h1
      | cons x p => exact absurd (hg x (by simp)) (hp x (by simp))
  | @piece g p t ps hg hp hne ht h ih =>
    generalize he : g ++ p ++ t = u at h2
    cases h2 with
    | none hg2 =>
      cases p with
      | nil => exact absurd rfl hne
      | cons x p => exact absurd (hg2 x (by rw [← he]; simp)) (hp x (by simp))
    | @piece g' p' t' ps' hg' hp' hne' ht' h' =>
      cases p with
      | nil => exact absurd rfl hne
      | cons x p =>
        cases p' with
        | nil => exact absurd rfl hne'
        | cons y p' =>
          rw [List.append_assoc, List.append_assoc, List.cons_append, List.cons_append] at he
          obtain ⟨_, e2, e3⟩ := append_cons_inj (P := (· ∈ seps)) hg hg' (hp x (by simp)) (hp' y (by simp)) he
          obtain ⟨e4, e5⟩ := run_inj (P := (· ∈ seps)) (fun a ha => hp a (by simp [ha])) (fun a ha => hp' a (by simp [ha])) ht ht' e3
          subst e2; subst e4; subst e5
          rw [ih h']

/-! ## C68: replacing -/

/-- **C68.** `str-replace` gives the text with the occurrences of the pattern replaced, from left to right; with two arguments they are
taken out.  If the pattern is the empty text the result is the first argument. -/
theorem C68_replace {s : S} {orig pat : List Byte} (ho : 0 ∈ orig) (hp : 0 ∈ pat) :
    (text pat ≠ [] →
      ((∀ r, Replaced (text pat) [] (text orig) r → r.length + 1 < 2 ^ b.w) →
        ∃ r, Replaced (text pat) [] (text orig) r ∧ Gives A s r (strReplace A s [(.arr orig : Arg b), .arr pat])) ∧
      ∀ rep : List Byte, (∀ r, Replaced (text pat) (text rep) (text orig) r → r.length + 1 < 2 ^ b.w) →
        ∃ r, Replaced (text pat) (text rep) (text orig) r ∧ Gives A s r (strReplace A s [(.arr orig : Arg b), .arr pat, .arr rep])) ∧
    (text pat = [] → strReplace A s [(.arr orig : Arg b), .arr pat] = some (.arr orig) ∧
      ∀ rep : List Byte, strReplace A s [(.arr orig : Arg b), .arr pat, .arr rep] = some (.arr orig)) := by
  refine ⟨fun h1 => ⟨fun hf => ?_, fun rep hf => ?_⟩, fun h1 => ⟨?_, fun rep => ?_⟩⟩
  · exact strReplace_fin (A := A) (s := s) (wth := [0]) (wsize := 0) ho hp h1 rfl hf
  · exact strReplace_fin (A := A) (s := s) (wth := rep) (wsize := rep.length) ho hp h1 (strlenMax_eq rep) hf
  · simp [strReplace, strReplace.go, strReplace.fin, decStrSize, strlenMax_eq, h1]
  · simp [strReplace, strReplace.go, strReplace.fin, decStrSize, strlenMax_eq, h1]

/-- The first occurrence determines the prefix. -/
theorem first_unique {pat a t a' t' : List Byte} (e : a ++ pat ++ t = a' ++ pat ++ t') (h : ∀ i, i < a.length → ¬ At pat (a ++ pat ++ t) i)
    (h' : ∀ i, i < a'.length → ¬ At pat (a' ++ pat ++ t') i) : a = a' ∧ t = t' := by
  have at1 : At pat (a ++ pat ++ t) a.length := by
    unfold At; rw [List.append_assoc, List.drop_left]; exact List.prefix_append ..
  have at2 : At pat (a' ++ pat ++ t') a'.length := by
    unfold At; rw [List.append_assoc, List.drop_left]; exact List.prefix_append ..
  have hl : a.length = a'.length := by
    rcases Nat.lt_trichotomy a.length a'.length with hlt | heq | hgt
    · exact absurd (e ▸ at1) (h' _ hlt)
    · exact heq
    · exact absurd (e ▸ at2) (h _ hgt)
  rw [List.append_assoc, List.append_assoc] at e
  obtain ⟨e1, e2⟩ := List.append_inj e hl
  obtain ⟨_, e3⟩ := List.append_inj e2 rfl
  exact ⟨e1, e3⟩

/-- **C68.** There is one such text only. -/
theorem C68_unique {pat rep t r r' : List Byte} (h1 : Replaced pat rep t r) (h2 : Replaced pat rep t r') : r = r' := by
  induction h1 generalizing r' with
  | none h =>
    cases h2 with
    | none => rfl
    | first h3 h4 =>
      rename_i a t r
      refine absurd ?_ (h a.length)
      unfold At; rw [List.append_assoc, List.drop_left]; exact List.prefix_append ..
  | @first a t r h hr ih =>
    generalize he : a ++ pat ++ t = u at h2
    cases h2 with
    | none h3 =>
      refine absurd ?_ (h3 a.length)
      rw [← he]
      unfold At; rw [List.append_assoc, List.drop_left]; exact List.prefix_append ..
    | @first a' t' r'' h3 h4 =>
      obtain ⟨e1, e2⟩ := first_unique he h h3
      subst e1; subst e2
      rw [ih h4]

/-! ## C69: comparison -/

/-- **C69.** The sign of `str-cmp` is that of the lexicographic comparison of the texts, or of their first `n` characters if a
positive number `n` is given; other numbers have no effect. -/
theorem C69_cmp {x y : List Byte} (hx : 0 ∈ x) (hy : 0 ∈ y) :
    (∃ (r : Arg b) (z : Int), strCmp F [.arr x, .arr y] = some r ∧ IsI r z ∧ Compares z (text x) (text y)) ∧
    ∀ (n : Arg b) (k : Int), IsInt n k → -2 ^ 31 ≤ k → k < 2 ^ 31 →
      ∃ (r : Arg b) (z : Int), strCmp F [.arr x, .arr y, n] = some r ∧ IsI r z ∧
        if 0 < k then Compares z ((text x).take k.toNat) ((text y).take k.toNat) else Compares z (text x) (text y) := by
  have dx : decStr (.arr x : Arg b) = some x := by cases x; simp at hx; rfl
  have dy : decStr (.arr y : Arg b) = some y := by cases y; simp at hy; rfl
  obtain ⟨z, e, h1, h2, h3⟩ := strcmp_eq hx hy
  refine ⟨⟨encInt z, z, ?_, encInt_isI (by omega) (by omega), h3⟩, ?_⟩
  · simp [strCmp, strCmp.go, dx, dy, strCmp.fin, e]
  · intro n k hn hk1 hk2
    obtain ⟨g1, g2⟩ := isInt_i32 (F := F) hn
    by_cases hk : 0 < k
    · obtain ⟨z, e, h1, h2, h3⟩ := strncmp_eq (n := k.toNat) hx hy
      refine ⟨encInt z, z, ?_, encInt_isI (by omega) (by omega), by rw [if_pos hk]; exact h3⟩
      simp only [strCmp, strCmp.go, dx, dy, g1, g2, i32_toInt hk1 hk2, strCmp.fin, Bool.not_true, Bool.false_eq_true, if_false]
      rw [if_pos hk, e]; rfl
    · refine ⟨encInt z, z, ?_, encInt_isI (by omega) (by omega), by rw [if_neg hk]; exact h3⟩
      simp only [strCmp, strCmp.go, dx, dy, g1, g2, i32_toInt hk1 hk2, strCmp.fin, Bool.not_true, Bool.false_eq_true, if_false]
      rw [if_neg (by omega), e]; rfl

/-! ## C70: searching -/

theorem scan_skip {sl sn : Nat} {d : List Byte} {y : Arg b} (hy : y.isNumber = false) (hs : ∀ n, y = .v (.sym n) → n ≠ sl ∧ n ≠ sn) (rest : List (Arg b)) :
    scanOpts F sl sn (.arr d :: y :: rest) {} = scanOpts F sl sn rest {} := by
  have h1 : scanOpts F sl sn (.arr d :: y :: rest) {} = scanOpts F sl sn (y :: rest) {} := by
    conv => lhs; unfold scanOpts
    simp [Arg.isNumber]
  rw [h1]
  conv => lhs; unfold scanOpts
  simp only [hy, Bool.false_and, Bool.false_eq_true, if_false]
  split
  · rename_i n
    obtain ⟨h2, h3⟩ := hs n rfl
    rw [if_neg h2, if_neg h3]
  · rfl

theorem listOf_arrs (subs : List (List Byte)) : (listOf (subs.map .arr) : Arg b) = listTo (subs.map .arr) nil := (listTo_nil _).symm

/-- **C70.** `str-find` with any options: the occurrence with the given number, 0 by default, among the occurrences at the indexes that the
start and the direction select; -1 if there are not so many.  Substrings are given by a string or a list of
strings. -/
theorem C70_find {s s' : S} (hA : A.cell s = some s') {sl sn : Nat} (hne : sl ≠ sn) (hl0 : sl ≠ symNIL) (hn0 : sn ≠ symNIL) {d : List Byte} {rest : List (Arg b)} {zs : List Int}
    (hr : HasInts rest zs) (hlen : rest.length ≤ 4) :
    (∀ sub, strFind F A sl sn s (.arr d :: .arr sub :: rest) =
      some (encInt (nth (hits (hasSym sn rest) d [sub] (order (hasSym sl rest) d.length zs[0]?)) ((zs[1]?.getD 0) % 2 ^ 32).toNat))) ∧
    ∀ subs : List (List Byte), strFind F A sl sn s (.arr d :: listOf (subs.map .arr) :: rest) =
      some (encInt (nth (hits (hasSym sn rest) d subs (order (hasSym sl rest) d.length zs[0]?)) ((zs[1]?.getD 0) % 2 ^ 32).toNat)) := by
  constructor
  · intro sub
    simp only [strFind, decStrSize, hA]
    rw [if_neg (by omega)]
    split
    · rename_i h
      have : sub = [] := by cases sub; rfl; simp at h; omega
      subst this
      have : hits (hasSym sn rest) d [[]] (order (hasSym sl rest) d.length zs[0]?) = [] := by
        simp [hits, Hit]
      rw [this]; rfl
    · rename_i h
      have hs := scan_skip (F := F) (sl := sl) (sn := sn) (d := d) (y := .arr sub) rfl (by simp) rest
      exact search_eq (subs := [sub]) (tail := nil) hne (by simp [nil]) (by omega)
        (by intro x hx _; simp only [List.mem_singleton] at hx; subst hx; omega) hr hs
  · intro subs
    have hw : (0 : Int) ≤ 2 ^ (b.w - 1) - 1 := by
      have : (0 : Int) < 2 ^ (b.w - 1) := Int.pow_pos (by omega)
      omega
    have key : ∀ y : Arg b, y = listOf (subs.map .arr) →
        (match minSub y (2 ^ (b.w - 1) - 1) with
          | none => terror
          | some m => strFind.search F sl sn d y m (.arr d :: y :: rest)) =
        some (encInt (nth (hits (hasSym sn rest) d subs (order (hasSym sl rest) d.length zs[0]?)) ((zs[1]?.getD 0) % 2 ^ 32).toNat)) := by
      intro y hy
      have hs := scan_skip (F := F) (sl := sl) (sn := sn) (d := d) (y := y) (by rw [hy]; cases subs <;> rfl)
        (by
          intro n hn
          rw [hy] at hn
          cases subs with
          | nil =>
            simp only [List.map_nil, listOf, nil, Arg.v.injEq, V.sym.injEq] at hn
            subst hn; exact ⟨hl0.symm, hn0.symm⟩
          | cons x t => simp [listOf] at hn) rest
      rw [listOf_arrs] at hy
      subst hy
      obtain ⟨m, e, _, h1, h2⟩ := minSub_eq (tail := (nil : Arg b)) (by simp [nil]) subs (2 ^ (b.w - 1) - 1)
      rw [e]
      exact search_eq (subs := subs) (tail := nil) hne (by simp [nil]) (h1 hw) h2 hr hs
    simp only [strFind, decStrSize]
    rw [if_neg (by omega)]
    have hl : (listOf (subs.map (.arr : List Byte → Arg b))).isList = true := isList_listTo
    cases subs with
    | nil =>
      have := key (listOf (([] : List (List Byte)).map .arr)) rfl
      have e : (listOf (([] : List (List Byte)).map (.arr : List Byte → Arg b))).isList = true := rfl
      obtain ⟨m, hm⟩ : ∃ m, minSub (listOf (([] : List (List Byte)).map (.arr : List Byte → Arg b))) (2 ^ (b.w - 1) - 1) = some m := ⟨_, rfl⟩
      rw [hm] at this
      simp only [List.map_nil, listOf, nil] at this hm ⊢
      simp only [Arg.isList, decide_true, if_true, hm]
      exact this
    | cons x t =>
      have := key (listOf ((x :: t).map .arr)) rfl
      obtain ⟨m, hm, _⟩ := minSub_eq (tail := (nil : Arg b)) (by simp [nil]) (x :: t) (2 ^ (b.w - 1) - 1)
      rw [← listOf_arrs] at hm
      rw [hm] at this
      simp only [List.map_cons, listOf] at this hm ⊢
      simp only [Arg.isList, if_true, hm]
      exact this

theorem hit_text {t p : List Byte} (hp : 0 ∉ p) (hne : p ≠ []) {i : Nat} : Hit false (t ++ [0]) (p ++ [0]) i ↔ At p t i := by
  have hpl : 0 < p.length := by cases p; exact absurd rfl hne; simp
  unfold Hit At
  simp only [List.dropLast_concat, List.length_append, List.length_singleton, Bool.false_eq_true, if_false]
  constructor
  · rintro ⟨_, h1, h2⟩
    by_cases hi : i + p.length ≤ t.length
    · rw [List.drop_append_of_le_length (by omega), List.take_append_of_le_length (by simp; omega)] at h2
      rw [List.prefix_iff_eq_take, h2]
    · exfalso
      have hi2 : i + p.length = t.length + 1 := by omega
      rw [List.drop_append_of_le_length (by omega), List.take_of_length_le (by simp; omega)] at h2
      exact hp (by rw [← h2]; simp)
  · intro h
    have hle := h.length_le
    rw [List.length_drop] at hle
    refine ⟨by simp, by omega, ?_⟩
    rw [List.drop_append_of_le_length (by omega), List.take_append_of_le_length (by simp; omega)]
    exact (List.prefix_iff_eq_take.1 h).symm

theorem nth_zero_flatMap {p : Nat → Prop} [DecidablePred p] (f : Nat → List Nat) (hf : ∀ i, f i = if p i then [i] else []) : ∀ (k i : Nat),
    (∃ j, i ≤ j ∧ j < i + k ∧ p j ∧ (∀ m, i ≤ m → m < j → ¬ p m) ∧ nth ((List.range' i k).flatMap f) 0 = j) ∨
      ((∀ j, i ≤ j → j < i + k → ¬ p j) ∧ nth ((List.range' i k).flatMap f) 0 = -1) := by
  intro k
  induction k with
  | zero => intro i; right; exact ⟨by intros; omega, rfl⟩
  | succ k ih =>
    intro i
    rw [List.range'_succ, List.flatMap_cons, hf]
    by_cases h : p i
    · left
      rw [if_pos h]
      exact ⟨i, by omega, by omega, h, by intros; omega, rfl⟩
    · rw [if_neg h, List.nil_append]
      rcases ih (i + 1) with ⟨j, h1, h2, h3, h4, h5⟩ | ⟨h1, h2⟩
      · left
        refine ⟨j, by omega, by omega, h3, ?_, h5⟩
        intro m hm1 hm2
        by_cases hm : m = i
        · subst hm; exact h
        · exact h4 m (by omega) hm2
      · right
        refine ⟨?_, h2⟩
        intro j hj1 hj2
        by_cases hj : j = i
        · subst hj; exact h
        · exact h1 j (by omega) (by omega)

/-- **C70.** Without options the result is the first index where the pattern occurs in the text, or -1. -/
theorem C70_first {s s' : S} (hA : A.cell s = some s') {sl sn : Nat} (hne : sl ≠ sn) (hl0 : sl ≠ symNIL) (hn0 : sn ≠ symNIL) {t p : List Byte} (ht : t.length < 2 ^ 26) (hp : 0 ∉ p) (hp1 : p ≠ []) :
    ∃ r : Arg b, strFind F A sl sn s [str t, str p] = some r ∧
      ((∃ i : Nat, At p t i ∧ (∀ j, j < i → ¬ At p t j) ∧ IsI r i) ∨ (∀ i, ¬ At p t i) ∧ IsI r (-1)) := by
  have h := (C70_find (b := b) (F := F) hA hne hl0 hn0 (d := t ++ [0]) (rest := []) (zs := []) .nil (by simp)).1 (p ++ [0])
  have ho : order (hasSym sl ([] : List (Arg b))) (t ++ [0]).length (([] : List Int)[0]?) = List.range' 0 (t.length + 2) := by
    simp [order, hasSym, startAt]
  have hz : ((([] : List Int)[1]?.getD 0) % 2 ^ 32).toNat = 0 := rfl
  rw [ho, hz] at h
  refine ⟨_, h, ?_⟩
  have hs : hasSym sn ([] : List (Arg b)) = false := rfl
  rw [hs]
  have hf : ∀ i, (([p ++ [0]].filter fun sub => Hit false (t ++ [0]) sub i).map fun _ => i) = if Hit false (t ++ [0]) (p ++ [0]) i then [i] else [] := by
    intro i
    by_cases h : Hit false (t ++ [0]) (p ++ [0]) i
    · rw [if_pos h, List.filter_cons_of_pos (p := fun sub => decide (Hit false (t ++ [0]) sub i)) (decide_eq_true h)]; rfl
    · rw [if_neg h, List.filter_cons_of_neg (p := fun sub => decide (Hit false (t ++ [0]) sub i)) (by rw [decide_eq_false h]; simp)]; rfl
  rcases nth_zero_flatMap _ hf (t.length + 2) 0 with ⟨j, _, h2, h3, h4, h5⟩ | ⟨h1, h2⟩
  · left
    refine ⟨j, (hit_text hp hp1).1 h3, fun m hm => ?_, ?_⟩
    · intro hm2
      exact h4 m (by omega) hm ((hit_text hp hp1).2 hm2)
    · unfold hits
      rw [h5]
      exact encInt_isI (by omega) (by omega)
  · right
    constructor
    · intro i hi
      by_cases hi2 : i < t.length + 2
      · exact h1 i (by omega) (by omega) ((hit_text hp hp1).2 hi)
      · have := hi.length_le
        rw [List.length_drop] at this
        have : 0 < p.length := by cases p; exact absurd rfl hp1; simp
        omega
    · unfold hits
      rw [h2]
      exact encInt_isI (by omega) (by omega)

/-- **C70 is violated by an empty pattern and a search from the right**: the index is behind the terminator. -/
theorem C70_left_empty_violated {s s' : S} (hA : A.cell s = some s') {sl sn : Nat} (hne : sl ≠ sn) (hl0 : sl ≠ symNIL) (hn0 : sn ≠ symNIL) :
    strFind F A sl sn s [(str (ascii "abc") : Arg b), str [], .v (.sym sl)] = some (encInt 4) := by
  have h := (C70_find (F := F) hA hne hl0 hn0 (d := ascii "abc" ++ [0]) (rest := [(.v (.sym sl) : Arg b)]) (zs := []) (.sym .nil) (by simp)).1 [0]
  have h1 : hasSym sl [(.v (.sym sl) : Arg b)] = true := by simp [hasSym]
  have h2 : hasSym sn [(.v (.sym sl) : Arg b)] = false := by simp [hasSym, hne]
  rw [h1, h2] at h
  exact h

/-! ## C71: numbers and text -/

/-- **C71, partial.** `str-from-n` of an integer between -2^31 and 2^31 - 1 is its decimal text. -/
theorem C71_from_n_partial {fmtG : Num b → List Byte} {s : S} {n : Arg b} {z : Int} (hn : IsInt n z) (h1 : -2 ^ 31 ≤ z) (h2 : z < 2 ^ 31) :
    Gives A s (decimal z) (strFromN F A fmtG s [n]) := by
  obtain ⟨m, rfl, hm, rfl⟩ := hn
  exact strFromN_eq hm h1 h2

/-- **C71, partial.** `str-to-i` reads digits in a base from 2 to 36 with an optional sign. -/
theorem C71_to_i_partial {base : Arg b} {k : Nat} (hb : IsInt base k) (hk : 2 ≤ k) (hk2 : k ≤ 36) (sg : Sign) {ds : List Byte} (hne : ds ≠ []) (h : ∀ c ∈ ds, digitVal c < k)
    (hv1 : -2 ^ 31 ≤ sg.of (value k ds)) (hv2 : sg.of (value k ds) < 2 ^ 31) :
    ∃ n : Num b, strToI F true [str (sg.text ++ ds), base] = some (.v (.num n)) ∧ n.ty = .i32 ∧ n.val = sg.of (value k ds) := by
  have h0 : 0 ∉ sg.text ++ ds := by
    intro hz
    rcases List.mem_append.1 hz with hz | hz
    · cases sg <;> simp [Sign.text, ascii] at hz
    · exact (digit_not_special 0 (by have := h 0 hz; omega)).2.2.2 rfl
  obtain ⟨g1, g2⟩ := isInt_u32 (F := F) hb
  have hd : decStr (str (sg.text ++ ds) : Arg b) = some (sg.text ++ ds ++ [0]) := by
    unfold str
    cases e : sg.text ++ ds ++ [0] with
    | nil => simp at e
    | cons x t => rfl
  obtain ⟨n, e, h3, h4⟩ := enc_isI32 (b := b) hv1 hv2
  refine ⟨n, ?_, h3, h4⟩
  have hw : (2 : Int) ^ 31 ≤ 2 ^ (b.w - 1) := by rcases w_cases' b with h | h <;> rw [h] <;> decide
  have hk3 : (BitVec.ofInt 32 (k : Int)).toInt = k := i32_toInt (by omega) (by omega)
  have ht := strtol_digits (w := b.w) hk hk2 sg hne h (by omega)
  have hc : cstr (sg.text ++ ds ++ [0]) = some (sg.text ++ ds) := by rw [cstr_eq (by simp), text_append (r := []) h0]
  simp only [strToI, strToI.go, hd, g1, if_true, strToI.fin, hc, Option.map_some, g2, hk3, ht, e]

/-- **C71.** The digits: 0 to 9, then the letters, in either case; nothing else is a digit. -/
theorem C71_digits : (∀ v : Fin 10, digitVal (BitVec.ofNat 8 ('0'.toNat + v.1)) = v.1) ∧
    (∀ v : Fin 26, digitVal (BitVec.ofNat 8 ('a'.toNat + v.1)) = 10 + v.1 ∧ digitVal (BitVec.ofNat 8 ('A'.toNat + v.1)) = 10 + v.1) ∧
    ∀ c : Byte, digitVal c < 36 → (∃ v : Fin 10, c = BitVec.ofNat 8 ('0'.toNat + v.1)) ∨
      ∃ v : Fin 26, c = BitVec.ofNat 8 ('a'.toNat + v.1) ∨ c = BitVec.ofNat 8 ('A'.toNat + v.1) := by
  decide +kernel

/-- **C71, partial.** Every integer between -2^31 and 2^31 - 1 can be read back from its text, with base 10 or without. -/
theorem C71_roundtrip_partial {fmtG : Num b → List Byte} (hA : A.Enough) {s : S} {n base : Arg b} {z : Int} (hn : IsInt n z) (hb : IsInt base 10) (h1 : -2 ^ 31 ≤ z) (h2 : z < 2 ^ 31) :
    ∃ (t : Arg b) (m : Num b), strFromN F A fmtG s [n] = some t ∧ strToI F true [t] = some (.v (.num m)) ∧
      strToI F true [t, base] = some (.v (.num m)) ∧ m.ty = .i32 ∧ m.val = z := by
  have hf := C71_from_n_partial (F := F) (A := A) (fmtG := fmtG) (s := s) hn h1 h2
  unfold Gives at hf
  rw [if_pos (hA s _).1] at hf
  obtain ⟨m, e, h3, h4⟩ := enc_isI32 (b := b) h1 h2
  have hd : decStr (str (decimal z) : Arg b) = some (decimal z ++ [0]) := by
    unfold str
    cases e : decimal z ++ [0] with
    | nil => simp at e
    | cons x t => rfl
  have hc : cstr (decimal z ++ [0]) = some (decimal z) := by rw [cstr_eq (by simp), text_append (r := []) (decimal_no_zero z)]
  have hw : (2 : Int) ^ 31 ≤ 2 ^ (b.w - 1) := by rcases w_cases' b with h | h <;> rw [h] <;> decide
  obtain ⟨g1, g2⟩ := isInt_u32 (F := F) hb
  have h10 : (BitVec.ofInt 32 10).toInt = 10 := rfl
  have s0 := strtol_decimal (w := b.w) (z := z) ⟨by omega, by omega⟩ (.inl rfl)
  have s10 := strtol_decimal (w := b.w) (z := z) ⟨by omega, by omega⟩ (.inr rfl)
  refine ⟨_, m, hf, ?_, ?_, h3, h4⟩
  · have s0' : strtol b.w (decimal z) 0 = z := s0
    simp only [strToI, strToI.go, hd, strToI.fin, hc, Option.map_some, s0', e]
  · have s10' : strtol b.w (decimal z) 10 = z := s10
    simp only [strToI, strToI.go, hd, g1, if_true, strToI.fin, hc, Option.map_some, g2, h10, s10', e]

/-- **C71 is violated by larger integers**: `(str-from-n 4294967295u32)` is "-1". -/
theorem C71_wide_violated {fmtG : Num b → List Byte} (hA : A.Enough) {s : S} {n : Arg b} (hn : IsInt n (2 ^ 32 - 1)) :
    strFromN F A fmtG s [n] = some (str (ascii "-1")) := by
  obtain ⟨m, rfl, hm, hv⟩ := hn
  have e : decAsI32 F (.num m) = -1 := by rw [decAsI32_eq F m hm, hv]; rfl
  have e2 : Print.intText ((-1 : BitVec 32)).toInt = ascii "-1" := by decide +kernel
  obtain ⟨s', hs'⟩ := Option.isSome_iff_exists.1 (hA s 3).1
  have key : (match A.arr s (min (ascii "-1").length 100 + 1) with
      | none => (merror : Option (Arg b))
      | some _ => (memcpy (zeros (min (ascii "-1").length 100 + 1)) 0 ((ascii "-1").take 99 ++ [0]) (min (ascii "-1").length 100)).bind fun d =>
          (writeAt d (min (ascii "-1").length 100) [0]).map .arr) = some (str (ascii "-1")) := by
    have hl : min (ascii "-1").length 100 = 2 := by decide +kernel
    rw [hl, hs']
    have : (memcpy (zeros 3) 0 ((ascii "-1").take 99 ++ [0]) 2).bind (fun d => writeAt d 2 [0]) = some (ascii "-1" ++ [0]) := by decide +kernel
    simp only [str]
    cases hm : memcpy (zeros 3) 0 ((ascii "-1").take 99 ++ [0]) 2 with
    | none => rw [hm] at this; simp at this
    | some d => rw [hm, Option.bind_some] at this; rw [Option.bind_some, this]; rfl
  rw [← key]
  cases m <;> first
    | (simp [Num.ty, Ty.int] at hm; done)
    | (simp only [strFromN]; rw [e, e2]; cases A.arr s _ <;> rfl)

/-- **C71 is violated by larger numbers in the text**, differently on the two builds: "4294967297" is read as 1 where words have 64 bits and
as 2147483647 where they have 32. -/
theorem C71_large_violated :
    strToI F true [(str (ascii "4294967297") : Arg .b64)] = some (.v (.num (.i32 1))) ∧
    strToI F true [(str (ascii "4294967297") : Arg .b32)] = some (.v (.num (.i32 2147483647))) := by
  have h64 : strtol 64 (ascii "4294967297") 0 = 4294967297 := by decide +kernel
  have h32 : strtol 32 (ascii "4294967297") 0 = 2147483647 := by decide +kernel
  have hc : cstr (ascii "4294967297" ++ [0]) = some (ascii "4294967297") := by decide +kernel
  have hd : ∀ b : Build, decStr (str (ascii "4294967297") : Arg b) = some (ascii "4294967297" ++ [0]) := fun b => rfl
  constructor
  · simp only [strToI, strToI.go, hd, strToI.fin, hc, Option.map_some]
    rw [show Build.b64.w = 64 from rfl, h64, enc_ok]; rfl
  · simp only [strToI, strToI.go, hd, strToI.fin, hc, Option.map_some]
    rw [show Build.b32.w = 32 from rfl, h32, enc_ok]; rfl

/-! ## C72: to-str -/

theorem strncpySrc_text {t r : List Byte} (h0 : 0 ∉ t) : ∀ {n : Nat}, t.length < n → strncpySrc (t ++ 0 :: r) n = some (t ++ zeros (n - t.length)) := by
  induction t with
  | nil =>
    intro n hn
    cases n with
    | zero => simp at hn
    | succ n => simp [strncpySrc, zeros]
  | cons x t ih =>
    intro n hn
    cases n with
    | zero => simp at hn
    | succ n =>
      have hx : x ≠ 0 := fun e => h0 (by simp [e])
      simp only [List.cons_append, strncpySrc, hx, if_false]
      rw [ih (fun h => h0 (List.mem_cons_of_mem _ h)) (by simpa using hn)]
      simp

/-- **C72, partial.** The result of `to-str` and `to-str-delim` is the texts of the arguments with the delimiter between them, cut off
after 298 characters; the array is as large as necessary, 300 bytes if the text has been cut off.  The
arguments have nonempty texts and there is at least one. -/
theorem C72_to_str_partial {pr : Arg b → List Byte} {delim junk : List Byte} (hj : junk.length = 300) (hA : A.Enough) {s : S} {args : List (Arg b)} (hne : args ≠ [])
    (h : ∀ a ∈ args, pr a ≠ [] ∧ 0 ∉ pr a) (hd : 0 ∉ delim) :
    let full := List.intercalate delim (args.map pr)
    (full.length ≤ 298 → toStr A pr delim (some junk) s args = some (str full)) ∧
    (298 < full.length → toStr A pr delim (some junk) s args = some (.arr (full.take 298 ++ [0, 0]))) := by
  intro full
  obtain ⟨ofs, buf, e, hl⟩ := toStrLoop_eq (pr := pr) (delim := delim) args (fun a ha => (h a ha).1) (ofs := 0) (buf := junk) (full := [])
    ⟨hj, fun _ => ⟨rfl, fun h => absurd rfl h⟩, fun h => by simp at h⟩
  have hg : glued delim [] (args.map pr) = full := by
    cases args with
    | nil => exact absurd rfl hne
    | cons a t =>
      simp only [List.map_cons, glued, if_true]
      exact glued_join (h a (by simp)).1
  rw [hg] at hl
  have hfne : full ≠ [] := by
    cases args with
    | nil => exact absurd rfl hne
    | cons a t =>
      intro e
      have := glued_length delim (t.map pr) (pr a) (h a (by simp)).1
      rw [glued_join (h a (by simp)).1] at this
      have h2 : (full : List Byte) = List.intercalate delim (pr a :: t.map pr) := rfl
      rw [← h2, e] at this
      have h3 := (h a (by simp)).1
      cases hp : pr a with
      | nil => exact h3 hp
      | cons x u => rw [hp] at this; simp at this
  have hz : 0 ∉ full := by
    have : ∀ (ts : List (List Byte)), (∀ t ∈ ts, 0 ∉ t) → 0 ∉ List.intercalate delim ts := by
      intro ts
      induction ts with
      | nil => intro _; simp [List.intercalate]
      | cons a t ih =>
        intro hts
        cases t with
        | nil => simpa [List.intercalate] using hts a (by simp)
        | cons c t =>
          have h2 := ih (fun x hx => hts x (List.mem_cons_of_mem _ hx))
          have h3 := hts a (by simp)
          have : List.intercalate delim (a :: c :: t) = a ++ delim ++ List.intercalate delim (c :: t) := by simp [List.intercalate]
          rw [this]
          intro hm
          rcases List.mem_append.1 hm with hm | hm
          · rcases List.mem_append.1 hm with hm | hm
            · exact h3 hm
            · exact hd hm
          · exact h2 hm
    apply this
    intro t ht
    obtain ⟨a, ha, rfl⟩ := List.mem_map.1 ht
    exact (h a ha).2
  obtain ⟨s', hs'⟩ := Option.isSome_iff_exists.1 (hA s (ofs + 1)).1
  have hr : toStr A pr delim (some junk) s args = (strncpy (zeros (ofs + 1)) 0 buf (ofs + 1)).map .arr := by
    simp only [toStr, e, Option.bind_some, hs']
  rw [hr]
  constructor
  · intro hle
    obtain ⟨ho, hb⟩ := hl.fits (by omega)
    obtain ⟨r, hr2⟩ := hb hfne
    subst ho
    unfold strncpy
    rw [hr2, strncpySrc_text hz (by omega), Option.bind_some, writeAt_zeros0 (by simp [zeros])]
    simp [str, zeros]
  · intro hgt
    obtain ⟨ho, r, hb⟩ := hl.cut (by omega)
    subst ho
    have hlt : (full.take 298).length = 298 := by rw [List.length_take]; omega
    unfold strncpy
    rw [hb, strncpySrc_text (fun h => hz (List.mem_of_mem_take h)) (by omega), Option.bind_some, hlt,
      writeAt_zeros0 (by simp only [List.length_append, hlt, zeros, List.length_replicate]; omega)]
    simp only [List.length_append, hlt, zeros, List.length_replicate, Option.map_some, Nat.reduceAdd, Nat.reduceSub,
      List.replicate_zero, List.append_nil]
    rfl

/-- **C72 is violated without arguments**: the result is one byte of what the memory contained, without a terminator. -/
theorem C72_no_arguments_violated {pr : Arg b → List Byte} {delim junk : List Byte} {x : Byte} (hx : x ≠ 0) (hA : A.Enough) {s : S} :
    toStr A pr delim (some (x :: junk)) s [] = some (.arr [x]) := by
  obtain ⟨s', hs'⟩ := Option.isSome_iff_exists.1 (hA s 1).1
  simp only [toStr, toStrLoop, Option.bind_some, Nat.zero_add, hs']
  have hx' : x ≠ 0#8 := hx
  simp [strncpy, strncpySrc, hx', writeAt, zeros]

/-- **C72 is violated by empty texts at the beginning**: the delimiter after them is left out. -/
theorem C72_empty_violated {pr : Arg b → List Byte} {junk : List Byte} (hj : junk.length = 300) (hA : A.Enough) {s : S} {a c : Arg b} (ha : pr a = []) (hc : pr c = ascii "x") :
    toStr A pr (ascii ",") (some junk) s [a, c] = some (str (ascii "x")) ∧ List.intercalate (ascii ",") ([a, c].map pr) = ascii ",x" := by
  obtain ⟨s', hs'⟩ := Option.isSome_iff_exists.1 (hA s 2).1
  constructor
  · match junk, hj with
    | x :: y :: j, hj =>
      have h1 : snprintfAt (x :: y :: j) 0 299 [] = some (0 :: y :: j) := by
        simp [snprintfAt, writeAt]
      have h2 : snprintfAt (0 :: y :: j) 0 299 (ascii "x") = some (120 :: 0 :: j) := by
        simp [snprintfAt, writeAt, ascii]
      have hl : (ascii "x").length = 1 := rfl
      have hn : ([] : List Byte).length = 0 := rfl
      simp only [toStr, toStrLoop, ha, hc, if_true, Nat.sub_zero, Nat.reduceSub, h1, h2, Option.bind_some, hl, hn, ge_iff_le, Nat.reduceLeDiff, if_false,
        Nat.zero_add, Nat.add_zero, Nat.reduceAdd, hs']
      simp [strncpy, strncpySrc, writeAt, zeros, str, ascii]
  · simp only [List.map_cons, List.map_nil, ha, hc]
    decide +kernel

/-! ## Examples -/

theorem units_cell : units.cell 5 = some 4 := rfl

def demoText : List Byte := ascii "one, two,three"

/-- Arguments as the theorems want them. -/
example : Terminated (str demoText : Arg .b32) ∧ Sized 100 (str demoText : Arg .b32) ∧ text (demoText ++ [0]) = demoText := by
  refine ⟨?_, ?_, by decide +kernel⟩
  · unfold str Terminated; simp
  · unfold str Sized; decide +kernel

/-- The pieces of the text, by characters and by length, and the text without `", "`. -/
example : Splits (ascii ", ") demoText [ascii "one", ascii "two", ascii "three"] := by
  have h3 : Splits (ascii ", ") (ascii ",three") [ascii "three"] :=
    .piece (g := ascii ",") (p := ascii "three") (t := []) (by decide +kernel) (by decide +kernel) (by decide +kernel) (by simp) (.none (by simp))
  have h2 : Splits (ascii ", ") (ascii ", two,three") [ascii "two", ascii "three"] :=
    .piece (g := ascii ", ") (p := ascii "two") (t := ascii ",three") (by decide +kernel) (by decide +kernel) (by decide +kernel)
      (fun x hx => by cases hx; decide +kernel) h3
  exact .piece (g := []) (p := ascii "one") (t := ascii ", two,three") (by simp) (by decide +kernel) (by decide +kernel)
      (fun x hx => by cases hx; decide +kernel) h2

example : Chunks 6 demoText [ascii "one, t", ascii "wo,thr", ascii "ee"] := by unfold Chunks; decide +kernel

/-- A list of strings as texts, for examples. -/
def strings : Arg b → List (List Byte)
  | .arr d => [text d]
  | .cons (.arr d) t => text d :: strings t
  | .v (.sym n) => if n = symNIL then [] else [ascii "error"]
  | _ => []

/-- The model on these examples; without memory `str-split` gives the memory error. -/
example : (strSplit (b := .b32) noFpu units 20 [str demoText, str (ascii ", ")]).map strings = some [ascii "one", ascii "two", ascii "three"] ∧
    (strSplit (b := .b32) noFpu units 4 [str demoText, str (ascii ", ")]).map strings = some [ascii "error"] ∧
    (strReplace (b := .b64) units 20 [str demoText, str (ascii ","), str (ascii ";;")]).map strings = some [ascii "one;; two;;three"] := by
  decide +kernel

example : IsInt (.v (.num (.u32 4294967295)) : Arg .b32) (2 ^ 32 - 1) ∧ IsInt (.v (.num (.i (-1))) : Arg .b64) (-1) :=
  ⟨⟨_, rfl, rfl, rfl⟩, ⟨_, rfl, rfl, rfl⟩⟩

/-- Options of `str-find`. -/
example : HasInts [(.v (.sym 300000) : Arg .b32), .v (.num (.i 3)), .v (.num (.i 1))] [3, 1] :=
  .sym (.int ⟨_, rfl, rfl, rfl⟩ (by decide) (by decide) (.int ⟨_, rfl, rfl, rfl⟩ (by decide) (by decide) .nil))

/-- From index 6 to the left the second "o" or "e" is at index 2. -/
example : nth (hits false (demoText ++ [0]) [ascii "o" ++ [0], ascii "e" ++ [0]] (order true 15 (some 6))) 1 = 0 ∧
    nth (hits false (demoText ++ [0]) [ascii "o" ++ [0], ascii "e" ++ [0]] (order true 15 (some 6))) 0 = 2 := by
  decide +kernel

/-- Digits in base 16 with a sign. -/
example : (∀ c ∈ ascii "7fFf", digitVal c < 16) ∧ Sign.minus.of (value 16 (ascii "7fFf")) = -32767 := by decide +kernel

example : decimal (-1234) = ascii "-1234" := by decide +kernel

end Verif.Str
