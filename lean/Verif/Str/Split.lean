import Verif.Str.Funs

/-!
# str-split and str-replace
-/

namespace Verif.Str

open Verif.Val (Build payload)
open Verif.Arith

variable {b : Build} {F : FOps} {S : Type} {A : Alloc S}

/-! ## Splitting by a number -/

theorem cint_eq {z : Int} (h1 : -2 ^ 31 ≤ z) (h2 : z < 2 ^ 31) : cint z = some z := if_pos ⟨h1, h2⟩

theorem shrinkStep_eq {ind len : Nat} (hi : ind < len) (hl : ind + n < 2 ^ 31) :
    shrinkStep ind len n = some (min n (len - ind)) := by
  induction n with
  | zero => simp [shrinkStep]
  | succ n ih =>
    unfold shrinkStep
    rw [cint_eq (by omega) (by omega), Option.bind_some]
    split
    · rw [ih (by omega)]; congr 1; omega
    · congr 1; omega

theorem consTok_none {s : S} {tok : List Byte} {res : Arg b} (h : A.cell s = none) : consTok A s tok res = (s, .v (.sym symMERROR)) := by
  simp [consTok, h]

theorem consTok_some {s s' : S} {tok : List Byte} {res : Arg b} (h : A.cell s = some s') : consTok A s tok res = (s', .cons (.arr tok) res) := by
  simp [consTok, h]

/-- With the memory used up the result is the memory error. -/
theorem splitStep_full {d : List Byte} {len : Nat} {n : Nat} (h1 : 1 ≤ n) (hn : n < 2 ^ 31 - 2 ^ 30 ∨ True) : ∀ (k : Nat) (s : S), A.cell s = none →
    (∀ i, i < k → i = 0 ∨ i * n ≤ len) → len ≤ 2 ^ 30 → n < 2 ^ 31 →
    splitStep A d len n k s (.v (.sym symMERROR) : Arg b) = merror := by
  intro k
  induction k with
  | zero => intros; rfl
  | succ k ih =>
    intro s hs hk hl hn2
    unfold splitStep
    have hb : (k : Int) * n = ((k * n : Nat) : Int) := by simp
    have hk' := hk k (by omega)
    have hkn : k * n ≤ len := by
      rcases hk' with h | h
      · subst h; simp
      · exact h
    rw [hb, cint_eq (by omega) (by omega), Option.bind_some]
    split
    · exact ih s hs (fun i hi => hk i (by omega)) hl hn2
    · rename_i hge
      have hlt : k * n < len := by omega
      have hlt2 : k * n + n < 2 ^ 31 := by
        by_cases h0 : k = 0
        · subst h0; omega
        · have : 1 * n ≤ k * n := Nat.mul_le_mul_right _ (by omega)
          omega
      rw [shrinkStep_eq hlt hlt2, Option.bind_some, A.needs s _ hs]

theorem text_take {d : List Byte} {i n : Nat} (h : i + n ≤ (text d).length) : (d.drop i).take n = ((text d).drop i).take n := by
  rw [← drop_text (by omega)]
  have h2 := drop_text (d := d) (k := i) (by omega)
  have h3 : n ≤ (text (d.drop i)).length := by rw [h2, List.length_drop]; omega
  obtain ⟨r, hr⟩ := text_prefix (d.drop i)
  conv => lhs; rw [← hr]
  exact List.take_append_of_le_length h3

theorem splitStep_eq {d : List Byte} {n : Nat} (h1 : 1 ≤ n) (hn : n < 2 ^ 31) (hl : (text d).length ≤ 2 ^ 30) : ∀ (k : Nat) (s : S) (ps : List (List Byte)),
    (∀ i, i < k → i = 0 ∨ i * n ≤ (text d).length) → Chunks n ((text d).drop (k * n)) ps →
    ∃ r, splitStep A d (text d).length n k s (listOf (ps.map str) : Arg b) = some r ∧
      (r = .v (.sym symMERROR) ∨ ∃ qs, Chunks n (text d) qs ∧ r = listOf (qs.map str)) ∧
      (A.Enough → ∃ qs, Chunks n (text d) qs ∧ r = listOf (qs.map str)) := by
  intro k
  induction k with
  | zero =>
    intro s ps _ hc
    simp only [Nat.zero_mul, List.drop_zero] at hc
    exact ⟨_, rfl, .inr ⟨ps, hc, rfl⟩, fun _ => ⟨ps, hc, rfl⟩⟩
  | succ k ih =>
    intro s ps hk hc
    unfold splitStep
    have hb : (k : Int) * n = ((k * n : Nat) : Int) := by simp
    have hk' := hk k (by omega)
    have hkn : k * n ≤ (text d).length := by
      rcases hk' with h | h
      · subst h; simp
      · exact h
    have hkk : (k + 1) * n = k * n + n := by rw [Nat.add_mul]; simp
    rw [hb, cint_eq (by omega) (by omega), Option.bind_some]
    split
    · rename_i hge
      refine ih s ps (fun i hi => hk i (by omega)) ?_
      rw [List.drop_eq_nil_of_le (by omega)] at hc ⊢
      exact hc
    · rename_i hge
      have hlt : k * n < (text d).length := by omega
      have hlt2 : k * n + n < 2 ^ 31 := by
        by_cases h0 : k = 0
        · subst h0; omega
        · have : 1 * n ≤ k * n := Nat.mul_le_mul_right _ (by omega)
          omega
      rw [shrinkStep_eq hlt hlt2, Option.bind_some]
      have hm1 : 1 ≤ min n ((text d).length - k * n) := by omega
      generalize hm : min n ((text d).length - k * n) = m at hm1
      cases ha : A.arr s (m + 1) with
      | none =>
        refine ⟨_, rfl, .inl rfl, ?_⟩
        intro he
        have := (he s (m + 1)).1
        rw [ha] at this; cases this
      | some s1 =>
        simp only
        have hdl := text_length_le d
        have hf := fill_eq (d := d.drop (k * n)) (n := m) (by simp; omega)
        have hti : ((k * n : Nat) : Int).toNat = k * n := Int.toNat_natCast _
        rw [hti]
        rw [← Option.bind_assoc, hf, Option.bind_some, text_take (by omega)]
        generalize hq : ((text d).drop (k * n)).take m = q
        have hql : q.length = m := by rw [← hq]; simp; omega
        cases hcell : A.cell s1 with
        | none =>
          rw [consTok_none hcell]
          refine ⟨_, splitStep_full h1 (.inr trivial) k s1 hcell (fun i hi => hk i (by omega)) hl hn, .inl rfl, ?_⟩
          intro he
          have := (he s1 0).2
          rw [hcell] at this; cases this
        | some s2 =>
          rw [consTok_some hcell]
          refine ih s2 (q :: ps) (fun i hi => hk i (by omega)) ?_
          obtain ⟨c1, c2, c3⟩ := hc
          refine ⟨?_, ?_, ?_⟩
          · rw [List.flatten_cons, c1, ← hq, hkk]
            by_cases hnl : n ≤ (text d).length - k * n
            · have : m = n := by omega
              rw [this, ← List.drop_drop, List.take_append_drop]
            · rw [List.drop_eq_nil_of_le (as := text d) (i := k * n + n) (by omega), List.append_nil]
              exact List.take_of_length_le (by rw [List.length_drop]; omega)
          · intro p hp
            rcases List.mem_cons.1 hp with e | e
            · subst e; omega
            · exact c2 p e
          · intro p hp
            cases ps with
            | nil => simp at hp
            | cons p1 ps1 =>
              rw [List.dropLast_cons_of_ne_nil (by simp)] at hp
              rcases List.mem_cons.1 hp with e | e
              · subst e
                rw [hql]
                have hp1 := (c2 p1 (by simp)).1
                have : (p1 :: ps1).flatten.length = ((text d).drop ((k + 1) * n)).length := by rw [c1]
                simp only [List.flatten_cons, List.length_append, List.length_drop] at this
                omega
              · exact c3 p e

theorem tdiv_nat (a c : Nat) : Int.tdiv (a : Int) (c : Int) = ((a / c : Nat) : Int) := by
  rw [Int.tdiv_eq_ediv_of_nonneg (by omega)]; rfl

theorem ofNat_toInt {k : Nat} (h : k < 2 ^ 31) : (BitVec.ofNat 32 k).toInt = k := by
  rw [BitVec.toInt_eq_toNat_bmod, BitVec.toNat_ofNat, Nat.mod_eq_of_lt (by omega), Int.bmod_eq_of_le]
  all_goals (simp; try omega)

theorem strSplit_any {s : S} {d : List Byte} {n : Arg b} (hd : d.length ≤ 2 ^ 30) (h1 : n.isNumber = true) :
    ∃ r, strSplit F A s [.arr d, n] = some r ∧
      (r = .v (.sym symMERROR) ∨ ∃ qs, Chunks (stepOf (decAsI32 F n.val).toInt) (text d) qs ∧ r = listOf (qs.map str)) ∧
      (A.Enough → ∃ qs, Chunks (stepOf (decAsI32 F n.val).toInt) (text d) qs ∧ r = listOf (qs.map str)) := by
  have hl := text_length_le d
  have hdec : decStr n = none := by cases n <;> first | rfl | (simp [Arg.isNumber] at h1)
  simp only [strSplit, decStrSize, hdec, h1, if_true, strlenMax_eq, Option.bind_some, ofNat_toInt (show (text d).length < 2 ^ 31 by omega)]
  have hb1 := BitVec.toInt_lt (x := decAsI32 F n.val)
  generalize (decAsI32 F n.val).toInt = z at hb1 ⊢
  have hs : (max z 1).toNat = stepOf z := rfl
  rw [hs]
  have hs1 : 1 ≤ stepOf z := by unfold stepOf; omega
  have hs2 : stepOf z < 2 ^ 31 := by unfold stepOf; omega
  generalize stepOf z = m at hs1 hs2 ⊢
  rw [tdiv_nat]
  have e : ((((text d).length / m : Nat) : Int) + 1).toNat = (text d).length / m + 1 := by
    generalize (text d).length / m = q; omega
  rw [e]
  refine splitStep_eq hs1 hs2 (by omega) _ s [] ?_ ?_
  · intro i hi
    right
    have : i ≤ (text d).length / m := by omega
    exact (Nat.le_div_iff_mul_le hs1).1 this
  · refine ⟨?_, by simp, by simp⟩
    rw [List.drop_eq_nil_of_le]
    · rfl
    · have := Nat.lt_mul_div_succ (text d).length hs1
      rw [Nat.mul_comm]
      omega

theorem strSplit_num {s : S} {d : List Byte} {n : Arg b} {z : Int} (hd : d.length ≤ 2 ^ 30) (hn : IsInt n z) (hz1 : -2 ^ 31 ≤ z) (hz2 : z < 2 ^ 31) :
    ∃ r, strSplit F A s [.arr d, n] = some r ∧
      (r = .v (.sym symMERROR) ∨ ∃ qs, Chunks (stepOf z) (text d) qs ∧ r = listOf (qs.map str)) ∧
      (A.Enough → ∃ qs, Chunks (stepOf z) (text d) qs ∧ r = listOf (qs.map str)) := by
  obtain ⟨h1, h2⟩ := isInt_i32 (F := F) hn
  have hti : (BitVec.ofInt 32 z).toInt = z := by
    rw [BitVec.toInt_ofInt, Int.bmod_eq_of_le]
    · simp; omega
    · simp; omega
  have := strSplit_any (F := F) (A := A) (s := s) hd h1
  rwa [h2, hti] at this

/-! ## Splitting by characters -/

theorem takeWhile_append_all {α : Type} {p : α → Bool} (l : List α) : l = l.takeWhile p ++ l.drop (l.takeWhile p).length := by
  conv => lhs; rw [← List.takeWhile_append_dropWhile (p := p) (l := l)]
  congr 1
  induction l with
  | nil => rfl
  | cons x t ih =>
    by_cases h : p x = true
    · rw [List.dropWhile_cons_of_pos h, List.takeWhile_cons_of_pos h]; simpa using ih
    · rw [List.dropWhile_cons_of_neg h, List.takeWhile_cons_of_neg h]; rfl

theorem mem_takeWhile {α : Type} {p : α → Bool} {l : List α} {x : α} (h : x ∈ l.takeWhile p) : p x = true := by
  induction l with
  | nil => cases h
  | cons y t ih =>
    by_cases hy : p y = true
    · rw [List.takeWhile_cons_of_pos hy] at h
      rcases List.mem_cons.1 h with e | e
      · exact e ▸ hy
      · exact ih e
    · rw [List.takeWhile_cons_of_neg hy] at h; cases h

/-- The element after the longest prefix fails the test. -/
theorem drop_takeWhile_head {α : Type} {p : α → Bool} (l : List α) (x : α) (t : List α) (h : l.drop (l.takeWhile p).length = x :: t) : p x = false := by
  induction l with
  | nil => simp at h
  | cons y l ih =>
    by_cases hy : p y = true
    · rw [List.takeWhile_cons_of_pos hy] at h
      exact ih (by simpa using h)
    · rw [List.takeWhile_cons_of_neg hy] at h
      simp only [List.length_nil, List.drop_zero, List.cons.injEq] at h
      rw [← h.1]; simpa using hy

theorem text_append_of {g p : List Byte} (h : ∀ x ∈ g, x ≠ 0) : text (g ++ p) = g ++ text p := by
  induction g with
  | nil => rfl
  | cons x g ih =>
    rw [List.cons_append, text_cons (h x (by simp)), ih (fun y hy => h y (by simp [hy])), List.cons_append]

theorem splitChars_full {split : List Byte} (hs : 0 ∈ split) : ∀ (fuel : Nat) (p : List Byte) (s : S), 0 ∈ p → p.length < fuel → A.cell s = none →
    splitChars A split fuel p s (.v (.sym symMERROR) : Arg b) = merror := by
  intro fuel p s hp hf hc
  cases fuel with
  | zero => omega
  | succ fuel =>
    unfold splitChars
    rw [strspn_eq hp hs, Option.bind_some]
    generalize hg : p.takeWhile (fun x => decide (x ∈ text split)) = g
    have hsp : p = g ++ p.drop g.length := by rw [← hg]; exact takeWhile_append_all p
    cases hq : p.drop g.length with
    | nil =>
      exfalso
      rw [hq, List.append_nil] at hsp
      rw [hsp, ← hg] at hp
      have := mem_takeWhile hp
      simp at this
      exact zero_not_mem_text split this
    | cons x t =>
      simp only
      by_cases hx : x = 0
      · rw [if_pos hx]; rfl
      · rw [if_neg hx]
        have h0 : 0 ∈ x :: t := by
          rw [hsp, hq] at hp
          rcases List.mem_append.1 hp with e | e
          · rw [← hg] at e
            have := mem_takeWhile e
            simp at this
            exact absurd this (zero_not_mem_text split)
          · exact e
        rw [strcspn_eq h0 hs, Option.bind_some, A.needs s _ hc]

theorem reverseLoop_eq (xs : List (Arg b)) : ∀ (acc : List (Arg b)), reverseLoop (listOf xs) (listOf acc) = listOf (xs.reverse ++ acc) := by
  induction xs with
  | nil => intro acc; rfl
  | cons a t ih =>
    intro acc
    simp only [listOf, reverseLoop]
    have := ih (a :: acc)
    simp only [listOf] at this
    rw [this]; simp

theorem reverse_listOf (xs : List (Arg b)) : reverse (listOf xs) = listOf xs.reverse := by
  cases xs with
  | nil => rfl
  | cons a t =>
    have := reverseLoop_eq (a :: t) []
    simp only [List.append_nil] at this
    exact this

theorem splitChars_eq {split : List Byte} (hs : 0 ∈ split) : ∀ (fuel : Nat) (p : List Byte) (s : S) (acc : List (List Byte)), 0 ∈ p → p.length < fuel →
    ∃ r, splitChars A split fuel p s (listOf (acc.map str) : Arg b) = some r ∧
      (r = .v (.sym symMERROR) ∨ ∃ qs, Splits (text split) (text p) qs ∧ r = listOf ((qs.reverse ++ acc).map str)) ∧
      (A.Enough → ∃ qs, Splits (text split) (text p) qs ∧ r = listOf ((qs.reverse ++ acc).map str)) := by
  intro fuel
  induction fuel with
  | zero => intro p s acc _ h; omega
  | succ fuel ih =>
    intro p s acc hp hf
    unfold splitChars
    rw [strspn_eq hp hs, Option.bind_some]
    generalize hg : p.takeWhile (fun x => decide (x ∈ text split)) = g
    have hsp : p = g ++ p.drop g.length := by rw [← hg]; exact takeWhile_append_all p
    have hgm : ∀ x ∈ g, x ∈ text split := fun x hx => by rw [← hg] at hx; simpa using mem_takeWhile hx
    have hg0 : ∀ x ∈ g, x ≠ 0 := fun x hx => text_not_zero (hgm x hx)
    cases hq : p.drop g.length with
    | nil =>
      exfalso
      rw [hq, List.append_nil] at hsp
      exact hg0 0 (hsp ▸ hp) rfl
    | cons x t =>
      rw [hq] at hsp
      have htp : text p = g ++ text (x :: t) := by rw [hsp]; exact text_append_of hg0
      simp only
      by_cases hx : x = 0
      · rw [if_pos hx]
        subst hx
        rw [text_zero, List.append_nil] at htp
        have : Splits (text split) (text p) [] := by rw [htp]; exact .none hgm
        exact ⟨_, rfl, .inr ⟨[], this, rfl⟩, fun _ => ⟨[], this, rfl⟩⟩
      · rw [if_neg hx]
        have h0 : 0 ∈ x :: t := by
          rw [hsp] at hp
          rcases List.mem_append.1 hp with e | e
          · exact absurd rfl (hg0 0 e)
          · exact e
        have hxs : x ∉ text split := by
          have := drop_takeWhile_head p x t (by rw [hg]; exact hq)
          simpa using this
        rw [strcspn_eq h0 hs, Option.bind_some]
        generalize hw : (x :: t).takeWhile (fun x => !decide (x ∈ text split) && x != 0) = w
        have hsw : x :: t = w ++ (x :: t).drop w.length := by rw [← hw]; exact takeWhile_append_all _
        have hwm : ∀ y ∈ w, y ∉ text split ∧ y ≠ 0 := fun y hy => by rw [← hw] at hy; simpa using mem_takeWhile hy
        have hwne : w ≠ [] := by
          rw [← hw, List.takeWhile_cons_of_pos (by simp [hxs]; exact hx)]; simp
        have hwl : w.length ≤ (x :: t).length := by
          have := congrArg List.length hsw
          rw [List.length_append] at this; omega
        have hwt : (x :: t).take w.length = w := by
          conv => lhs; rw [hsw]
          exact List.take_left
        cases ha : A.arr s (w.length + 1) with
        | none =>
          refine ⟨_, rfl, .inl rfl, ?_⟩
          intro he
          have := (he s (w.length + 1)).1
          rw [ha] at this; cases this
        | some s1 =>
          simp only
          rw [← Option.bind_assoc, fill_eq hwl, Option.bind_some, hwt]
          have hw1 : 1 ≤ w.length := by cases w; exact absurd rfl hwne; simp
          have hp2 : 0 ∈ (x :: t).drop w.length := by
            rw [hsw] at h0
            rcases List.mem_append.1 h0 with e | e
            · exact absurd rfl (hwm 0 e).2
            · exact e
          have hlen : ((x :: t).drop w.length).length < fuel := by
            have h1 := congrArg List.length hsp
            simp only [List.length_append, List.length_drop] at h1 ⊢
            omega
          cases hcell : A.cell s1 with
          | none =>
            rw [consTok_none hcell]
            refine ⟨_, splitChars_full hs fuel _ s1 hp2 hlen hcell, .inl rfl, ?_⟩
            intro he
            have := (he s1 0).2
            rw [hcell] at this; cases this
          | some s2 =>
            rw [consTok_some hcell]
            obtain ⟨r, h1, h2, h3⟩ := ih ((x :: t).drop w.length) s2 (w :: acc) hp2 hlen
            have hspl : ∀ qs, Splits (text split) (text ((x :: t).drop w.length)) qs → Splits (text split) (text p) (w :: qs) := by
              intro qs hqs
              have e : text p = g ++ w ++ text ((x :: t).drop w.length) := by
                have e1 : text (x :: t) = w ++ text ((x :: t).drop w.length) := by
                  conv => lhs; rw [hsw]
                  exact text_append_of (fun y hy => (hwm y hy).2)
                rw [htp, e1, List.append_assoc]
              rw [e]
              refine .piece hgm (fun y hy => (hwm y hy).1) hwne ?_ hqs
              intro y hy
              cases hd : (x :: t).drop w.length with
              | nil => rw [hd, text_nil] at hy; cases hy
              | cons z u =>
                rw [hd] at hy
                by_cases hz : z = 0
                · subst hz; rw [text_zero] at hy; cases hy
                · rw [text_cons hz] at hy
                  simp only [List.head?_cons, Option.some.injEq] at hy
                  subst hy
                  have := drop_takeWhile_head (x :: t) z u (by rw [hw]; exact hd)
                  simp only [Bool.and_eq_false_iff, Bool.not_eq_false', decide_eq_true_eq, bne_eq_false_iff_eq] at this
                  exact this.resolve_right hz
            refine ⟨r, h1, ?_, ?_⟩
            · rcases h2 with h2 | ⟨qs, hq1, hq2⟩
              · exact .inl h2
              · exact .inr ⟨w :: qs, hspl qs hq1, by rw [hq2]; simp⟩
            · intro he
              obtain ⟨qs, hq1, hq2⟩ := h3 he
              exact ⟨w :: qs, hspl qs hq1, by rw [hq2]; simp⟩

theorem strSplit_chars {s : S} {d split : List Byte} (hd : 0 ∈ d) (hs : 0 ∈ split) :
    ∃ r, strSplit F A s [(.arr d : Arg b), .arr split] = some r ∧
      (r = .v (.sym symMERROR) ∨ ∃ qs, Splits (text split) (text d) qs ∧ r = listOf (qs.map str)) ∧
      (A.Enough → ∃ qs, Splits (text split) (text d) qs ∧ r = listOf (qs.map str)) := by
  have hdec : decStr (.arr split : Arg b) = some split := by cases split; simp at hs; rfl
  obtain ⟨r, h1, h2, h3⟩ := splitChars_eq (A := A) (b := b) hs (d.length + 1) d s [] hd (by omega)
  have h1 : splitChars A split (d.length + 1) d s (nil : Arg b) = some r := h1
  simp only [strSplit, decStrSize, hdec, h1, Option.map_some]
  have hr : ∀ qs : List (List Byte), reverse (listOf ((qs.reverse ++ []).map str) : Arg b) = listOf (qs.map str) := by
    intro qs
    rw [reverse_listOf, ← List.map_reverse]; simp
  refine ⟨_, rfl, ?_, ?_⟩
  · rcases h2 with h2 | ⟨qs, q1, q2⟩
    · left; rw [h2]; rfl
    · right; exact ⟨qs, q1, by rw [q2]; exact hr qs⟩
  · intro he
    obtain ⟨qs, q1, q2⟩ := h3 he
    exact ⟨qs, q1, by rw [q2]; exact hr qs⟩

/-! ## str-replace -/

/-- `Replaced` with the number of replacements. -/
inductive ReplacedN (pat rep : List Byte) : Nat → List Byte → List Byte → Prop
  | none {t : List Byte} (h : ∀ i, ¬ At pat t i) : ReplacedN pat rep 0 t t
  | first {k : Nat} {a t r : List Byte} (h : ∀ i, i < a.length → ¬ At pat (a ++ pat ++ t) i) (h' : ReplacedN pat rep k t r) :
      ReplacedN pat rep (k + 1) (a ++ pat ++ t) (a ++ rep ++ r)

theorem ReplacedN.replaced {pat rep t r : List Byte} {k : Nat} (h : ReplacedN pat rep k t r) : Replaced pat rep t r := by
  induction h with
  | none h => exact .none h
  | first h _ ih => exact .first h ih

theorem ReplacedN.length {pat rep t r : List Byte} {k : Nat} (h : ReplacedN pat rep k t r) : r.length + k * pat.length = t.length + k * rep.length := by
  induction h with
  | none h => simp
  | first h _ ih => simp only [List.length_append, Nat.add_mul]; omega

theorem countOcc_eq {rep : List Byte} (hr : 0 ∈ rep) (h1 : text rep ≠ []) (wth : List Byte) : ∀ (fuel : Nat) (p : List Byte) (c : Nat), 0 ∈ p → p.length < fuel →
    ∃ m r, countOcc rep (text rep).length fuel p c = some (c + m) ∧ ReplacedN (text rep) wth m (text p) r := by
  intro fuel
  induction fuel with
  | zero => intro p c _ h; omega
  | succ fuel ih =>
    intro p c hp hf
    unfold countOcc
    rw [strstr_eq hp hr, Option.bind_some]
    cases hi : indexOf (text rep) (text p) with
    | none => exact ⟨0, _, rfl, .none (fun i => indexOf_none hi i)⟩
    | some k =>
      obtain ⟨i1, i2, i3⟩ := indexOf_some hi
      obtain ⟨u, hu⟩ := i1
      have hsplit : text p = (text p).take k ++ text rep ++ u := by
        rw [List.append_assoc, hu, List.take_append_drop]
      have hkl : ((text p).take k).length = k := by simp [i2]
      have hle : k + (text rep).length ≤ (text p).length := by
        have := congrArg List.length hsplit
        simp only [List.length_append, hkl] at this; omega
      have hu2 : text (p.drop (k + (text rep).length)) = u := by
        rw [drop_text hle, hsplit]
        have : k + (text rep).length = ((text p).take k ++ text rep).length := by rw [List.length_append, hkl]
        rw [this, List.drop_left]
      have hrl : 1 ≤ (text rep).length := by cases h : text rep; exact absurd h h1; simp
      have hpl : (p.drop (k + (text rep).length)).length < fuel := by
        have := text_lt hp
        rw [List.length_drop]; omega
      obtain ⟨m, r, e1, e2⟩ := ih (p.drop (k + (text rep).length)) (c + 1) (mem_drop hp hle) hpl
      rw [hu2] at e2
      refine ⟨m + 1, (text p).take k ++ wth ++ r, by simp only; rw [e1]; congr 1; omega, ?_⟩
      have : ReplacedN (text rep) wth (m + 1) ((text p).take k ++ text rep ++ u) ((text p).take k ++ wth ++ r) :=
        .first (fun i hi => by rw [hkl] at hi; rw [← hsplit]; exact i3 i hi) e2
      rwa [← hsplit] at this

theorem strncpy_zeros {p s : List Byte} {n k : Nat} (h1 : k ≤ (text s).length) (h2 : k ≤ n) :
    strncpy (p ++ zeros n) p.length s k = some (p ++ s.take k ++ zeros (n - k)) := by
  rw [strncpy, strncpySrc_eq h1, Option.bind_some]
  have hl : (s.take k).length = k := by have := text_length_le s; simp; omega
  rw [writeAt_zeros (by omega), hl]

theorem indexOf_unique {n h : List Byte} {k : Nat} (h1 : At n h k) (h0 : k ≤ h.length) (h2 : ∀ i, i < k → ¬ At n h i) : indexOf n h = some k := by
  cases hi : indexOf n h with
  | none => exact absurd h1 (indexOf_none hi k)
  | some j =>
    obtain ⟨i1, _, i3⟩ := indexOf_some hi
    rcases Nat.lt_trichotomy j k with h | h | h
    · exact absurd i1 (h2 j h)
    · rw [h]
    · exact absurd h1 (i3 k h)

theorem replaceLoop_eq {rep wth : List Byte} (hr : 0 ∈ rep) {m : Nat} : ∀ {t r : List Byte}, ReplacedN (text rep) (text wth) m t r →
    ∀ (p : List Byte) (d : List Byte), 0 ∈ d → text d = t →
    replaceLoop rep wth (text rep).length (text wth).length m d p.length (p ++ zeros (r.length + 1)) = some (p ++ r ++ [0]) := by
  intro t r h
  induction h with
  | none h =>
    intro p d hd ht
    rename_i t
    unfold replaceLoop strcpy
    rw [cstr_eq hd, Option.bind_some, ht]
    rw [writeAt_zeros (by simp)]
    simp [zeros]
  | @first k a t r h h' ih =>
    intro p d hd ht
    unfold replaceLoop
    rw [strstr_eq hd hr, Option.bind_some, ht]
    have hat : At (text rep) (a ++ text rep ++ t) a.length := by
      unfold At
      rw [List.append_assoc, List.drop_left]
      exact List.prefix_append _ _
    rw [indexOf_unique hat (by simp) h, Option.bind_some]
    have hta : a.length ≤ (text d).length := by rw [ht]; simp
    have htk : d.take a.length = a := by
      have := text_take (d := d) (i := 0) (n := a.length) (by omega)
      simp only [List.drop_zero] at this
      rw [this, ht, List.append_assoc, List.take_left]
    have hl : (a ++ text wth ++ r).length + 1 = a.length + ((text wth).length + (r.length + 1)) := by simp; omega
    rw [hl, strncpy_zeros hta (by omega), Option.bind_some, htk]
    have e1 : a.length + ((text wth).length + (r.length + 1)) - a.length = (text wth).length + (r.length + 1) := by omega
    have e2 : (text wth).length + (r.length + 1) - (text wth).length = r.length + 1 := by omega
    have h2 := strncpy_zeros (p := p ++ a) (s := wth) (n := (text wth).length + (r.length + 1)) (k := (text wth).length) (Nat.le_refl _) (by omega)
    rw [List.length_append] at h2
    rw [e1, h2, Option.bind_some, e2, take_text]
    have hd2 : text (d.drop (a.length + (text rep).length)) = t := by
      rw [drop_text (by rw [ht]; simp), ht]
      have : a.length + (text rep).length = (a ++ text rep).length := by simp
      rw [this, List.drop_left]
    have := ih (p ++ a ++ text wth) _ (mem_drop hd (by rw [ht]; simp)) hd2
    simp only [List.length_append] at this
    rw [this]
    simp [List.append_assoc]

theorem strReplace_fin {s : S} {o : Arg b} {orig rep wth : List Byte} {wsize : Nat} (ho : 0 ∈ orig) (hr : 0 ∈ rep) (h1 : text rep ≠ [])
    (hw : strlenMax wth wsize = some (text wth).length)
    (hfit : ∀ r, Replaced (text rep) (text wth) (text orig) r → r.length + 1 < 2 ^ b.w) :
    ∃ r, Replaced (text rep) (text wth) (text orig) r ∧ Gives A s r (strReplace.fin A s o orig rep wth wsize) := by
  obtain ⟨m, r, e1, e2⟩ := countOcc_eq hr h1 (text wth) (orig.length + 1) orig 0 ho (by omega)
  refine ⟨r, e2.replaced, ?_⟩
  have hlr : (text rep).length ≠ 0 := by cases h : text rep; exact absurd h h1; simp
  simp only [strReplace.fin, strlenMax_eq, Option.bind_some, if_neg hlr, hw, e1, Nat.zero_add]
  have hlen := e2.length
  have hsz : ((((text orig).length : Int) + (((text wth).length : Int) - (text rep).length) * m + 1) % 2 ^ b.w).toNat = r.length + 1 := by
    have e : (((text orig).length : Int) + (((text wth).length : Int) - (text rep).length) * m + 1) = ((r.length + 1 : Nat) : Int) := by
      have : ((r.length + m * (text rep).length : Nat) : Int) = (((text orig).length + m * (text wth).length : Nat) : Int) := by rw [hlen]
      simp only [Int.natCast_add, Int.natCast_mul] at this
      rw [Int.sub_mul, Int.mul_comm _ (m : Int), Int.mul_comm ((text rep).length : Int) (m : Int)]
      simp only [Int.natCast_add, Int.natCast_one]
      omega
    rw [e]
    have := hfit r e2.replaced
    have h3 : ((r.length + 1 : Nat) : Int) % 2 ^ b.w = ((r.length + 1 : Nat) : Int) := by
      apply Int.emod_eq_of_lt (by omega)
      exact_mod_cast this
    rw [h3, Int.toNat_natCast]
  rw [hsz]
  unfold Gives
  cases A.arr s (r.length + 1) with
  | none => rfl
  | some s' =>
    simp only [Option.isSome_some, if_true]
    have := replaceLoop_eq hr e2 [] orig ho rfl
    simp only [List.nil_append, List.length_nil] at this
    rw [this]
    rfl

end Verif.Str
