import Verif.Str.Split

/-!
# str-cmp and str-find
-/

namespace Verif.Str

open Verif.Val (Build payload)
open Verif.Arith

variable {b : Build} {F : FOps} {S : Type} {A : Alloc S}

/-! ## str-cmp -/

theorem byte_lt {x y : Byte} : x < y ↔ x.toNat < y.toNat := BitVec.lt_def

theorem compares_head {x y : Byte} (h : x ≠ y) (s t : List Byte) : Compares ((x.toNat : Int) - y.toNat) (x :: s) (y :: t) := by
  have hne : x.toNat ≠ y.toNat := fun e => h (BitVec.eq_of_toNat_eq e)
  refine ⟨?_, ?_, ?_⟩
  · constructor
    · intro e; omega
    · intro e; simp only [List.cons.injEq] at e; exact absurd e.1 h
  · rw [List.cons_lt_cons_iff, byte_lt]
    constructor
    · intro e; left; omega
    · rintro (e | ⟨e, _⟩)
      · omega
      · exact absurd e h
  · rw [List.cons_lt_cons_iff, byte_lt]
    constructor
    · intro e; left; omega
    · rintro (e | ⟨e, _⟩)
      · omega
      · exact absurd e.symm h

theorem compares_tail {z : Int} {x : Byte} {s t : List Byte} (h : Compares z s t) : Compares z (x :: s) (x :: t) := by
  obtain ⟨h1, h2, h3⟩ := h
  refine ⟨?_, ?_, ?_⟩
  · simp [h1]
  · rw [List.cons_lt_cons_iff, h2]
    constructor
    · intro e; exact .inr ⟨rfl, e⟩
    · rintro (e | ⟨_, e⟩)
      · rw [byte_lt] at e; omega
      · exact e
  · rw [List.cons_lt_cons_iff, h3]
    constructor
    · intro e; exact .inr ⟨rfl, e⟩
    · rintro (e | ⟨_, e⟩)
      · rw [byte_lt] at e; omega
      · exact e

theorem compares_nil_left {y : Byte} (h : y ≠ 0) (t : List Byte) : Compares ((0 : Byte).toNat - y.toNat : Int) [] (y :: t) := by
  have hne : y.toNat ≠ 0 := fun e => h (BitVec.eq_of_toNat_eq e)
  have h0 : (0 : Byte).toNat = 0 := rfl
  rw [h0]
  refine ⟨?_, ?_, ?_⟩
  · simp; omega
  · simp; omega
  · simp

theorem compares_nil_right {y : Byte} (h : y ≠ 0) (t : List Byte) : Compares (y.toNat - (0 : Byte).toNat : Int) (y :: t) [] := by
  have hne : y.toNat ≠ 0 := fun e => h (BitVec.eq_of_toNat_eq e)
  have h0 : (0 : Byte).toNat = 0 := rfl
  rw [h0]
  refine ⟨?_, ?_, ?_⟩
  · simp; omega
  · simp
  · simp; omega

theorem compares_nil : Compares 0 [] [] := by simp [Compares]

theorem strcmp_eq : ∀ {x y : List Byte}, 0 ∈ x → 0 ∈ y → ∃ z, strcmp x y = some z ∧ -255 ≤ z ∧ z ≤ 255 ∧ Compares z (text x) (text y) := by
  intro x
  induction x with
  | nil => intro y h; simp at h
  | cons a s ih =>
    intro y hx hy
    cases y with
    | nil => simp at hy
    | cons c t =>
      unfold strcmp
      have h1 := a.isLt
      have h2 := c.isLt
      by_cases hac : a = c
      · subst hac
        rw [if_neg (by simp)]
        by_cases ha : a = 0
        · subst ha
          rw [if_pos rfl, text_zero, text_zero]
          exact ⟨0, rfl, by omega, by omega, compares_nil⟩
        · rw [if_neg ha]
          obtain ⟨z, e, z1, z2, hz⟩ := ih (by rcases List.mem_cons.1 hx with e | e; exact absurd e.symm ha; exact e)
            (show 0 ∈ t by rcases List.mem_cons.1 hy with e | e; exact absurd e.symm ha; exact e)
          rw [text_cons ha, text_cons ha]
          exact ⟨z, e, z1, z2, compares_tail hz⟩
      · rw [if_pos hac]
        refine ⟨_, rfl, by omega, by omega, ?_⟩
        by_cases ha : a = 0
        · subst ha
          rw [text_zero, text_cons (fun e => hac e.symm)]
          exact compares_nil_left (fun e => hac e.symm) _
        · by_cases hc : c = 0
          · subst hc
            rw [text_zero, text_cons ha]
            exact compares_nil_right ha _
          · rw [text_cons ha, text_cons hc]
            exact compares_head hac _ _

theorem strncmp_eq : ∀ {n : Nat} {x y : List Byte}, 0 ∈ x → 0 ∈ y →
    ∃ z, strncmp x y n = some z ∧ -255 ≤ z ∧ z ≤ 255 ∧ Compares z ((text x).take n) ((text y).take n) := by
  intro n x
  induction x generalizing n with
  | nil => intro y h; simp at h
  | cons a s ih =>
    intro y hx hy
    cases y with
    | nil => simp at hy
    | cons c t =>
      cases n with
      | zero => exact ⟨0, rfl, by omega, by omega, by simpa using compares_nil⟩
      | succ n =>
      unfold strncmp
      have h1 := a.isLt
      have h2 := c.isLt
      by_cases hac : a = c
      · subst hac
        rw [if_neg (by simp)]
        by_cases ha : a = 0
        · subst ha
          rw [if_pos rfl, text_zero, text_zero]
          exact ⟨0, rfl, by omega, by omega, by simpa using compares_nil⟩
        · rw [if_neg ha]
          obtain ⟨z, e, z1, z2, hz⟩ := ih (n := n) (by rcases List.mem_cons.1 hx with e | e; exact absurd e.symm ha; exact e)
            (show 0 ∈ t by rcases List.mem_cons.1 hy with e | e; exact absurd e.symm ha; exact e)
          rw [text_cons ha, text_cons ha]
          exact ⟨z, e, z1, z2, by simpa using compares_tail hz⟩
      · rw [if_pos hac]
        refine ⟨_, rfl, by omega, by omega, ?_⟩
        by_cases ha : a = 0
        · subst ha
          rw [text_zero, text_cons (fun e => hac e.symm)]
          simpa using compares_nil_left (fun e => hac e.symm) _
        · by_cases hc : c = 0
          · subst hc
            rw [text_zero, text_cons ha]
            simpa using compares_nil_right ha _
          · rw [text_cons ha, text_cons hc]
            simpa using compares_head hac _ _

/-! ## str-find -/

theorem ciStrncmp_eq : ∀ {n : Nat} {s t : List Byte}, n ≤ s.length → n ≤ t.length →
    ciStrncmp s t n = some (decide ((s.take n).map lower = (t.take n).map lower)) := by
  intro n
  induction n with
  | zero => intros; simp [ciStrncmp]
  | succ n ih =>
    intro s t hs ht
    cases s with
    | nil => simp at hs
    | cons x s =>
      cases t with
      | nil => simp at ht
      | cons y t =>
        unfold ciStrncmp
        rw [tolower_eq, tolower_eq]
        by_cases h : lower x = lower y
        · rw [if_neg (by simpa using h), ih (by simpa using hs) (by simpa using ht)]; simp [h]
        · rw [if_pos h]; simp [h]

theorem hit_cmp {cs : Bool} {d sub : List Byte} {i : Nat} (h1 : sub ≠ []) (h2 : i + (sub.length - 1) ≤ d.length) :
    (if cs then memcmpEq (d.drop i) sub (sub.length - 1) else ciStrncmp (d.drop i) sub (sub.length - 1)) = some (decide (Hit (!cs) d sub i)) := by
  have hd : sub.length - 1 ≤ (d.drop i).length := by simp; omega
  have ht : sub.take (sub.length - 1) = sub.dropLast := (List.dropLast_eq_take).symm
  cases cs with
  | true =>
    simp only [if_true, memcmpEq, readN_eq hd, readN_eq (show sub.length - 1 ≤ sub.length by omega), Option.bind_some, Option.map_some, ht]
    congr 1
    simp [Hit, h1, h2]
  | false =>
    simp only [Bool.false_eq_true, if_false]
    rw [ciStrncmp_eq hd (by omega), ht]
    congr 1
    simp [Hit, h1, h2]

/-- How many of the arrays occur at an index. -/
def count (nocase : Bool) (d : List Byte) (subs : List (List Byte)) (i : Nat) : Nat := (subs.filter fun sub => Hit nocase d sub i).length

theorem findAt_eq {cs : Bool} {d : List Byte} {i : Nat} {tail : Arg b} (ht : ∀ a d, tail ≠ .cons a d) : ∀ (subs : List (List Byte)) (occ : Nat),
    findAt d cs i (listTo (subs.map .arr) tail) occ = some (if occ < count (!cs) d subs i then none else some (occ - count (!cs) d subs i)) := by
  intro subs
  induction subs with
  | nil =>
    intro occ
    cases tail with
    | cons a d => exact absurd rfl (ht a d)
    | v x => simp [listTo, findAt, count]
    | arr x => simp [listTo, findAt, count]
  | cons x subs ih =>
    intro occ
    simp only [List.map_cons, listTo, findAt]
    by_cases h : (i : Int) > (d.length : Int) - ((x.length : Int) - 1) ∨ (x.length : Int) - 1 < 0
    · rw [if_pos h, ih]
      have : ¬ Hit (!cs) d x i := by
        rintro ⟨h1, h2, _⟩
        have : 1 ≤ x.length := by cases x; exact absurd rfl h1; simp
        simp only [List.length_dropLast] at h2
        omega
      have hc : count (!cs) d (x :: subs) i = count (!cs) d subs i := by simp [count, this]
      rw [hc]
    · rw [if_neg h]
      have h1 : x ≠ [] := by intro e; subst e; simp at h
      have hl : 1 ≤ x.length := by cases x; exact absurd rfl h1; simp
      rw [hit_cmp h1 (by omega), Option.bind_some]
      by_cases hh : Hit (!cs) d x i
      · have hc : count (!cs) d (x :: subs) i = count (!cs) d subs i + 1 := by simp [count, hh]
        rw [hc]
        simp only [hh, decide_true, if_true]
        by_cases h0 : occ = 0
        · subst h0; rw [if_pos rfl, if_pos (by omega)]
        · rw [if_neg h0, ih]
          congr 1
          by_cases hlt : occ < count (!cs) d subs i + 1
          · rw [if_pos hlt, if_pos (by omega)]
          · rw [if_neg hlt, if_neg (by omega)]; congr 1; omega
      · have hc : count (!cs) d (x :: subs) i = count (!cs) d subs i := by simp [count, hh]
        rw [hc]
        simp only [hh, decide_false, Bool.false_eq_true, if_false]
        exact ih occ

theorem hits_cons (nocase : Bool) (d : List Byte) (subs : List (List Byte)) (i : Nat) (is : List Nat) :
    hits nocase d subs (i :: is) = List.replicate (count nocase d subs i) i ++ hits nocase d subs is := by
  simp only [hits, List.flatMap_cons, count]
  congr 1
  exact List.map_const' ..

theorem nth_replicate (i n occ : Nat) (l : List Nat) : nth (List.replicate n i ++ l) occ = if occ < n then (i : Int) else nth l (occ - n) := by
  unfold nth
  by_cases h : occ < n
  · rw [if_pos h, List.getElem?_append_left (by simpa using h)]
    simp [h]
  · rw [if_neg h, List.getElem?_append_right (by simpa using h)]
    simp

theorem findRight_eq {cs : Bool} {d : List Byte} {tail : Arg b} (ht : ∀ a d, tail ≠ .cons a d) (subs : List (List Byte)) : ∀ (k i occ : Nat),
    findRight d cs (listTo (subs.map .arr) tail) k i occ = some (nth (hits (!cs) d subs (List.range' i k)) occ) := by
  intro k
  induction k with
  | zero => intro i occ; simp [findRight, hits, nth]
  | succ k ih =>
    intro i occ
    unfold findRight
    rw [findAt_eq ht, Option.bind_some, List.range'_succ, hits_cons, nth_replicate]
    by_cases h : occ < count (!cs) d subs i
    · rw [if_pos h, if_pos h]
    · rw [if_neg h, if_neg h]; exact ih _ _

theorem down_succ (k : Nat) : down (k + 1) = k :: down k := by simp [down, List.range_succ]

theorem findLeft_eq {cs : Bool} {d : List Byte} {tail : Arg b} (ht : ∀ a d, tail ≠ .cons a d) (subs : List (List Byte)) : ∀ (k occ : Nat),
    findLeft d cs (listTo (subs.map .arr) tail) k occ = some (nth (hits (!cs) d subs (down k)) occ) := by
  intro k
  induction k with
  | zero => intro occ; simp [findLeft, hits, nth, down]
  | succ k ih =>
    intro occ
    unfold findLeft
    rw [findAt_eq ht, Option.bind_some, down_succ, hits_cons, nth_replicate]
    by_cases h : occ < count (!cs) d subs k
    · rw [if_pos h, if_pos h]
    · rw [if_neg h, if_neg h]; exact ih _

/-- `min` bounds the lengths of the arrays that have bytes. -/
theorem minSub_eq {tail : Arg b} (ht : ∀ a d, tail ≠ .cons a d) : ∀ (subs : List (List Byte)) (m : Int),
    ∃ m', minSub (listTo (subs.map .arr) tail) m = some m' ∧ m' ≤ m ∧ (0 ≤ m → 0 ≤ m') ∧ ∀ x ∈ subs, x ≠ [] → m' ≤ (x.length : Int) - 1 := by
  intro subs
  induction subs with
  | nil =>
    intro m
    cases tail with
    | cons a d => exact absurd rfl (ht a d)
    | v x => exact ⟨m, rfl, by omega, id, by simp⟩
    | arr x => exact ⟨m, rfl, by omega, id, by simp⟩
  | cons x subs ih =>
    intro m
    simp only [List.map_cons, listTo, minSub]
    by_cases h : (x.length : Int) - 1 < 0
    · rw [if_pos h]
      obtain ⟨m', e, h1, h2, h3⟩ := ih m
      refine ⟨m', e, h1, h2, ?_⟩
      intro y hy hne
      rcases List.mem_cons.1 hy with e | e
      · subst e
        have : 1 ≤ y.length := by cases y; exact absurd rfl hne; simp
        omega
      · exact h3 y e hne
    · rw [if_neg h]
      obtain ⟨m', e, h1, h2, h3⟩ := ih (if (x.length : Int) - 1 < m then x.length - 1 else m)
      refine ⟨m', e, ?_, ?_, ?_⟩
      · split at h1 <;> omega
      · intro hm; apply h2; split <;> omega
      · intro y hy hne
        rcases List.mem_cons.1 hy with e | e
        · subst e; split at h1 <;> omega
        · exact h3 y e hne

/-- Nothing occurs behind the last place where the shortest array fits. -/
theorem no_hits {nocase : Bool} {d : List Byte} {subs : List (List Byte)} {m : Int} (hm : ∀ x ∈ subs, x ≠ [] → m ≤ (x.length : Int) - 1) {is : List Nat}
    (h : ∀ i ∈ is, (d.length : Int) - m < i) : hits nocase d subs is = [] := by
  simp only [hits, List.flatMap_eq_nil_iff]
  intro i hi
  have : (subs.filter fun sub => Hit nocase d sub i) = [] := by
    rw [List.filter_eq_nil_iff]
    intro x hx
    simp only [decide_eq_true_eq]
    rintro ⟨h1, h2, _⟩
    have := hm x hx h1
    have := h i hi
    simp only [List.length_dropLast] at h2
    have : 1 ≤ x.length := by cases x; exact absurd rfl h1; simp
    omega
  rw [this]; rfl

theorem hits_append {nocase : Bool} {d : List Byte} {subs : List (List Byte)} (xs ys : List Nat) :
    hits nocase d subs (xs ++ ys) = hits nocase d subs xs ++ hits nocase d subs ys := by simp [hits]

/-- To the right: the indexes from the start to the end of the array. -/
theorem hits_right {nocase : Bool} {d : List Byte} {subs : List (List Byte)} {m : Int} (hm0 : 0 ≤ m) (hm : ∀ x ∈ subs, x ≠ [] → m ≤ (x.length : Int) - 1) (i : Nat) :
    hits nocase d subs (List.range' i ((d.length : Int) - m - i + 1).toNat) = hits nocase d subs (List.range' i (d.length + 1 - i)) := by
  have hle : ((d.length : Int) - m - i + 1).toNat ≤ d.length + 1 - i := by omega
  have e : d.length + 1 - i = ((d.length : Int) - m - i + 1).toNat + (d.length + 1 - i - ((d.length : Int) - m - i + 1).toNat) := by omega
  conv => rhs; rw [e]
  rw [← List.range'_append_1, hits_append, no_hits (is := List.range' (i + _) _) hm, List.append_nil]
  intro j hj
  rw [List.mem_range'_1] at hj
  omega

theorem down_add (k n : Nat) : down (k + n) = (List.range' k n).reverse ++ down k := by
  simp only [down]
  rw [← List.reverse_append, List.range_eq_range', List.range_eq_range']
  congr 1
  have := List.range'_append_1 (s := 0) (m := k) (n := n)
  rw [Nat.zero_add] at this
  exact this.symm

/-- To the left: indexes behind the last place do not matter. -/
theorem hits_left {nocase : Bool} {d : List Byte} {subs : List (List Byte)} {m : Int} (hm : ∀ x ∈ subs, x ≠ [] → m ≤ (x.length : Int) - 1) {k n : Nat}
    (hk : (d.length : Int) - m < k) : hits nocase d subs (down (k + n)) = hits nocase d subs (down k) := by
  rw [down_add, hits_append, no_hits hm, List.nil_append]
  intro j hj
  rw [List.mem_reverse, List.mem_range'_1] at hj
  omega

theorem decInt_eq {n : Num b} (h : n.ty.int = true) (h1 : -2 ^ 31 ≤ n.val) (h2 : n.val < 2 ^ 31) :
    (BitVec.setWidth 32 (decAsIW F (.num n))).toInt = n.val := by
  rw [decAsIW_eq F n h]
  have hw : 32 ≤ b.w := by rcases w_cases' b with h | h <;> omega
  rw [setWidth_ofInt hw, BitVec.toInt_ofInt, Int.bmod_eq_of_le]
  all_goals (simp; try omega)

theorem scanOpts_eq {sl sn : Nat} (hne : sl ≠ sn) : ∀ {rest : List (Arg b)} {zs : List Int}, HasInts rest zs → ∀ (o : Opts), o.nums.length ≤ 2 →
    scanOpts F sl sn rest o = ⟨(o.nums ++ zs).take 2, o.right && !hasSym sl rest, o.cs && !hasSym sn rest⟩ := by
  intro rest zs h
  induction h with
  | nil =>
    intro o ho
    simp only [scanOpts, List.append_nil, hasSym, List.any_nil, Bool.not_false, Bool.and_true]
    rw [List.take_of_length_le ho]
  | @int a t z zs ha h1 h2 _ ih =>
    intro o ho
    obtain ⟨n, rfl, hi, rfl⟩ := ha
    have hs : ∀ k, hasSym k ((.v (.num n) : Arg b) :: t) = hasSym k t := fun k => by simp [hasSym]
    unfold scanOpts
    rw [hs, hs]
    have hn : (Arg.v (.num n) : Arg b).isNumber = true := rfl
    simp only [hn, Bool.true_and, decide_eq_true_eq, Arg.val, decInt_eq hi h1 h2]
    by_cases hl : o.nums.length < 2
    · rw [if_pos hl, ih _ (by simp; omega)]
      simp
    · rw [if_neg hl, ih _ ho]
      have : o.nums.length = 2 := by omega
      rw [List.take_append_of_le_length (by omega), List.take_append_of_le_length (by omega)]
  | @sym m t zs _ ih =>
    intro o ho
    unfold scanOpts
    have hn : (Arg.v (.sym m) : Arg b).isNumber = false := rfl
    simp only [hn, Bool.false_and, Bool.false_eq_true, if_false]
    have hs : ∀ k, hasSym k ((.v (.sym m) : Arg b) :: t) = (decide (m = k) || hasSym k t) := fun k => by simp [hasSym]
    rw [hs, hs]
    by_cases h1 : m = sl
    · subst h1
      rw [if_pos rfl, ih { o with right := false } ho]
      simp [hne]
    · rw [if_neg h1]
      by_cases h2 : m = sn
      · subst h2
        rw [if_pos rfl, ih { o with cs := false } ho]
        simp [h1]
      · rw [if_neg h2, ih _ ho]
        simp [h1, h2]

theorem search_eq {sl sn : Nat} (hne : sl ≠ sn) {d : List Byte} {subs : List (List Byte)} {tail : Arg b} (ht : ∀ a d, tail ≠ .cons a d)
    {m : Int} (hm0 : 0 ≤ m) (hm : ∀ x ∈ subs, x ≠ [] → m ≤ (x.length : Int) - 1) {args rest : List (Arg b)} {zs : List Int} (hr : HasInts rest zs)
    (ha : scanOpts F sl sn args {} = scanOpts F sl sn rest {}) :
    strFind.search F sl sn d (listTo (subs.map .arr) tail) m args =
      some (encInt (nth (hits (hasSym sn rest) d subs (order (hasSym sl rest) d.length zs[0]?)) ((zs[1]?.getD 0) % 2 ^ 32).toNat)) := by
  have h0 : ((zs.take 2)[0]?) = zs[0]? := by simp [List.getElem?_take]
  have h1 : ((zs.take 2)[1]?) = zs[1]? := by simp [List.getElem?_take]
  simp only [strFind.search, ha, scanOpts_eq hne hr {} (by simp), List.nil_append, Bool.true_and, h0, h1]
  have hcs : (!!hasSym sn rest) = hasSym sn rest := by simp
  cases hl : hasSym sl rest with
  | false =>
    simp only [Bool.not_false, if_true, Bool.not_true, Bool.false_and, Bool.false_eq_true, if_false, Bool.true_and, decide_eq_true_eq]
    rw [findRight_eq ht, hcs, Option.map_some]
    congr 3
    simp only [order, Bool.false_eq_true, if_false]
    have e : ∀ z : Int, (if (if z < 0 then (d.length : Int) - 1 + z else z) < 0 then 0 else if z < 0 then (d.length : Int) - 1 + z else z) =
        ((startAt d.length z).toNat : Int) := by
      intro z; unfold startAt; split <;> (try split) <;> omega
    rw [e]
    have := hits_right (nocase := hasSym sn rest) (d := d) hm0 hm (startAt d.length (zs[0]?.getD 0)).toNat
    rw [Int.toNat_natCast, this]
  | true =>
    simp only [Bool.not_true, Bool.false_eq_true, if_false, Bool.not_false, Bool.true_and, Bool.false_and, decide_eq_true_eq]
    rw [findLeft_eq ht, hcs, Option.map_some]
    congr 3
    simp only [order, if_true]
    cases hz : zs[0]? with
    | some z =>
      simp only [Option.getD_some]
      have e : (if z < 0 then (d.length : Int) - 1 + z else z) = startAt d.length z := rfl
      rw [e]
      by_cases hgt : startAt d.length z > (d.length : Int) - m
      · rw [if_pos hgt]
        by_cases hneg : (d.length : Int) - m + 1 < 0
        · have e1 : ((d.length : Int) - m + 1).toNat = 0 := by omega
          have e2 := hits_left (nocase := hasSym sn rest) (d := d) hm (k := 0) (n := (startAt d.length z + 1).toNat) (by omega)
          rw [e1]; simpa using e2.symm
        · have e2 := hits_left (nocase := hasSym sn rest) (d := d) hm (k := ((d.length : Int) - m + 1).toNat)
            (n := (startAt d.length z + 1).toNat - ((d.length : Int) - m + 1).toNat) (by omega)
          rw [← e2]
          congr 2; omega
      · rw [if_neg hgt]
    | none =>
      simp only [Option.getD_none]
      have es : startAt d.length (d.length : Int) = d.length := by unfold startAt; rw [if_neg (by omega)]
      rw [es]
      by_cases hneg : (d.length : Int) - m < 0
      · rw [if_pos hneg]
        have hall := hits_left (nocase := hasSym sn rest) (d := d) hm (k := 0) (n := ((d.length : Int) + 1).toNat) (by omega)
        simp only [Nat.zero_add] at hall
        rw [hall]
        split
        · have : ((d.length : Int) - m + 1).toNat = 0 := by omega
          rw [this]
        · rename_i h
          have : ((d.length : Int) - 1 + (d.length - m) + 1).toNat = 0 := by omega
          rw [this]
      · rw [if_neg hneg, if_neg (by omega)]
        have e2 := hits_left (nocase := hasSym sn rest) (d := d) hm (k := ((d.length : Int) - m + 1).toNat)
            (n := ((d.length : Int) + 1).toNat - ((d.length : Int) - m + 1).toNat) (by omega)
        rw [← e2]
        congr 2; omega

end Verif.Str
