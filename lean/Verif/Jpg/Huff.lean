import Verif.Jpg.Bits

/-!
# Lemmas: Huffman codes
-/

namespace Verif.Jpg

/-- The code words as the table has them (16 bits). -/
def wrapped (len h : Nat) : List Nat → List Nat → List Entry
  | [], _ => []
  | b :: bs, vs => (List.zipWith (fun c v => ⟨len, c, v⟩) (codesOf b h).1 (vs.take b)) ++ wrapped (len + 1) ((codesOf b h).2 * 2 % 2 ^ 16) bs (vs.drop b)

theorem codesOf_length (b h : Nat) : (codesOf b h).1.length = b := by
  induction b generalizing h with
  | zero => rfl
  | succ b ih => simp [codesOf, ih]

theorem codes_length (bs : List Nat) (h : Nat) : (codes bs h).length = bs.sum := by
  induction bs generalizing h with
  | nil => rfl
  | cons b bs ih => simp [codes, codesOf_length, ih]

theorem scan_spec (d len : Nat) : ∀ (b : Nat) (l hc vs : List Nat), l.length = b → b ≤ vs.length →
    scan d b (l ++ hc) vs = .ok (match (List.zipWith (fun c v => (⟨len, c, v⟩ : Entry)) l (vs.take b)).find? (fun e => d == e.code) with
      | some e => (some e.value, (scan d b (l ++ hc) vs |> fun | .ok x => x.2.1 | _ => []), (scan d b (l ++ hc) vs |> fun | .ok x => x.2.2 | _ => []))
      | none => (none, hc, vs.drop b)) := by
  intro b
  induction b with
  | zero => intro l hc vs hl _; have : l = [] := List.eq_nil_of_length_eq_zero hl; subst this; simp [scan]
  | succ b ih =>
    intro l hc vs hl hv
    cases l with
    | nil => simp at hl
    | cons c l =>
      cases vs with
      | nil => simp at hv
      | cons v vs =>
        simp only [List.cons_append, scan, List.take_succ_cons, List.zipWith_cons_cons, List.find?_cons, List.drop_succ_cons]
        by_cases hd : d = c
        · simp [hd]
        · simp only [hd, if_false, beq_iff_eq, beq_eq_false_iff_ne.mpr hd]
          exact ih l hc vs (by simpa using hl) (by simpa using hv)

theorem search_spec (w wbit : Nat) : ∀ (bs : List Nat) (len h : Nat) (vs : List Nat), vs.length = bs.sum →
    search w wbit bs.length len bs (codes bs h) vs =
      match (wrapped len h bs vs).find? (fun e => w / 2 ^ (wbit - e.len) == e.code) with
      | some e => .ok (e.value, e.len)
      | none => .err .fmt1 := by
  intro bs
  induction bs with
  | nil => intro len h vs _; simp [search, wrapped]
  | cons b bs ih =>
    intro len h vs hv
    have hv' : b ≤ vs.length := by simp at hv; omega
    simp only [List.length_cons, codes, search, wrapped, List.find?_append]
    have hs := scan_spec (w / 2 ^ (wbit - len)) len b (codesOf b h).1 (codes bs ((codesOf b h).2 * 2 % 2 ^ 16)) vs (codesOf_length b h) hv'
    have hfun : ∀ l : List Entry, (∀ e ∈ l, e.len = len) → l.find? (fun e => w / 2 ^ (wbit - e.len) == e.code) = l.find? (fun e => w / 2 ^ (wbit - len) == e.code) := by
      intro l
      induction l with
      | nil => intro _; rfl
      | cons a l ihl =>
        intro hl
        simp only [List.find?_cons]
        rw [ihl (fun e he => hl e (by simp [he])), hl a (by simp)]
    have hlen : ∀ e ∈ List.zipWith (fun c v => (⟨len, c, v⟩ : Entry)) (codesOf b h).1 (vs.take b), e.len = len := by
      intro e he
      rw [List.mem_iff_getElem] at he
      obtain ⟨i, hi, rfl⟩ := he
      simp
    rw [hfun _ hlen]
    generalize hg : List.find? (fun e => w / 2 ^ (wbit - len) == e.code) (List.zipWith (fun c v => (⟨len, c, v⟩ : Entry)) (codesOf b h).1 (vs.take b)) = g at *
    rw [hs]
    cases g with
    | some e =>
      have : e ∈ List.zipWith (fun c v => (⟨len, c, v⟩ : Entry)) (codesOf b h).1 (vs.take b) := List.mem_of_find?_eq_some hg
      simp [bind, R.bind, hlen e this]
    | none =>
      simp only [bind, R.bind, Option.none_or]
      exact ih (len + 1) _ (vs.drop b) (by simp at hv; simp; omega)

theorem codesOf_eq (b h : Nat) : codesOf b (h % 2 ^ 16) = ((List.range b).map (fun i => (h + i) % 2 ^ 16), (h + b) % 2 ^ 16) := by
  induction b generalizing h with
  | zero => simp [codesOf]
  | succ b ih =>
    rw [codesOf, show (h % 2 ^ 16 + 1) % 2 ^ 16 = (h + 1) % 2 ^ 16 by omega, ih (h + 1)]
    simp only [List.range_succ_eq_map, List.map_cons, List.map_map, Nat.add_zero, Prod.mk.injEq, List.cons.injEq, true_and]
    refine ⟨?_, by congr 1; omega⟩
    apply List.map_congr_left
    intro i _
    show (h + 1 + i) % 2 ^ 16 = (h + (i + 1)) % 2 ^ 16
    congr 1; omega

/-- An entry with its code in 16 bits. -/
def Entry.cut (e : Entry) : Entry := { e with code := e.code % 2 ^ 16 }

theorem wrapped_eq : ∀ (bs : List Nat) (len h : Nat) (vs : List Nat), vs.length = bs.sum → wrapped len (h % 2 ^ 16) bs vs = (entries len h bs vs).map Entry.cut := by
  intro bs
  induction bs with
  | nil => intro len h vs _; rfl
  | cons b bs ih =>
    intro len h vs hv
    have hb : b ≤ vs.length := by simp at hv; omega
    simp only [wrapped, entries, List.map_append, codesOf_eq]
    congr 1
    · apply List.ext_getElem
      · simp
      · intro i h1 h2
        simp [Entry.cut]
    · rw [show (h + b) % 2 ^ 16 * 2 % 2 ^ 16 = (2 * (h + b)) % 2 ^ 16 by omega]
      exact ih (len + 1) _ (vs.drop b) (by simp at hv; simp; omega)

theorem entries_len : ∀ (bs : List Nat) (len h : Nat) (vs : List Nat), ∀ e ∈ entries len h bs vs, len ≤ e.len ∧ e.len < len + bs.length ∧ e.value ∈ vs ∧ h * 2 ^ (e.len - len) ≤ e.code := by
  intro bs
  induction bs with
  | nil => intro len h vs e he; simp [entries] at he
  | cons b bs ih =>
    intro len h vs e he
    rw [entries, List.mem_append] at he
    rcases he with he | he
    · simp only [List.mem_map, Prod.exists] at he
      obtain ⟨v, i, hvi, rfl⟩ := he
      have := List.mem_zipIdx hvi
      refine ⟨Nat.le_refl _, by simp, ?_, by simp⟩
      exact List.mem_of_mem_take (this.2.2 ▸ List.getElem_mem _)
    · obtain ⟨h1, h2, h3, h4⟩ := ih _ _ _ e he
      refine ⟨by omega, by simp; omega, List.mem_of_mem_drop h3, Nat.le_trans ?_ h4⟩
      rw [show e.len - len = (e.len - (len + 1)) + 1 by omega, Nat.pow_succ, Nat.mul_comm _ 2, ← Nat.mul_assoc]
      exact Nat.mul_le_mul_right _ (by omega)

/-- The second word is behind all words that begin with the first. -/
def Before (a b : Entry) : Prop := a.len ≤ b.len ∧ (a.code + 1) * 2 ^ (b.len - a.len) ≤ b.code

theorem entries_before : ∀ (bs : List Nat) (len h : Nat) (vs : List Nat), (entries len h bs vs).Pairwise Before := by
  intro bs
  induction bs with
  | nil => intro len h vs; simp [entries]
  | cons b bs ih =>
    intro len h vs
    rw [entries, List.pairwise_append]
    refine ⟨?_, ih _ _ _, ?_⟩
    · rw [List.pairwise_iff_getElem]
      intro i j hi hj hij
      simp [Before]; omega
    · intro x hx y hy
      simp only [List.mem_map, Prod.exists] at hx
      obtain ⟨v, i, hvi, rfl⟩ := hx
      have hi := List.mem_zipIdx hvi
      have hi' : i < b := by
        have := hi.2.1; simp at this; omega
      obtain ⟨h1, _, _, h4⟩ := entries_len _ _ _ _ y hy
      refine ⟨by simp only; omega, Nat.le_trans ?_ h4⟩
      simp only
      rw [show y.len - len = (y.len - (len + 1)) + 1 by omega, Nat.pow_succ, Nat.mul_comm _ 2, ← Nat.mul_assoc]
      exact Nat.mul_le_mul_right _ (by omega)

theorem Table.Ok.search {t : Table} (ht : t.Ok) (w wbit : Nat) :
    search w wbit 16 1 t.bits t.code t.data =
      match (t.entries.map Entry.cut).find? (fun e => w / 2 ^ (wbit - e.len) == e.code) with
      | some e => .ok (e.value, e.len)
      | none => .err .fmt1 := by
  have := search_spec w wbit t.bits 1 0 t.data ht.data
  rw [ht.bits, ← ht.code] at this
  rw [this, show (0 : Nat) = 0 % 2 ^ 16 by rfl, wrapped_eq _ _ _ _ ht.data]
  rfl

theorem Table.len_le {t : Table} (ht : t.Ok) {e : Entry} (he : e ∈ t.entries) : 1 ≤ e.len ∧ e.len ≤ 16 ∧ e.value ∈ t.data := by
  obtain ⟨h1, h2, h3, _⟩ := entries_len _ _ _ _ e he
  rw [ht.bits] at h2
  exact ⟨h1, by omega, h3⟩

/-- `huffext` in any table: a value of the table, or an error. -/
theorem huffext_any {s : In} (h : s.Ok) {t : Table} (ht : t.Ok) : (∃ v s1, huffext s t = .ok (v, s1) ∧ v ∈ t.data ∧ s1.Ok) ∨ ∃ e, huffext s t = .err e := by
  rcases fill_masked h 16 (by omega) with ⟨s1, he, htd, hw, hs⟩ | ⟨he, _⟩
  · simp only [huffext, he, bind, R.bind, ht.search]
    cases hf : (t.entries.map Entry.cut).find? (fun e => s1.w / 2 ^ (s1.wbit - e.len) == e.code) with
    | none => right; exact ⟨_, rfl⟩
    | some e =>
      left
      have hm := List.mem_of_find?_eq_some hf
      rw [List.mem_map] at hm
      obtain ⟨e', he', rfl⟩ := hm
      obtain ⟨_, h2, h3⟩ := Table.len_le ht he'
      have h2' : e'.cut.len ≤ 16 := h2
      exact ⟨_, _, rfl, h3, (take_reg htd (by omega)).1⟩
  · right; exact ⟨.inp, by simp only [huffext, he, bind, R.bind]⟩

theorem cut_valid {t : Table} (ht : t.Ok) (hv : t.Valid) : t.entries.map Entry.cut = t.entries := by
  conv => rhs; rw [← List.map_id t.entries]
  apply List.map_congr_left
  intro e he
  have h1 := hv e he
  have h2 := (Table.len_le ht he).2.1
  have : e.code < 2 ^ 16 := Nat.lt_of_lt_of_le h1 (Nat.pow_le_pow_right (by omega) h2)
  simp only [Entry.cut, Nat.mod_eq_of_lt this, id]

/-- `huffext` with a valid table. -/
theorem huffext_spec {s : In} (h : s.Ok) {t : Table} (ht : t.Ok) (hv : t.Valid) :
    (s.stream.num 16 = none ∧ huffext s t = .err .inp) ∨
    (s.stream.num 16 ≠ none ∧ (∀ e ∈ t.entries, s.stream.num e.len ≠ some e.code) ∧ huffext s t = .err .fmt1) ∨
    ∃ e s1, s.stream.num 16 ≠ none ∧ e ∈ t.entries ∧ s.stream.num e.len = some e.code ∧ huffext s t = .ok (e.value, s1) ∧ s1.Ok ∧ s1.stream = s.stream.drop e.len := by
  rcases fill_masked h 16 (by omega) with ⟨s1, he, htd, hw, hs⟩ | ⟨he, i, hi, hn⟩
  · right
    have h16 : s.stream.num 16 ≠ none := by rw [← hs, num_reg htd 16 hw]; simp
    have hnum : ∀ e ∈ t.entries, s.stream.num e.len = some (s1.w / 2 ^ (s1.wbit - e.len)) := by
      intro e hm
      rw [← hs]; exact num_reg htd _ (Nat.le_trans (Table.len_le ht hm).2.1 hw)
    simp only [huffext, he, bind, R.bind, ht.search, cut_valid ht hv]
    cases hf : t.entries.find? (fun e => s1.w / 2 ^ (s1.wbit - e.len) == e.code) with
    | none =>
      left
      refine ⟨h16, ?_, rfl⟩
      intro e hm hc
      rw [hnum e hm] at hc
      have := List.find?_eq_none.mp hf e hm
      simp at this hc
      exact this hc
    | some e =>
      right
      have hm := List.mem_of_find?_eq_some hf
      have hc := List.find?_some hf
      simp only [beq_iff_eq] at hc
      obtain ⟨h1, h2⟩ := take_reg htd (n := e.len) (Nat.le_trans (Table.len_le ht hm).2.1 hw)
      exact ⟨e, _, h16, hm, by rw [hnum e hm, hc], rfl, h1, by rw [h2, hs]⟩
  · left
    exact ⟨num_none hi hn, by simp only [huffext, he, bind, R.bind]⟩

/-- The number that fewer bits are. -/
theorem num_prefix {S : Stream} : ∀ {n v : Nat}, S.num n = some v → ∀ m, m ≤ n → S.num m = some (v / 2 ^ (n - m)) := by
  intro n
  induction n with
  | zero => intro v h m hm; have : m = 0 := by omega
            subst this; simpa using h
  | succ n ih =>
    intro v h m hm
    by_cases hmn : m = n + 1
    · subst hmn; simpa using h
    · simp only [Stream.num] at h
      cases hv : S.num n with
      | none => simp [hv] at h
      | some u =>
        cases hb : S n with
        | none => simp [hv, hb] at h
        | some b =>
          simp only [hv, hb, Option.some.injEq] at h
          rw [ih hv m (by omega), show n + 1 - m = (n - m) + 1 by omega, Nat.pow_succ, Nat.mul_comm _ 2, ← Nat.div_div_eq_div_mul, ← h]
          congr 2
          split <;> omega

/-- The codes of a table: at most one is at the front of a stream. -/
theorem entries_unique {bs vs : List Nat} {len h : Nat} {S : Stream} {a b : Entry} (ha : a ∈ entries len h bs vs) (hb : b ∈ entries len h bs vs)
    (h1 : S.num a.len = some a.code) (h2 : S.num b.len = some b.code) : a = b := by
  have hp := entries_before bs len h vs
  have key : ∀ {x y : Entry}, Before x y → S.num x.len = some x.code → S.num y.len = some y.code → False := by
    intro x y ⟨hl, hc⟩ hx hy
    have := num_prefix hy x.len hl
    rw [hx, Option.some.injEq] at this
    have h3 : x.code + 1 ≤ y.code / 2 ^ (y.len - x.len) := by rw [Nat.le_div_iff_mul_le (Nat.two_pow_pos _)]; exact hc
    omega
  rw [List.pairwise_iff_getElem] at hp
  obtain ⟨i, hi, rfl⟩ := List.mem_iff_getElem.mp ha
  obtain ⟨j, hj, rfl⟩ := List.mem_iff_getElem.mp hb
  rcases Nat.lt_trichotomy i j with hij | hij | hij
  · exact (key (hp i j hi hj hij) h1 h2).elim
  · subst hij; rfl
  · exact (key (hp j i hj hi hij) h2 h1).elim

end Verif.Jpg
