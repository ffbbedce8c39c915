import Verif.Sort.Layers

/-! Order and stability of the merge passes. -/

namespace Verif.Sort
open Verif.Heap Verif.Env Verif.Lists

variable {cmp : Val → Val → Bool} {R : Val → Val → Prop}

/-- `R` is a transitive order that the comparator decides up to ties: on "yes" the first argument may come first,
on "no" the second may. -/
structure Orders (cmp : Val → Val → Bool) (R : Val → Val → Prop) : Prop where
  trans : ∀ a b c, R a b → R b c → R a c
  yes : ∀ a b, cmp a b = true → R a b
  no : ∀ a b, cmp a b = false → R b a

theorem merge_sorted (ho : Orders cmp R) : ∀ (n : Nat) (xs ys : List Val), xs.length + ys.length = n → xs.Pairwise R → ys.Pairwise R →
    (List.merge xs ys cmp).Pairwise R := by
  intro n
  induction n with
  | zero =>
    intro xs ys hn _ _
    have : xs = [] := List.length_eq_zero_iff.1 (by omega)
    subst this
    have : ys = [] := List.length_eq_zero_iff.1 (by omega)
    subst this
    simp
  | succ n ih =>
    intro xs ys hn hx hy
    cases xs with
    | nil => simpa using hy
    | cons x xs =>
      cases ys with
      | nil => simpa using hx
      | cons y ys =>
        rw [List.cons_merge_cons]
        have hx' := List.pairwise_cons.1 hx
        have hy' := List.pairwise_cons.1 hy
        split
        · rename_i hc
          refine List.pairwise_cons.2 ⟨fun z hz => ?_, ih _ _ (by simp at hn ⊢; omega) hx'.2 hy⟩
          rcases List.mem_merge.1 hz with hz | hz
          · exact hx'.1 z hz
          · rcases List.mem_cons.1 hz with rfl | hz
            · exact ho.yes _ _ hc
            · exact ho.trans _ _ _ (ho.yes _ _ hc) (hy'.1 z hz)
        · rename_i hc
          have hc' : cmp x y = false := by simpa using hc
          refine List.pairwise_cons.2 ⟨fun z hz => ?_, ih _ _ (by simp at hn ⊢; omega) hx hy'.2⟩
          rcases List.mem_merge.1 hz with hz | hz
          · rcases List.mem_cons.1 hz with rfl | hz
            · exact ho.no _ _ hc'
            · exact ho.trans _ _ _ (ho.no _ _ hc') (hx'.1 z hz)
          · exact hy'.1 z hz

/-- All sublists of length `k` (starting at multiples of `k`) are ordered. -/
def Chunks (R : Val → Val → Prop) (k : Nat) (xs : List Val) : Prop := ∀ m, ((xs.drop (m * k)).take k).Pairwise R

theorem pass_chunk {k : Nat} (hk : 0 < k) : ∀ (m : Nat) (xs : List Val),
    ((pass cmp k xs).drop (m * (k * 2))).take (k * 2) =
      List.merge ((xs.drop (2 * m * k)).take k) ((xs.drop ((2 * m + 1) * k)).take k) cmp := by
  intro m
  induction m with
  | zero =>
    intro xs
    by_cases hx : xs = []
    · subst hx; rw [pass, if_pos (.inl rfl)]; simp
    · rw [pass, if_neg (by simp [hx]; omega)]
      simp only [Nat.zero_mul, Nat.mul_zero, List.drop_zero, Nat.zero_add, Nat.one_mul]
      have hl : (List.merge (xs.take k) ((xs.drop k).take k) cmp).length = min k xs.length + min k (xs.length - k) := by
        rw [List.length_merge]; simp
      by_cases hlen : k + k ≤ xs.length
      · exact List.take_left' (by rw [hl]; omega)
      · have : xs.drop (k + k) = [] := List.drop_eq_nil_of_le (by omega)
        rw [this, pass, if_pos (.inl rfl), List.append_nil, List.take_of_length_le (by rw [hl]; omega)]
  | succ m ih =>
    intro xs
    by_cases hx : xs = []
    · subst hx; rw [pass, if_pos (.inl rfl)]; simp
    · have hl : (List.merge (xs.take k) ((xs.drop k).take k) cmp).length = min k xs.length + min k (xs.length - k) := by
        rw [List.length_merge]; simp
      have e1 : (m + 1) * (k * 2) = (k + k) + m * (k * 2) := by rw [Nat.add_mul]; omega
      have e2 : 2 * (m + 1) * k = (k + k) + 2 * m * k := by rw [Nat.mul_add, Nat.add_mul]; omega
      have e3 : (2 * (m + 1) + 1) * k = (k + k) + (2 * m + 1) * k := by
        rw [Nat.add_mul, e2, Nat.add_mul]; omega
      rw [e2, e3, ← List.drop_drop (i := 2 * m * k), ← List.drop_drop (i := (2 * m + 1) * k), ← ih, e1]
      rw [pass, if_neg (by simp [hx]; omega)]
      by_cases hlen : k + k ≤ xs.length
      · rw [← List.drop_drop, List.drop_left' (by rw [hl]; omega)]
      · have : xs.drop (k + k) = [] := List.drop_eq_nil_of_le (by omega)
        rw [this, pass, if_pos (.inl rfl), List.append_nil]
        rw [List.drop_eq_nil_of_le (by rw [hl]; omega)]
        simp

theorem pass_chunks (ho : Orders cmp R) {k : Nat} (hk : 0 < k) {xs : List Val} (hc : Chunks R k xs) : Chunks R (k * 2) (pass cmp k xs) := by
  intro m
  rw [pass_chunk hk]
  exact merge_sorted ho _ _ _ rfl (hc _) (hc _)

theorem passes_sorted (ho : Orders cmp R) : ∀ (fuel k : Nat) (xs : List Val), 0 < k → xs.length ≤ k * 2 + fuel → Chunks R (k * 2) xs →
    (passes cmp fuel k xs).Pairwise R := by
  intro fuel
  induction fuel with
  | zero =>
    intro k xs hk hlen hc
    have := hc 0
    rwa [Nat.zero_mul, List.drop_zero, List.take_of_length_le (by omega)] at this
  | succ fuel ih =>
    intro k xs hk hlen hc
    rw [passes]
    split
    · have := hc 0
      rwa [Nat.zero_mul, List.drop_zero, List.take_of_length_le (by omega)] at this
    · exact ih _ _ (by omega) (by rw [pass_length]; omega) (pass_chunks ho (by omega) hc)

theorem passes_perm : ∀ (fuel k : Nat) (xs : List Val), (passes cmp fuel k xs).Perm xs := by
  intro fuel
  induction fuel with
  | zero => intro k xs; exact .refl _
  | succ fuel ih =>
    intro k xs
    rw [passes]
    split
    · exact .refl _
    · exact (ih _ _).trans (pass_perm _ _ _ _ rfl)

theorem chunks_one (xs : List Val) : Chunks R 1 xs := by
  intro m
  have : ((xs.drop (m * 1)).take 1).length ≤ 1 := by simp; omega
  match h : (xs.drop (m * 1)).take 1 with
  | [] => exact .nil
  | [a] => simp
  | a :: b :: c => rw [h] at this; simp at this

/-! ### Stability -/

/-- The comparator is a total preorder. -/
structure Preorder' (cmp : Val → Val → Bool) : Prop where
  total : ∀ a b, cmp a b = true ∨ cmp b a = true
  trans : ∀ a b c, cmp a b = true → cmp b c = true → cmp a c = true

/-- Neither comes before the other. -/
def tied (cmp : Val → Val → Bool) (c x : Val) : Bool := cmp c x && cmp x c

theorem Preorder'.orders (hp : Preorder' cmp) : Orders cmp (fun a b => cmp a b = true) :=
  ⟨hp.trans, fun _ _ h => h, fun a b h => (hp.total a b).resolve_left (by simp [h])⟩

theorem merge_stable (hp : Preorder' cmp) (c : Val) : ∀ (n : Nat) (xs ys : List Val), xs.length + ys.length = n →
    xs.Pairwise (fun a b => cmp a b = true) →
    (List.merge xs ys cmp).filter (tied cmp c) = xs.filter (tied cmp c) ++ ys.filter (tied cmp c) := by
  intro n
  induction n with
  | zero =>
    intro xs ys hn _
    have : xs = [] := List.length_eq_zero_iff.1 (by omega)
    subst this
    have : ys = [] := List.length_eq_zero_iff.1 (by omega)
    subst this
    simp
  | succ n ih =>
    intro xs ys hn hx
    cases xs with
    | nil => simp
    | cons x xs =>
      cases ys with
      | nil => simp
      | cons y ys =>
        rw [List.cons_merge_cons]
        have hx' := List.pairwise_cons.1 hx
        split
        · rw [List.filter_cons, ih _ _ (by simp at hn ⊢; omega) hx'.2, List.filter_cons (x := x)]
          split <;> simp
        · rename_i hc
          rw [List.filter_cons, ih _ _ (by simp at hn ⊢; omega) hx, List.filter_cons (x := y)]
          split
          · rename_i hy
            have hnone : (x :: xs).filter (tied cmp c) = [] := by
              rw [List.filter_eq_nil_iff]
              intro z hz ht
              simp only [tied, Bool.and_eq_true] at hy ht
              have hxz : cmp x z = true := by
                rcases List.mem_cons.1 hz with rfl | hz
                · exact (hp.total z z).elim id id
                · exact hx'.1 z hz
              exact hc (hp.trans _ _ _ (hp.trans _ _ _ hxz ht.2) hy.1)
            rw [hnone]; rfl
          · rfl

theorem pass_stable (hp : Preorder' cmp) (c : Val) (k : Nat) : ∀ (n : Nat) (xs : List Val), xs.length = n →
    Chunks (fun a b => cmp a b = true) k xs → (pass cmp k xs).filter (tied cmp c) = xs.filter (tied cmp c) := by
  intro n
  induction n using Nat.strongRecOn with
  | ind n ih =>
    intro xs hn hch
    rw [pass]
    split
    · rfl
    · rename_i hh
      have : 0 < xs.length := List.length_pos_iff.2 (fun e => hh (.inl e))
      have h1 := ih _ (by simp; omega) (xs.drop (k + k)) rfl (fun m => by
        have := hch (m + 2)
        rw [List.drop_drop]
        rwa [show k + k + m * k = (m + 2) * k by rw [Nat.add_mul]; omega])
      have e : xs = xs.take k ++ ((xs.drop k).take k ++ xs.drop (k + k)) := by
        rw [← List.drop_drop, List.take_append_drop, List.take_append_drop]
      have h0 := hch 0
      rw [Nat.zero_mul, List.drop_zero] at h0
      rw [List.filter_append, h1, merge_stable hp c _ _ _ rfl h0]
      have e' := congrArg (List.filter (tied cmp c)) e
      rw [e', List.filter_append, List.filter_append, List.append_assoc]

theorem passes_stable (hp : Preorder' cmp) (c : Val) : ∀ (fuel k : Nat) (xs : List Val), 0 < k → Chunks (fun a b => cmp a b = true) (k * 2) xs →
    (passes cmp fuel k xs).filter (tied cmp c) = xs.filter (tied cmp c) := by
  intro fuel
  induction fuel with
  | zero => intro k xs _ _; rfl
  | succ fuel ih =>
    intro k xs hk hc
    rw [passes]
    split
    · rfl
    · rw [ih _ _ (by omega) (pass_chunks hp.orders (by omega) hc), pass_stable hp c _ _ _ rfl hc]

end Verif.Sort
