import Verif.Img.Shapes

namespace Verif.Img

theorem puts_drawn (c : Color) : ∀ (l : List (Int × Int)) (m : Img), Ok m → (∀ p ∈ l, (-2147483648 ≤ p.1 ∧ p.1 < 2147483648) ∧ -2147483648 ≤ p.2 ∧ p.2 < 2147483648) →
    ∃ m', puts c l m = some m' ∧ Drawn m m' (fun i j => ∃ p ∈ l, i = p.1 ∧ j = p.2) c
  | [], m, _, _ => ⟨m, rfl, .none m fun i j h => by simp at h⟩
  | (x, y) :: l, m, wf, hl => by
    have h0 := hl _ List.mem_cons_self
    obtain ⟨m1, e1, d1⟩ := putpixel_drawn wf x y c
    obtain ⟨m2, e2, d2⟩ := puts_drawn c l m1 (d1.same.ok wf) fun q hq => hl q (List.mem_cons_of_mem _ hq)
    refine ⟨m2, by rw [puts, ck_ok h0.1, Option.bind_some, ck_ok h0.2, Option.bind_some, e1, Option.bind_some, e2], (d1.trans d2).congr fun i j => ?_⟩
    simp only [List.mem_cons, exists_eq_or_imp]

/-- A column of the outline, in the eighth of the plane above the diagonal. -/
def Col (r a b : Int) : Prop := a < b ∧ 4 * (a * a) + (2 * b - 1) * (2 * b - 1) < 4 * (r * r) ∧ 4 * (r * r) < 4 * (a * a) + (2 * b + 1) * (2 * b + 1)

theorem sq_m (b : Int) : (2 * b - 1) * (2 * b - 1) = 4 * (b * b) - 4 * b + 1 := by grind
theorem sq_p (b : Int) : (2 * b + 1) * (2 * b + 1) = 4 * (b * b) + 4 * b + 1 := by grind
theorem sq_s (b : Int) : (b + 1) * (b + 1) = b * b + 2 * b + 1 := by grind
theorem sq_d (b : Int) : (b - 1) * (b - 1) = b * b - 2 * b + 1 := by grind

theorem Col.unique {r a b y : Int} (h : Col r a b) (h0 : 0 ≤ y) (ha : 0 ≤ a) (h1 : 4 * (a * a) + (2 * y - 1) * (2 * y - 1) < 4 * (r * r)) (h2 : 4 * (r * r) < 4 * (a * a) + (2 * y + 1) * (2 * y + 1)) (h3 : a < y) : b = y := by
  obtain ⟨g0, g1, g2⟩ := h
  by_cases e : b < y
  · have := sq_le (a := 2 * b + 1) (b := 2 * y - 1) (by omega) (by omega); omega
  · by_cases e' : y < b
    · have := sq_le (a := 2 * y + 1) (b := 2 * b - 1) (by omega) (by omega); omega
    · omega

theorem Col.none {r a b x y : Int} (h : Col r a b) (hx : 0 ≤ x) (h0 : 0 ≤ y) (ha : x ≤ a) (h2 : 4 * (r * r) < 4 * (x * x) + (2 * y + 1) * (2 * y + 1)) (h3 : y ≤ x) : False := by
  obtain ⟨g0, g1, g2⟩ := h
  have := sq_le (a := 2 * y + 1) (b := 2 * b - 1) (by omega) (by omega)
  have := sq_le (a := x) (b := a) (by omega) (by omega)
  omega

theorem circleLoop_drawn (c : Color) (x y r : Int) (hx : -1073741824 ≤ x ∧ x ≤ 1073741824) (hy : -1073741824 ≤ y ∧ y ≤ 1073741824) (hr : r ≤ 1073741823) : ∀ (f : Nat) (x0 y0 d da db : Int) (m : Img), Ok m →
    0 ≤ x0 → 0 ≤ y0 → y0 ≤ r → y0 - x0 < f ∧ 0 < f → d = 4 * ((x0 + 1) * (x0 + 1)) + (2 * y0 - 1) * (2 * y0 - 1) - 4 * (r * r) → da = 8 * x0 + 12 → db = 8 * x0 - 8 * y0 + 20 →
    (x0 < y0 → 4 * (x0 * x0) + (2 * y0 - 1) * (2 * y0 - 1) < 4 * (r * r)) → 4 * (r * r) < 4 * (x0 * x0) + (2 * y0 + 1) * (2 * y0 + 1) →
    ∃ m', circleLoop c x y f x0 y0 d da db m = some m' ∧ Drawn m m' (fun i j => x0 ≤ (min (i - x).natAbs (j - y).natAbs : Nat) ∧ Col r (min (i - x).natAbs (j - y).natAbs : Nat) (max (i - x).natAbs (j - y).natAbs : Nat)) c
  | 0, x0, y0, d, da, db, m, wf, h1, h2, h3, h4, h5, h6, h7, h8, h9 => by
    omega
  | f + 1, x0, y0, d, da, db, m, wf, h1, h2, h3, h4, h5, h6, h7, h8, h9 => by
    unfold circleLoop
    by_cases hlt : x0 < y0
    · rw [if_pos hlt]
      have h8 := h8 hlt
      obtain ⟨m1, e1, d1⟩ := puts_drawn c [(x + x0, y + y0), (x + x0, y - y0), (x - x0, y + y0), (x - x0, y - y0), (x + y0, y + x0), (x + y0, y - x0), (x - y0, y + x0), (x - y0, y - x0)] m wf
        (by simp only [List.mem_cons, List.not_mem_nil, or_false, forall_eq_or_imp, forall_eq]; omega)
      have key : ∀ i j, ((∃ p ∈ [(x + x0, y + y0), (x + x0, y - y0), (x - x0, y + y0), (x - x0, y - y0), (x + y0, y + x0), (x + y0, y - x0), (x - y0, y + x0), (x - y0, y - x0)], i = p.1 ∧ j = p.2) ∨
          (x0 + 1 ≤ (min (i - x).natAbs (j - y).natAbs : Nat) ∧ Col r (min (i - x).natAbs (j - y).natAbs : Nat) (max (i - x).natAbs (j - y).natAbs : Nat))) ↔
          (x0 ≤ (min (i - x).natAbs (j - y).natAbs : Nat) ∧ Col r (min (i - x).natAbs (j - y).natAbs : Nat) (max (i - x).natAbs (j - y).natAbs : Nat)) := by
        intro i j
        have hm : (∃ p ∈ [(x + x0, y + y0), (x + x0, y - y0), (x - x0, y + y0), (x - x0, y - y0), (x + y0, y + x0), (x + y0, y - x0), (x - y0, y + x0), (x - y0, y - x0)], i = p.1 ∧ j = p.2) ↔
            ((min (i - x).natAbs (j - y).natAbs : Nat) : Int) = x0 ∧ ((max (i - x).natAbs (j - y).natAbs : Nat) : Int) = y0 := by
          simp only [List.mem_cons, exists_eq_or_imp, List.not_mem_nil, false_and, exists_false, or_false, exists_eq_left]
          omega
        rw [hm]
        generalize ((min (i - x).natAbs (j - y).natAbs : Nat) : Int) = a
        generalize ((max (i - x).natAbs (j - y).natAbs : Nat) : Int) = b
        constructor
        · rintro (⟨rfl, rfl⟩ | ⟨g1, g2⟩)
          · exact ⟨Int.le_refl _, hlt, h8, h9⟩
          · exact ⟨by omega, g2⟩
        · rintro ⟨g1, g2⟩
          by_cases e : a = x0
          · subst e; exact .inl ⟨rfl, g2.unique h2 h1 h8 h9 hlt⟩
          · exact .inr ⟨by omega, g2⟩
      have q1 := sq_s x0
      have q2 := sq_s (x0 + 1)
      have q3 := sq_m y0
      have q4 := sq_p y0
      have q5 := sq_m (y0 - 1)
      have q6 := sq_p (y0 - 1)
      have q7 := sq_d y0
      rw [e1, Option.bind_some]
      by_cases hd : d < 0
      · rw [if_pos hd]
        obtain ⟨m2, e2, d2⟩ := circleLoop_drawn c x y r hx hy hr f (x0 + 1) y0 (d + da) (da + 8) (db + 8) m1 (d1.same.ok wf) (by omega) h2 h3 (by omega) (by omega) (by omega) (by omega) (fun _ => by omega) (by omega)
        exact ⟨m2, e2, (d1.trans d2).congr key⟩
      · rw [if_neg hd]
        obtain ⟨m2, e2, d2⟩ := circleLoop_drawn c x y r hx hy hr f (x0 + 1) (y0 - 1) (d + db) (da + 8) (db + 16) m1 (d1.same.ok wf) (by omega) (by omega) (by omega) (by omega) (by omega) (by omega) (by omega)
          (fun _ => by omega) (by
            have h10 : 4 * (r * r) ≤ 4 * ((x0 + 1) * (x0 + 1)) + (2 * y0 - 1) * (2 * y0 - 1) := by omega
            omega)
        exact ⟨m2, e2, (d1.trans d2).congr key⟩
    · rw [if_neg hlt]
      exact ⟨m, rfl, .none m fun i j h => h.2.none h1 h2 h.1 h9 (by omega)⟩

theorem circleThin_drawn {m : Img} (wf : Ok m) {x y r : Int} (hx : -1073741824 ≤ x ∧ x ≤ 1073741824) (hy : -1073741824 ≤ y ∧ y ≤ 1073741824) (hr : 0 ≤ r ∧ r ≤ 134217728) (c : Color) :
    ∃ m', circleThin m x y r c = some m' ∧ Drawn m m' (OnCircle x y r) c := by
  have q1 := sq_m r
  have q2 := sq_p r
  obtain ⟨m', e, d⟩ := circleLoop_drawn c x y r hx hy (by omega) (r.toNat + 1) 0 r (5 - 4 * r) 12 (20 - 8 * r) m wf (by omega) (by omega) (by omega) (by omega) (by omega) (by omega) (by omega)
    (fun _ => by omega) (by omega)
  refine ⟨m', by rw [circleThin, ck_ok (by omega), Option.bind_some, ck_ok (by omega), Option.bind_some, e], d.congr fun i j => ?_⟩
  unfold OnCircle Col
  simp only
  omega

end Verif.Img
