import Verif.Img.Shapes

namespace Verif.Img

/-! ## The path of a line

`a` and `b` count the steps in both directions, `d` and `e` are the distances. -/

structure LInv (d e a b err : Int) : Prop where
  a0 : 0 ≤ a
  a1 : a ≤ d
  b0 : 0 ≤ b
  b1 : b ≤ e
  err : err = d * b - e * a + d - e
  up : 2 * (d * b - e * a) ≤ 2 * e + d
  low : -e ≤ 2 * (d * b - e * a) ∨ 2 * e - d < 2 * (d * b - e * a)
  steep : d ≤ e → 2 * (d * b - e * a) ≤ e
  flat : e < d → d ≤ 2 * e → 0 ≤ d * b - e * a ∧ ¬ (a = d ∧ b = e)

theorem LInv.start {d e : Int} (hd : 0 ≤ d) (he : 0 ≤ e) : LInv d e 0 0 (d - e) := by
  refine ⟨by omega, by omega, by omega, by omega, ?_, ?_, ?_, ?_, ?_⟩ <;> simp only [Int.mul_zero] <;> omega

set_option maxHeartbeats 800000 in
theorem next_spec {x1 y1 sx sy x0 y0 d e a b err : Int} (hd : d ≤ 268435456) (he : e ≤ 268435456) (hsx : sx = 1 ∨ sx = -1) (hsy : sy = 1 ∨ sy = -1)
    (hx1 : x1 = x0 + sx * d) (hy1 : y1 = y0 + sy * e) (inv : LInv d e a b err) :
    (a = d ∧ b = e ∧ ¬ (e < d ∧ d ≤ 2 * e) ∧ lineNext x1 y1 d (-e) sx sy (x0 + sx * a) (y0 + sy * b) err = some none) ∨
    (a = d - 1 ∧ b = e ∧ e < d ∧ d ≤ 2 * e ∧ lineNext x1 y1 d (-e) sx sy (x0 + sx * a) (y0 + sy * b) err = some none) ∨
    (∃ a' b' err', lineNext x1 y1 d (-e) sx sy (x0 + sx * a) (y0 + sy * b) err = some (some (x0 + sx * a', y0 + sy * b', err')) ∧ LInv d e a' b' err' ∧
      a ≤ a' ∧ a' ≤ a + 1 ∧ b ≤ b' ∧ b' ≤ b + 1 ∧ a + b < a' + b') := by
  obtain ⟨a0, a1, b0, b1, herr, up, low, steep, flat⟩ := inv
  have ex : x0 + sx * a = x1 ↔ a = d := by subst hx1; rcases hsx with rfl | rfl <;> omega
  have ey : y0 + sy * b = y1 ↔ b = e := by subst hy1; rcases hsy with rfl | rfl <;> omega
  have sxa : x0 + sx * a + sx = x0 + sx * (a + 1) := by rw [Int.mul_add]; omega
  have syb : y0 + sy * b + sy = y0 + sy * (b + 1) := by rw [Int.mul_add]; omega
  have hdb : d * (b + 1) = d * b + d := by rw [Int.mul_add]; omega
  have hea : e * (a + 1) = e * a + e := by rw [Int.mul_add]; omega
  -- the products at the borders
  have pb : b = e → d * b = d * e := fun h => by rw [h]
  have pb1 : b = e - 1 → d * b = d * e - d := fun h => by rw [h, Int.mul_sub]; omega
  have pa : a = d → e * a = d * e := fun h => by rw [h, Int.mul_comm]
  have pa1 : a = d - 1 → e * a = d * e - e := fun h => by rw [h, Int.mul_sub, Int.mul_comm e d]; omega
  have pble : b ≤ e - 1 → d * b ≤ d * e - d := fun h => by
    have := Int.mul_le_mul_of_nonneg_left h (show (0 : Int) ≤ d by omega)
    rw [Int.mul_sub] at this; omega
  have pale : a ≤ d - 2 → e * a ≤ d * e - 2 * e := fun h => by
    have := Int.mul_le_mul_of_nonneg_left h (show (0 : Int) ≤ e by omega)
    rw [Int.mul_sub, Int.mul_comm e d] at this; omega
  unfold lineNext
  simp only [ex, ey]
  by_cases hend : a = d ∧ b = e
  · left
    refine ⟨hend.1, hend.2, fun h => (flat h.1 h.2).2 hend, by rw [if_pos hend]⟩
  right
  rw [if_neg hend, ck_ok (by omega)]
  simp only [Option.bind_some]
  by_cases hx : err * 2 ≥ -e
  · rw [if_pos hx]
    have had : a ≠ d := by
      intro h
      have := pble (by omega)
      have := pa h
      omega
    rw [if_neg had, ck_ok (by omega)]
    simp only [Option.bind_some]
    rw [ck_ok (by omega)]
    simp only [Option.bind_some]
    by_cases hy : (err + -e) * 2 ≤ d
    · rw [if_pos hy]
      by_cases hbe : b = e
      · left
        have had1 : a = d - 1 := by
          have := pb hbe
          by_cases h : a ≤ d - 2
          · have := pale h; omega
          · omega
        have := pb hbe
        have := pa1 had1
        have hlt : e < d := by
          by_cases h : d ≤ e
          · have := steep h; omega
          · omega
        exact ⟨had1, hbe, hlt, by omega, by rw [if_pos hbe]⟩
      · right
        rw [if_neg hbe, ck_ok (by omega)]
        simp only [Option.bind_some]
        refine ⟨a + 1, b + 1, err + -e + d, by rw [sxa, syb], ?_, by omega, by omega, by omega, by omega, by omega⟩
        refine ⟨by omega, by omega, by omega, by omega, by omega, by omega, by omega, by omega, fun h1 h2 => ?_⟩
        obtain ⟨f1, f2⟩ := flat h1 h2
        refine ⟨by omega, fun h => ?_⟩
        have := pa1 (by omega)
        have := pb1 (by omega)
        omega
    · right
      rw [if_neg hy]
      refine ⟨a + 1, b, err + -e, by rw [sxa], ?_, by omega, by omega, by omega, by omega, by omega⟩
      refine ⟨by omega, by omega, by omega, by omega, by omega, by omega, by omega, by omega, fun h1 h2 => ?_⟩
      obtain ⟨f1, f2⟩ := flat h1 h2
      refine ⟨by omega, fun h => ?_⟩
      have := pa1 (by omega)
      have := pb h.2
      omega
  · rw [if_neg hx]
    right
    have hbe : b ≠ e := by
      intro h
      have h3 := pb h
      have : e * a ≤ d * e := by
        have := Int.mul_le_mul_of_nonneg_left a1 (show (0 : Int) ≤ e by omega)
        rwa [Int.mul_comm e d] at this
      omega
    clear pb pb1 pa pa1 pble pale
    rw [if_pos (by omega), if_neg hbe, ck_ok (by omega)]
    simp only [Option.bind_some]
    refine ⟨a, b + 1, err + d, by rw [syb], ?_, by omega, by omega, by omega, by omega, by omega⟩
    refine ⟨by omega, by omega, by omega, by omega, by omega, by omega, by omega, by omega, fun h1 h2 => ?_⟩
    obtain ⟨f1, f2⟩ := flat h1 h2
    omega

/-- Neighbours along the way. -/
def Step (p q : Int × Int) : Prop := p.1 ≤ q.1 ∧ q.1 ≤ p.1 + 1 ∧ p.2 ≤ q.2 ∧ q.2 ≤ p.2 + 1 ∧ p ≠ q

/-- Each point and the next one are related. -/
def Chain (R : Int × Int → Int × Int → Prop) : Int × Int → List (Int × Int) → Prop
  | _, [] => True
  | p, q :: l => R p q ∧ Chain R q l

/-- The last point. -/
def lastOf : Int × Int → List (Int × Int) → Int × Int
  | p, [] => p
  | _, q :: l => lastOf q l

/-- Draw at each point in turn. -/
def foldPlot {σ : Type} (plot : σ → Int → Int → Img → Option (σ × Img)) : List (Int × Int) → σ → Img → Option (σ × Img)
  | [], s, m => some (s, m)
  | p :: l, s, m => (plot s p.1 p.2 m).bind fun r => foldPlot plot l r.1 r.2

theorem lineLoop_path {x1 y1 sx sy x0 y0 d e : Int} (hd : d ≤ 268435456) (he : e ≤ 268435456) (hsx : sx = 1 ∨ sx = -1) (hsy : sy = 1 ∨ sy = -1)
    (hx1 : x1 = x0 + sx * d) (hy1 : y1 = y0 + sy * e) : ∀ (f : Nat) (a b err : Int), LInv d e a b err → d + e - a - b < f →
    ∃ l : List (Int × Int), Chain Step (a, b) l ∧ (∀ p ∈ (a, b) :: l, ∃ err, LInv d e p.1 p.2 err) ∧
      lastOf (a, b) l = (if e < d ∧ d ≤ 2 * e then (d - 1, e) else (d, e)) ∧
      ∀ {σ : Type} (plot : σ → Int → Int → Img → Option (σ × Img)) (s : σ) (m : Img),
        lineLoop plot x1 y1 d (-e) sx sy f s (x0 + sx * a) (y0 + sy * b) err m = foldPlot plot (((a, b) :: l).map fun p => (x0 + sx * p.1, y0 + sy * p.2)) s m
  | 0, a, b, err, inv, hf => by have := inv.a1; have := inv.b1; omega
  | f + 1, a, b, err, inv, hf => by
    rcases next_spec hd he hsx hsy hx1 hy1 inv with ⟨h1, h2, h3, h4⟩ | ⟨h1, h2, h3, h3', h4⟩ | ⟨a', b', err', h4, inv', p1, p2, p3, p4, p5⟩
    · refine ⟨[], trivial, fun p hp => ?_, by rw [if_neg h3, lastOf, h1, h2], fun plot s m => ?_⟩
      · rw [List.mem_singleton] at hp; subst hp; exact ⟨err, inv⟩
      · rw [lineLoop, h4]; rfl
    · refine ⟨[], trivial, fun p hp => ?_, by rw [if_pos ⟨h3, h3'⟩, lastOf, h1, h2], fun plot s m => ?_⟩
      · rw [List.mem_singleton] at hp; subst hp; exact ⟨err, inv⟩
      · rw [lineLoop, h4]; rfl
    · obtain ⟨l, c1, c2, c3, c4⟩ := lineLoop_path hd he hsx hsy hx1 hy1 f a' b' err' inv' (by omega)
      refine ⟨(a', b') :: l, ⟨⟨p1, p2, p3, p4, fun h => ?_⟩, c1⟩, fun p hp => ?_, c3, fun plot s m => ?_⟩
      · rw [Prod.mk.injEq] at h; omega
      · rcases List.mem_cons.1 hp with rfl | hp
        · exact ⟨err, inv⟩
        · exact c2 p hp
      · rw [lineLoop, h4, List.map_cons, foldPlot]
        simp only [Option.bind_some]
        congr 1
        funext r
        exact c4 plot r.1 r.2

/-! ## Drawing along a path -/

theorem pen_drawn {m : Img} (wf : Ok m) {t x y : Int} (ht : t ≤ 32767) (hx : -1073741824 ≤ x ∧ x ≤ 1073741824) (hy : -1073741824 ≤ y ∧ y ≤ 1073741824) (c : Color) :
    ∃ m', pen t c x y m = some m' ∧ Drawn m m' (InPen t x y) c := by
  unfold pen InPen
  by_cases h : t > 1
  · simp only [h, if_true]; exact fillCircle_drawn wf hx hy ⟨by omega, ht⟩ c
  · simp only [h, if_false]; exact putpixel_drawn wf x y c

theorem foldPen_drawn {t : Int} (ht : t ≤ 32767) (c : Color) : ∀ (l : List (Int × Int)) (m : Img), Ok m →
    (∀ p ∈ l, (-1073741824 ≤ p.1 ∧ p.1 ≤ 1073741824) ∧ -1073741824 ≤ p.2 ∧ p.2 ≤ 1073741824) →
    ∃ m', foldPlot (fun (_ : Unit) x y m => (pen t c x y m).map fun m => ((), m)) l () m = some ((), m') ∧ Drawn m m' (fun i j => ∃ p ∈ l, InPen t p.1 p.2 i j) c
  | [], m, _, _ => ⟨m, rfl, .none m fun i j h => by simp at h⟩
  | p :: l, m, wf, hl => by
    have h0 := hl p List.mem_cons_self
    obtain ⟨m1, e1, d1⟩ := pen_drawn wf ht h0.1 h0.2 c
    obtain ⟨m2, e2, d2⟩ := foldPen_drawn ht c l m1 (d1.same.ok wf) fun q hq => hl q (List.mem_cons_of_mem _ hq)
    refine ⟨m2, by rw [foldPlot, e1, Option.map_some, Option.bind_some, e2], (d1.trans d2).congr fun i j => ?_⟩
    simp only [List.mem_cons, exists_eq_or_imp]

theorem foldDots_drawn {t d1 d2 : Int} (ht : t ≤ 32767) (hd : 0 < d1 ∧ 0 ≤ d2 ∧ d1 + d2 < 2147483648) (c : Color) : ∀ (l : List (Int × Int)) (s : Dots) (m : Img), Ok m →
    0 ≤ s.cnt ∧ s.cnt < 2147483647 →
    (∀ p ∈ l, (-1073741824 ≤ p.1 ∧ p.1 ≤ 1073741824) ∧ -1073741824 ≤ p.2 ∧ p.2 ≤ 1073741824) →
    ∃ s' m', ∃ l' : List (Int × Int), foldPlot (dotPlot t d1 d2 c) l s m = some (s', m') ∧ l'.Sublist l ∧ Drawn m m' (fun i j => ∃ p ∈ l', InPen t p.1 p.2 i j) c ∧ 0 ≤ s'.cnt ∧ s'.cnt < 2147483647
  | [], s, m, _, hs, _ => ⟨s, m, [], rfl, .slnil, .none m fun i j h => by simp at h, hs⟩
  | p :: l, s, m, wf, hs, hl => by
    have h0 := hl p List.mem_cons_self
    by_cases hc : s.cnt ≤ d1
    · obtain ⟨m1, e1, g1⟩ := pen_drawn wf ht h0.1 h0.2 c
      have hn : 0 ≤ (if p.1 ≠ s.x ∨ p.2 ≠ s.y then s.cnt + 1 else s.cnt) ∧ (if p.1 ≠ s.x ∨ p.2 ≠ s.y then s.cnt + 1 else s.cnt) < 2147483648 := by split <;> omega
      obtain ⟨s', m2, l', e2, sl, g2, hs'⟩ := foldDots_drawn ht hd c l (⟨if (if p.1 ≠ s.x ∨ p.2 ≠ s.y then s.cnt + 1 else s.cnt) ≥ d1 + d2 then 0 else (if p.1 ≠ s.x ∨ p.2 ≠ s.y then s.cnt + 1 else s.cnt), p.1, p.2⟩) m1 (g1.same.ok wf)
        (by simp only; split <;> omega) fun q hq => hl q (List.mem_cons_of_mem _ hq)
      refine ⟨s', m2, p :: l', ?_, sl.cons_cons p, (g1.trans g2).congr fun i j => by simp only [List.mem_cons, exists_eq_or_imp], hs'⟩
      rw [foldPlot, dotPlot, if_pos hc, e1]
      simp only [Option.bind_some]
      rw [ck_ok (by omega)]
      simp only [Option.bind_some]
      rw [ck_ok (by omega)]
      simp only [Option.bind_some]
      exact e2
    · have hn : 0 ≤ (if p.1 ≠ s.x ∨ p.2 ≠ s.y then s.cnt + 1 else s.cnt) ∧ (if p.1 ≠ s.x ∨ p.2 ≠ s.y then s.cnt + 1 else s.cnt) < 2147483648 := by split <;> omega
      obtain ⟨s', m2, l', e2, sl, g2, hs'⟩ := foldDots_drawn ht hd c l (⟨if (if p.1 ≠ s.x ∨ p.2 ≠ s.y then s.cnt + 1 else s.cnt) ≥ d1 + d2 then 0 else (if p.1 ≠ s.x ∨ p.2 ≠ s.y then s.cnt + 1 else s.cnt), p.1, p.2⟩) m wf
        (by simp only; split <;> omega) fun q hq => hl q (List.mem_cons_of_mem _ hq)
      refine ⟨s', m2, l', ?_, sl.cons p, g2, hs'⟩
      rw [foldPlot, dotPlot, if_neg hc]
      simp only [Option.bind_some]
      rw [ck_ok (by omega)]
      simp only [Option.bind_some]
      rw [ck_ok (by omega)]
      simp only [Option.bind_some]
      exact e2

/-! ## The path in the image -/

theorem chain_ivt1 : ∀ (l : List (Int × Int)) (p : Int × Int), Chain Step p l → ∀ a, p.1 ≤ a → a ≤ (lastOf p l).1 → ∃ q ∈ p :: l, q.1 = a
  | [], p, _, a, h1, h2 => ⟨p, List.mem_cons_self, by rw [lastOf] at h2; omega⟩
  | q :: l, p, ⟨s, c⟩, a, h1, h2 => by
    by_cases h : a = p.1
    · exact ⟨p, List.mem_cons_self, h.symm⟩
    · obtain ⟨r, hr, e⟩ := chain_ivt1 l q c a (by have := s.2.1; omega) h2
      exact ⟨r, List.mem_cons_of_mem _ hr, e⟩

theorem chain_ivt2 : ∀ (l : List (Int × Int)) (p : Int × Int), Chain Step p l → ∀ a, p.2 ≤ a → a ≤ (lastOf p l).2 → ∃ q ∈ p :: l, q.2 = a
  | [], p, _, a, h1, h2 => ⟨p, List.mem_cons_self, by rw [lastOf] at h2; omega⟩
  | q :: l, p, ⟨s, c⟩, a, h1, h2 => by
    by_cases h : a = p.2
    · exact ⟨p, List.mem_cons_self, h.symm⟩
    · obtain ⟨r, hr, e⟩ := chain_ivt2 l q c a (by have := s.2.2.2.1; omega) h2
      exact ⟨r, List.mem_cons_of_mem _ hr, e⟩

theorem linked_map {x0 y0 sx sy : Int} (hsx : sx = 1 ∨ sx = -1) (hsy : sy = 1 ∨ sy = -1) : ∀ (l : List (Int × Int)) (p : Int × Int), Chain Step p l →
    Linked ((p :: l).map fun p => (x0 + sx * p.1, y0 + sy * p.2))
  | [], _, _ => trivial
  | q :: l, p, ⟨s, c⟩ => by
    refine ⟨?_, linked_map hsx hsy l q c⟩
    obtain ⟨s1, s2, s3, s4, s5⟩ := s
    have : p.1 ≠ q.1 ∨ p.2 ≠ q.2 := by
      by_cases h : p.1 = q.1
      · exact .inr fun h' => s5 (Prod.ext h h')
      · exact .inl h
    unfold Neighbours
    refine ⟨?_, ?_, fun h => ?_⟩
    · rcases hsx with rfl | rfl <;> simp only <;> omega
    · rcases hsy with rfl | rfl <;> simp only <;> omega
    · rw [Prod.mk.injEq] at h
      rcases hsx with rfl | rfl <;> rcases hsy with rfl | rfl <;> omega

theorem getLast_map (f : Int × Int → Int × Int) : ∀ (l : List (Int × Int)) (p : Int × Int), ((p :: l).map f).getLast? = some (f (lastOf p l))
  | [], p => rfl
  | q :: l, p => by
    rw [List.map_cons, List.map_cons, List.getLast?_cons_cons, ← List.map_cons, getLast_map f l q]; rfl

/-- The numbers with which the loop starts. -/
theorem line_setup (x0 x1 : Int) : (x0 < x1 ∧ (x1 - x0).natAbs = x1 - x0) ∨ (¬ x0 < x1 ∧ ((x1 - x0).natAbs : Int) = x0 - x1) := by omega

theorem cabs_eq {z : Int} (h : -2147483648 < z ∧ z < 2147483648) : cabs z = some (z.natAbs : Int) := by
  unfold cabs
  split
  · rw [ck_ok (by omega)]; congr 1; omega
  · congr 1; omega

theorem path_ok {x0 y0 x1 y1 sx sy : Int} {d e : Nat} {l : List (Int × Int)} (hsx : sx = 1 ∨ sx = -1) (hsy : sy = 1 ∨ sy = -1) (ex : x1 = x0 + sx * d) (ey : y1 = y0 + sy * e)
    (hd : (x1 - x0).natAbs = d) (he : (y1 - y0).natAbs = e) (hs : d ≠ 0 → sx = (x1 - x0).sign) (c1 : Chain Step (0, 0) l)
    (c2 : ∀ p ∈ (0, 0) :: l, ∃ err, LInv d e p.1 p.2 err) (c3 : lastOf (0, 0) l = (if (e : Int) < d ∧ (d : Int) ≤ 2 * e then ((d : Int) - 1, (e : Int)) else ((d : Int), (e : Int)))) :
    LinePath x0 y0 x1 y1 (((0, 0) :: l).map fun p : Int × Int => (x0 + sx * p.1, y0 + sy * p.2)) := by
  have hpt : ∀ p ∈ ((0, 0) :: l).map (fun p : Int × Int => (x0 + sx * p.1, y0 + sy * p.2)), ∃ a b err, LInv d e a b err ∧ p = (x0 + sx * a, y0 + sy * b) := by
    intro p hp
    obtain ⟨q, hq, rfl⟩ := List.mem_map.1 hp
    obtain ⟨err, inv⟩ := c2 q hq
    exact ⟨q.1, q.2, err, inv, rfl⟩
  have hcross : ∀ a b : Int, (cross x0 y0 x1 y1 (x0 + sx * a) (y0 + sy * b)).natAbs = ((d : Int) * b - e * a).natAbs := by
    intro a b
    have e1 : x1 - x0 = sx * d := by omega
    have e2 : y1 - y0 = sy * e := by omega
    have e3 : x0 + sx * a - x0 = sx * a := by omega
    have e4 : y0 + sy * b - y0 = sy * b := by omega
    unfold cross
    rw [e1, e2, e3, e4]
    have : a * (e : Int) = e * a := Int.mul_comm _ _
    have : b * (d : Int) = d * b := Int.mul_comm _ _
    rcases hsx with rfl | rfl <;> rcases hsy with rfl | rfl <;>
      simp only [Int.one_mul, Int.neg_mul, Int.mul_neg, Int.neg_neg] <;> omega
  have hbox : ∀ a b err, LInv d e a b err → min x0 x1 ≤ x0 + sx * a ∧ x0 + sx * a ≤ max x0 x1 ∧ min y0 y1 ≤ y0 + sy * b ∧ y0 + sy * b ≤ max y0 y1 := by
    intro a b err inv
    have := inv.a0; have := inv.a1; have := inv.b0; have := inv.b1
    rcases hsx with rfl | rfl <;> rcases hsy with rfl | rfl <;> omega
  have hstr : ∀ a b err, LInv d e a b err → x0 = x1 ∨ y0 = y1 ∨ (x1 - x0).natAbs = (y1 - y0).natAbs → (d : Int) * b - e * a = 0 := by
    intro a b err inv h
    rw [hd, he] at h
    obtain ⟨a0, a1, b0, b1, -, up, low, steep, -⟩ := inv
    rcases h with h | h | h
    · have h1 : (d : Int) = 0 := by omega
      have h2 : a = 0 := by omega
      rw [h1, h2]; simp
    · have h1 : (e : Int) = 0 := by omega
      have h2 : b = 0 := by omega
      rw [h1, h2]; simp
    · subst h
      have h1 := steep (by omega)
      have e1 : (d : Int) * b - d * a = d * (b - a) := by rw [Int.mul_sub]
      rw [e1] at h1 low ⊢
      have : b - a = 0 := by
        by_cases g : b - a ≤ -1
        · have := Int.mul_le_mul_of_nonneg_left g (show (0 : Int) ≤ d by omega)
          omega
        · by_cases g' : 1 ≤ b - a
          · have := Int.mul_le_mul_of_nonneg_left g' (show (0 : Int) ≤ d by omega)
            omega
          · omega
      rw [this]; simp
  have hflat : Flat x0 y0 x1 y1 ↔ ((e : Int) < d ∧ (d : Int) ≤ 2 * e) := by unfold Flat; rw [hd, he]; omega
  refine ⟨by simp, linked_map hsx hsy l (0, 0) c1, ?_, ?_, ?_, ?_, ?_⟩
  · intro p hp
    obtain ⟨a, b, err, inv, rfl⟩ := hpt p hp
    exact hbox a b err inv
  · intro p hp
    obtain ⟨a, b, err, inv, rfl⟩ := hpt p hp
    simp only [hcross]
    rw [hd, he]
    have := inv.up
    have := inv.low
    omega
  · intro h
    rw [getLast_map, c3, if_neg (fun h' => h (hflat.2 h'))]
    simp only [ex, ey]
  · intro h
    have h' := hflat.1 h
    refine ⟨?_, fun hm => ?_⟩
    · rw [getLast_map, c3, if_pos h']
      simp only [← hs (by omega), ← ey]
      congr 2
      rw [ex, Int.mul_sub]; omega
    · obtain ⟨a, b, err, inv, h3⟩ := hpt _ hm
      rw [Prod.mk.injEq] at h3
      refine (inv.flat h'.1 h'.2).2 ?_
      rcases hsx with rfl | rfl <;> rcases hsy with rfl | rfl <;> omega
  · intro h x y
    have hnf : ¬ ((e : Int) < d ∧ (d : Int) ≤ 2 * e) := by
      rw [hd, he] at h; omega
    constructor
    · intro hm
      obtain ⟨a, b, err, inv, h3⟩ := hpt _ hm
      rw [Prod.mk.injEq] at h3
      obtain ⟨rfl, rfl⟩ := h3
      obtain ⟨b1, b2, b3, b4⟩ := hbox a b err inv
      refine ⟨b1, b2, b3, b4, ?_⟩
      have := hcross a b
      rw [hstr a b err inv h] at this
      omega
    · rintro ⟨b1, b2, b3, b4, h5⟩
      obtain ⟨a, rfl, ha⟩ : ∃ a, x = x0 + sx * a ∧ 0 ≤ a ∧ a ≤ d := by
        rcases hsx with rfl | rfl
        · exact ⟨x - x0, by omega, by omega, by omega⟩
        · exact ⟨x0 - x, by omega, by omega, by omega⟩
      obtain ⟨b, rfl, hb⟩ : ∃ b, y = y0 + sy * b ∧ 0 ≤ b ∧ b ≤ e := by
        rcases hsy with rfl | rfl
        · exact ⟨y - y0, by omega, by omega, by omega⟩
        · exact ⟨y0 - y, by omega, by omega, by omega⟩
      have h6 := hcross a b
      rw [h5] at h6
      have h7 : (d : Int) * b - e * a = 0 := by
        have : (0 : Int).natAbs = 0 := rfl
        omega
      have hl1 : (lastOf (0, 0) l) = ((d : Int), (e : Int)) := by rw [c3, if_neg hnf]
      by_cases hd0 : d = 0
      · obtain ⟨q, hq, hqb⟩ := chain_ivt2 l (0, 0) c1 b hb.1 (by rw [hl1]; exact hb.2)
        obtain ⟨err, inv⟩ := c2 q hq
        have := inv.a0; have := inv.a1
        have : q = (a, b) := Prod.ext (by simp only; omega) hqb
        subst this
        exact List.mem_map.2 ⟨_, hq, rfl⟩
      · obtain ⟨q, hq, hqa⟩ := chain_ivt1 l (0, 0) c1 a ha.1 (by rw [hl1]; exact ha.2)
        obtain ⟨err, inv⟩ := c2 q hq
        have h8 := hstr q.1 q.2 err inv h
        rw [hqa] at h8
        have h9 : (d : Int) * q.2 = d * b := by omega
        have := Int.eq_of_mul_eq_mul_left (by omega) h9
        have : q = (a, b) := Prod.ext hqa this
        subst this
        exact List.mem_map.2 ⟨_, hq, rfl⟩

theorem sign_eq {x0 x1 sx : Int} (h : sx = if x0 < x1 then 1 else -1) (hd : (x1 - x0).natAbs ≠ 0) : sx = (x1 - x0).sign := by
  rw [h]
  split
  · exact (Int.sign_eq_one_of_pos (by omega)).symm
  · exact (Int.sign_eq_neg_one_of_neg (by omega)).symm

theorem line_spec {x0 y0 x1 y1 : Int} (hx0 : -134217728 ≤ x0 ∧ x0 ≤ 134217728) (hy0 : -134217728 ≤ y0 ∧ y0 ≤ 134217728) (hx1 : -134217728 ≤ x1 ∧ x1 ≤ 134217728) (hy1 : -134217728 ≤ y1 ∧ y1 ≤ 134217728) :
    ∃ l : List (Int × Int), LinePath x0 y0 x1 y1 l ∧ ∀ (s : Dots) (m : Img) (t d1 d2 : Int) (c : Color), line s m x0 y0 x1 y1 t d1 d2 c =
      if d1 > 0 then foldPlot (dotPlot t d1 d2 c) l s m
      else (foldPlot (fun (_ : Unit) x y m => (pen t c x y m).map fun m => ((), m)) l () m).map fun r => (s, r.2) := by
  obtain ⟨sx, hsxd, hsx, ex⟩ : ∃ sx : Int, sx = (if x0 < x1 then 1 else -1) ∧ (sx = 1 ∨ sx = -1) ∧ x1 = x0 + sx * (x1 - x0).natAbs := by
    by_cases h : x0 < x1
    · exact ⟨1, by rw [if_pos h], .inl rfl, by omega⟩
    · exact ⟨-1, by rw [if_neg h], .inr rfl, by omega⟩
  obtain ⟨sy, hsyd, hsy, ey⟩ : ∃ sy : Int, sy = (if y0 < y1 then 1 else -1) ∧ (sy = 1 ∨ sy = -1) ∧ y1 = y0 + sy * (y1 - y0).natAbs := by
    by_cases h : y0 < y1
    · exact ⟨1, by rw [if_pos h], .inl rfl, by omega⟩
    · exact ⟨-1, by rw [if_neg h], .inr rfl, by omega⟩
  have hdn : (0 : Int) ≤ (x1 - x0).natAbs := by omega
  have hen : (0 : Int) ≤ (y1 - y0).natAbs := by omega
  have hdle : ((x1 - x0).natAbs : Int) ≤ 268435456 := by omega
  have hele : ((y1 - y0).natAbs : Int) ≤ 268435456 := by omega
  obtain ⟨l, c1, c2, c3, c4⟩ := lineLoop_path hdle hele hsx hsy ex ey (((x1 - x0).natAbs : Int) + (y1 - y0).natAbs + 1).toNat 0 0 _ (LInv.start hdn hen) (by omega)
  refine ⟨((0, 0) :: l).map (fun p : Int × Int => (x0 + sx * p.1, y0 + sy * p.2)), ?_, fun s m t d1 d2 c => ?_⟩
  rotate_left
  · rw [line, ck_ok (by omega), Option.bind_some, ck_ok (by omega), Option.bind_some, cabs_eq (by omega), Option.bind_some, cabs_eq (by omega), Option.bind_some]
    simp only [← hsxd, ← hsyd]
    have h0 := c4 (dotPlot t d1 d2 c) s m
    have h1 := c4 (fun (_ : Unit) x y m => (pen t c x y m).map fun m => ((), m)) () m
    simp only [Int.mul_zero, Int.add_zero] at h0 h1
    rw [h0, h1]
  · exact path_ok hsx hsy ex ey rfl rfl (fun h => sign_eq hsxd h) c1 c2 c3

end Verif.Img
