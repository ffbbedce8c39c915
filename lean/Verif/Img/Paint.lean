import Verif.Img.Pixel

namespace Verif.Img

theorem SameDims.refl (m : Img) : SameDims m m := ⟨rfl, rfl, rfl, rfl⟩
theorem SameDims.trans {a b c : Img} (h : SameDims a b) (g : SameDims b c) : SameDims a c := ⟨g.w.trans h.w, g.h.trans h.h, g.fmt.trans h.fmt, g.len.trans h.len⟩
theorem SameDims.ok {a b : Img} (h : SameDims a b) (o : Ok a) : Ok b := by
  obtain ⟨f, r, s, d⟩ := o
  exact ⟨by rw [h.fmt]; exact f, by rw [h.w, h.h, h.fmt, h.len]; exact r, by rw [h.len]; exact s, by rw [h.w, h.h]; exact d⟩

theorem Painted.same {m m' : Img} {S : Int → Int → Prop} {col : Int → Int → Color} (h : Painted m m' S col) : SameDims m m' := ⟨h.w, h.h, h.fmt, h.len⟩

theorem Painted.none (m : Img) {S : Int → Int → Prop} {col : Int → Int → Color} (h : ∀ i j : Nat, i < m.w → j < m.h → ¬ S i j) : Painted m m S col :=
  ⟨rfl, rfl, rfl, rfl, fun i j _ hi hj _ hs => absurd hs (h i j hi hj), fun _ _ => rfl⟩

theorem Painted.congr {m m' : Img} {S S' : Int → Int → Prop} {col : Int → Int → Color} (h : Painted m m' S col) (e : ∀ i j : Nat, i < m.w → j < m.h → (S i j ↔ S' i j)) :
    Painted m m' S' col :=
  ⟨h.w, h.h, h.fmt, h.len, fun i j k hi hj hk hs => h.set i j k hi hj hk ((e i j hi hj).2 hs), fun q hq => h.keep q fun i j k hi hj hk hs => hq i j k hi hj hk ((e i j hi hj).1 hs)⟩

/-- Different pixels own different bits. -/
theorem addr_inj {w f i j k i' j' k' : Nat} (hi : i < w) (hi' : i' < w) (hk : k < f) (hk' : k' < f) (h : (j * w + i) * f + k = (j' * w + i') * f + k') : i = i' ∧ j = j' ∧ k = k' := by
  have h1 : j * w + i = j' * w + i' := by
    have := congrArg (· / f) h
    rwa [Nat.mul_comm _ f, Nat.mul_comm _ f, Nat.mul_add_div (by omega), Nat.mul_add_div (by omega), Nat.div_eq_of_lt hk, Nat.div_eq_of_lt hk'] at this
  have h2 : k = k' := by rw [h1] at h; omega
  have h3 : j = j' := by
    have := congrArg (· / w) h1
    rwa [Nat.mul_comm _ w, Nat.mul_comm _ w, Nat.mul_add_div (by omega), Nat.mul_add_div (by omega), Nat.div_eq_of_lt hi, Nat.div_eq_of_lt hi'] at this
  subst h3
  exact ⟨by omega, rfl, h2⟩

theorem Painted.trans {m m1 m2 : Img} {S1 S2 : Int → Int → Prop} {col : Int → Int → Color} (h : Painted m m1 S1 col) (g : Painted m1 m2 S2 col) :
    Painted m m2 (fun i j => S1 i j ∨ S2 i j) col := by
  refine ⟨g.w.trans h.w, g.h.trans h.h, g.fmt.trans h.fmt, g.len.trans h.len, ?_, ?_⟩
  · intro i j k hi hj hk hs
    by_cases h2 : S2 i j
    · have := g.set i j k (by rw [h.w]; exact hi) (by rw [h.h]; exact hj) (by rw [h.fmt]; exact hk) h2
      rw [h.fmt] at this; exact this
    · have h1 : S1 i j := hs.resolve_right h2
      rw [← h.set i j k hi hj hk h1]
      unfold pix
      rw [g.w, g.fmt, h.w, h.fmt]
      refine g.keep _ fun i' j' k' hi' hj' hk' hs' e => h2 ?_
      rw [h.w, h.fmt] at e
      obtain ⟨rfl, rfl, rfl⟩ := addr_inj hi (by rw [← h.w]; exact hi') hk (by rw [← h.fmt]; exact hk') e
      exact hs'
  · intro q hq
    rw [← h.keep q fun i j k hi hj hk hs => hq i j k hi hj hk (.inl hs)]
    refine g.keep q fun i j k hi hj hk hs => ?_
    rw [h.w] at hi; rw [h.h] at hj; rw [h.fmt] at hk
    have := hq i j k hi hj hk (.inr hs)
    rwa [h.w, h.fmt]

/-- A drawing that keeps the size, and that paints `S` if the colour is plain. -/
structure Drawn (m m' : Img) (S : Int → Int → Prop) (c : Color) : Prop where
  same : SameDims m m'
  paint : Plain m.fmt c → Painted m m' (Wrap S) fun _ _ => c

theorem Drawn.none (m : Img) {S : Int → Int → Prop} {c : Color} (h : ∀ i j, ¬ S i j) : Drawn m m S c :=
  ⟨.refl m, fun _ => .none m fun _ _ _ _ ⟨x, y, hs, _⟩ => h x y hs⟩

theorem Drawn.congr {m m' : Img} {S S' : Int → Int → Prop} {c : Color} (h : Drawn m m' S c) (e : ∀ i j, S i j ↔ S' i j) : Drawn m m' S' c := by
  have : S = S' := by funext i j; exact propext (e i j)
  exact this ▸ h

theorem Drawn.trans {m m1 m2 : Img} {S1 S2 : Int → Int → Prop} {c : Color} (h : Drawn m m1 S1 c) (g : Drawn m1 m2 S2 c) : Drawn m m2 (fun i j => S1 i j ∨ S2 i j) c := by
  refine ⟨h.same.trans g.same, fun hp => ?_⟩
  refine ((h.paint hp).trans (g.paint (by rw [h.same.fmt]; exact hp))).congr fun i j _ _ => ?_
  constructor
  · rintro (⟨x, y, hs, e⟩ | ⟨x, y, hs, e⟩)
    · exact ⟨x, y, .inl hs, e⟩
    · exact ⟨x, y, .inr hs, e⟩
  · rintro ⟨x, y, hs | hs, e⟩
    · exact .inl ⟨x, y, hs, e⟩
    · exact .inr ⟨x, y, hs, e⟩

theorem putpixel_painted {m : Img} (wf : Ok m) {x y : Nat} (hx : x < m.w) (hy : y < m.h) {c : Color} {d : List Byte} (hl : d.length = m.data.length)
    (hb : ∀ q, bit d q = if q / m.fmt = y * m.w + x then encBit m.fmt c (q % m.fmt) else bit m.data q) (col : Int → Int → Color) (hcol : col x y = c) :
    Painted m { m with data := d } (fun i j => i = x ∧ j = y) col := by
  have hf : 0 < m.fmt := by rcases wf.fmt with h | h | h | h | h | h <;> omega
  refine ⟨rfl, rfl, rfl, hl, ?_, ?_⟩
  · rintro i j k hi hj hk ⟨e1, e2⟩
    have e1 : i = x := by omega
    have e2 : j = y := by omega
    subst e1 e2
    unfold pix
    simp only
    rw [hb, hcol, Nat.mul_comm _ m.fmt, Nat.mul_add_div hf, Nat.div_eq_of_lt hk, Nat.add_zero, if_pos rfl, Nat.mul_add_mod, Nat.mod_eq_of_lt hk]
  · intro q hq
    rw [hb, if_neg]
    intro e
    refine hq x y (q % m.fmt) hx hy (Nat.mod_lt _ hf) ⟨rfl, rfl⟩ ?_
    rw [← e, Nat.mul_comm]; exact (Nat.div_add_mod q m.fmt).symm

theorem u16_lt (x : Int) : u16 x < 65536 := by unfold u16; omega
theorem u16_eq (x : Int) (i : Nat) : u16 x = i ↔ x % 65536 = i := by unfold u16; omega

theorem putpixel_drawn {m : Img} (wf : Ok m) (x y : Int) (c : Color) : ∃ m', putpixel m x y c = some m' ∧ Drawn m m' (fun i j => i = x ∧ j = y) c := by
  unfold putpixel
  split
  · rename_i hxy
    obtain ⟨d, e, hl⟩ := putData_safe wf hxy.1 hxy.2 c
    refine ⟨{ m with data := d }, by rw [e]; rfl, ⟨rfl, rfl, rfl, hl⟩, fun hp => ?_⟩
    obtain ⟨d', e', -, hb⟩ := putData_ok wf hxy.1 hxy.2 hp
    obtain rfl : d = d' := Option.some.inj (e.symm.trans e')
    refine (putpixel_painted wf hxy.1 hxy.2 hl hb (fun _ _ => c) rfl).congr fun i j hi hj => ?_
    constructor
    · rintro ⟨e1, e2⟩
      exact ⟨x, y, ⟨rfl, rfl⟩, by rw [← u16_eq]; omega, by rw [← u16_eq]; omega⟩
    · rintro ⟨_, _, ⟨rfl, rfl⟩, e1, e2⟩
      rw [← u16_eq] at e1 e2
      exact ⟨by omega, by omega⟩
  · rename_i hxy
    refine ⟨m, rfl, .refl m, fun _ => .none m ?_⟩
    rintro i j hi hj ⟨_, _, ⟨rfl, rfl⟩, e1, e2⟩
    rw [← u16_eq] at e1 e2
    omega

/-- A wrapped set of points that are near is the set itself. -/
theorem Painted.near {m m' : Img} {S : Int → Int → Prop} {col : Int → Int → Color} (h : Painted m m' (Wrap S) col) (hn : ∀ x y, S x y → Near m x y) :
    Painted m m' S col := by
  refine h.congr fun i j hi hj => ?_
  constructor
  · rintro ⟨x, y, hs, e1, e2⟩
    obtain ⟨a1, a2, a3, a4⟩ := hn x y hs
    have : x = i := by omega
    have : y = j := by omega
    subst x y; exact hs
  · intro hs
    obtain ⟨a1, a2, a3, a4⟩ := hn _ _ hs
    exact ⟨i, j, hs, by omega, by omega⟩

theorem ck_ok {z : Int} (h : -2147483648 ≤ z ∧ z < 2147483648) : ck z = some z := if_pos h

end Verif.Img
