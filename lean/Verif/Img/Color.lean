import Verif.Img.Model

/-!
# Colours with gradients

A gradient is given by two colours, a width and an offset. Its colour depends on the column or on the row of the pixel.
-/

namespace Verif.Img

/-- `cos_tab_256`, `src/extensions/display_extensions.c:34-53`. -/
def cosTab : List Nat := [
  255, 255, 255, 255, 254, 254, 254, 253, 253, 252, 251, 250, 250, 249, 248, 246, 245, 244, 243, 241, 240, 238, 237, 235, 234, 232, 230, 228, 226, 224, 222, 220,
  218, 215, 213, 211, 208, 206, 203, 201, 198, 196, 193, 190, 188, 185, 182, 179, 176, 173, 170, 167, 165, 162, 158, 155, 152, 149, 146, 143, 140, 137, 134, 131,
  127, 124, 121, 118, 115, 112, 109, 106, 103, 100, 97, 93, 90, 88, 85, 82, 79, 76, 73, 70, 67, 65, 62, 59, 57, 54, 52, 49, 47, 44, 42, 40,
  37, 35, 33, 31, 29, 27, 25, 23, 21, 20, 18, 17, 15, 14, 12, 11, 10, 9, 7, 6, 5, 5, 4, 3, 2, 2, 1, 1, 1, 0, 0, 0,
  0, 0, 0, 0, 1, 1, 1, 2, 2, 3, 4, 5, 5, 6, 7, 9, 10, 11, 12, 14, 15, 17, 18, 20, 21, 23, 25, 27, 29, 31, 33, 35,
  37, 40, 42, 44, 47, 49, 52, 54, 57, 59, 62, 65, 67, 70, 73, 76, 79, 82, 85, 88, 90, 93, 97, 100, 103, 106, 109, 112, 115, 118, 121, 124,
  128, 131, 134, 137, 140, 143, 146, 149, 152, 155, 158, 162, 165, 167, 170, 173, 176, 179, 182, 185, 188, 190, 193, 196, 198, 201, 203, 206, 208, 211, 213, 215,
  218, 220, 222, 224, 226, 228, 230, 232, 234, 235, 237, 238, 240, 241, 243, 244, 245, 246, 248, 249, 250, 250, 251, 252, 253, 253, 254, 254, 254, 255, 255, 255]

/-- `COLOR_TYPE`, `include/extensions/display_extensions.h:39-45`. -/
inductive ColorType where
  | regular | gradX | gradY | preX | preY
  deriving DecidableEq

/-- `color_t`, `include/extensions/display_extensions.h:56-64`; the width `p1` and the offset `p2` have 16 bits. The table is empty if it has not been allocated. -/
structure ColorT where
  type : ColorType
  c1 : Color
  c2 : Color
  p1 : Nat
  p2 : Nat
  mirrored : Bool
  pre : List Color

/-- One of the three parts of a mixed colour, `src/extensions/display_extensions.c:80-82`. Nothing wraps around since the parts are smaller than 65536. -/
def mix (a b t : Nat) : Nat := (a * t + b * (255 - t)) / 255

/-- The mixed colour, `src/extensions/display_extensions.c:60-68` and `80-85`. The shifts and `|` put the three parts next to each other, since green and blue are smaller than 256. -/
def mixed (c1 c2 : Color) (t : Nat) : Color :=
  BitVec.ofNat 32 (mix (c1.toNat / 65536) (c2.toNat / 65536) t * 65536 + mix (c1.toNat / 256 % 256) (c2.toNat / 256 % 256) t * 256 + mix (c1.toNat % 256) (c2.toNat % 256) t)

/-- The index in the table, `src/extensions/display_extensions.c:70-78`. `none` on overflow and division by zero. -/
def tabPos (p1 p2 : Nat) (mirrored : Bool) (pos : Int) : Option Nat :=
  let len : Int := if mirrored then 256 else 128
  (ck (pos - p2)).bind fun d => (ck (d * 256)).bind fun n =>
    if p1 = 0 then none
    else
      let t := ((n.tdiv p1).tdiv 2).tmod len
      some (if t < 0 then t + len else t).toNat

/-- `lbm_display_rgb888_from_color`, `src/extensions/display_extensions.c:53-92`. -/
def fromColor (c : ColorT) (x y : Int) : Option Color :=
  match c.type with
  | .regular => some c.c1
  | .gradX => (tabPos c.p1 c.p2 c.mirrored x).bind fun i => (cosTab[i]?).map (mixed c.c1 c.c2)
  | .gradY => (tabPos c.p1 c.p2 c.mirrored y).bind fun i => (cosTab[i]?).map (mixed c.c1 c.c2)
  | _ => some 0

/-- The loop of `color_allocate`, `src/extensions/display_extensions.c:233-235`: `n` colours from `i` on. -/
def preLoop (c : ColorT) : Nat → Nat → Option (List Color)
  | 0, _ => some []
  | n + 1, i => (ck (i + c.p2)).bind fun z => (fromColor c z z).bind fun a => (preLoop c n (i + 1)).map (a :: ·)

/-- `ext_color`, `src/extensions/display_extensions.c:2036-2108`, and `color_allocate`, `src/extensions/display_extensions.c:188-241`, with memory available. The table has 512 places; those behind the width keep what was in the memory before: `junk`. -/
def makeColor (type : ColorType) (c1 c2 : Color) (width offset : Int) (mirrored : Bool) (junk : List Color) : Option ColorT :=
  let p1 := u16 width
  let p2 := u16 offset
  match type with
  | .preX => let p1 := if p1 > 512 then 512 else p1; (preLoop ⟨.gradX, c1, c2, p1, p2, mirrored, []⟩ p1 0).map fun l => ⟨.preX, c1, c2, p1, p2, mirrored, l ++ junk.drop p1⟩
  | .preY => let p1 := if p1 > 512 then 512 else p1; (preLoop ⟨.gradY, c1, c2, p1, p2, mirrored, []⟩ p1 0).map fun l => ⟨.preY, c1, c2, p1, p2, mirrored, l ++ junk.drop p1⟩
  | t => some ⟨t, c1, c2, p1, p2, mirrored, []⟩

/-- `color_apply_precalc`, `include/extensions/display_extensions.h:125-157`. -/
def applyPre (c : ColorT) (x y : Int) : Option Color :=
  let go (pos : Int) : Option Color :=
    if c.p1 = 0 then none
    else
      (ck (pos - c.p2)).bind fun d =>
        if c.mirrored then
          let i := d.tmod (c.p1 * 2)
          let i := if i < 0 then i + c.p1 * 2 else i
          let i := if i ≥ c.p1 then c.p1 * 2 - i - 1 else i
          c.pre[i.toNat]?
        else
          let i := d.tmod c.p1
          let i := if i < 0 then i + c.p1 else i
          c.pre[i.toNat]?
  match c.type with
  | .preX => go x
  | .preY => go y
  | _ => some 0

/-- `COLOR_TO_RGB888`, `include/extensions/display_extensions.h:159-160`: the colour of a pixel. -/
def toRgb (c : ColorT) (x y : Int) : Option Color :=
  if c.type = .regular then some c.c1 else if c.pre.isEmpty then fromColor c x y else applyPre c x y

/-! ## Specification -/

/-- The red, green and blue parts of a colour; red includes the upper byte. -/
def red (c : Color) : Nat := c.toNat / 65536
def green (c : Color) : Nat := c.toNat / 256 % 256
def blue (c : Color) : Nat := c.toNat % 256

/-- The parts of `c` lie between those of `a` and `b`. -/
def Between (a b c : Color) : Prop :=
  (min (red a) (red b) ≤ red c ∧ red c ≤ max (red a) (red b)) ∧ (min (green a) (green b) ≤ green c ∧ green c ≤ max (green a) (green b)) ∧ min (blue a) (blue b) ≤ blue c ∧ blue c ≤ max (blue a) (blue b)

/-- `c` is not farther from `a`, and not nearer to `b`, than `d`. -/
def Nearer (a b c d : Color) : Prop := Between a d c ∧ Between c b d

/-! ## Proofs -/

theorem ck_ok0 {z : Int} (h : -2147483648 ≤ z ∧ z < 2147483648) : ck z = some z := if_pos h

theorem mix_le {a b t : Nat} (ht : t ≤ 255) : min a b ≤ mix a b t ∧ mix a b t ≤ max a b := by
  have key : ∀ u v s r : Nat, s + r = 255 → u ≤ v → u * 255 ≤ u * s + v * r ∧ u * s + v * r ≤ v * 255 := by
    intro u v s r h1 h2
    have e1 : u * s + u * r = u * 255 := by rw [← Nat.mul_add, h1]
    have e2 : v * s + v * r = v * 255 := by rw [← Nat.mul_add, h1]
    have f1 := Nat.mul_le_mul_right r h2
    have f2 := Nat.mul_le_mul_right s h2
    omega
  unfold mix
  rcases Nat.le_total a b with h | h
  · obtain ⟨h1, h2⟩ := key a b t (255 - t) (by omega) h
    omega
  · obtain ⟨h1, h2⟩ := key b a (255 - t) t (by omega) h
    omega

theorem mix_mono {a b t u : Nat} (htu : u ≤ t) (ht : t ≤ 255) : min a (mix a b u) ≤ mix a b t ∧ mix a b t ≤ max a (mix a b u) ∧ min (mix a b t) b ≤ mix a b u ∧ mix a b u ≤ max (mix a b t) b := by
  have h1 := mix_le (a := a) (b := b) ht
  have h2 := mix_le (a := a) (b := b) (t := u) (by omega)
  have key : (a ≤ b → mix a b t ≤ mix a b u) ∧ (b ≤ a → mix a b u ≤ mix a b t) := by
    unfold mix
    constructor <;> intro h <;> apply Nat.div_le_div_right
    · obtain ⟨d, rfl⟩ : ∃ d, t = u + d := ⟨t - u, by omega⟩
      obtain ⟨r, hr⟩ : ∃ r, 255 = u + d + r := ⟨255 - (u + d), by omega⟩
      rw [show 255 - (u + d) = r by omega, show 255 - u = d + r by omega, Nat.mul_add, Nat.mul_add]
      have := Nat.mul_le_mul_right d h
      omega
    · obtain ⟨d, rfl⟩ : ∃ d, t = u + d := ⟨t - u, by omega⟩
      obtain ⟨r, hr⟩ : ∃ r, 255 = u + d + r := ⟨255 - (u + d), by omega⟩
      rw [show 255 - (u + d) = r by omega, show 255 - u = d + r by omega, Nat.mul_add, Nat.mul_add]
      have := Nat.mul_le_mul_right d h
      omega
  rcases Nat.le_total a b with h | h
  · have := key.1 h; omega
  · have := key.2 h; omega

theorem parts_lt (c : Color) : red c < 65536 ∧ green c < 256 ∧ blue c < 256 := by
  have := c.isLt
  unfold red green blue
  omega

theorem mixed_parts (c1 c2 : Color) {t : Nat} (ht : t ≤ 255) : red (mixed c1 c2 t) = mix (red c1) (red c2) t ∧ green (mixed c1 c2 t) = mix (green c1) (green c2) t ∧ blue (mixed c1 c2 t) = mix (blue c1) (blue c2) t := by
  obtain ⟨a1, a2, a3⟩ := parts_lt c1
  obtain ⟨b1, b2, b3⟩ := parts_lt c2
  have r1 := mix_le (a := red c1) (b := red c2) ht
  have r2 := mix_le (a := green c1) (b := green c2) ht
  have r3 := mix_le (a := blue c1) (b := blue c2) ht
  have e : (mixed c1 c2 t).toNat = mix (red c1) (red c2) t * 65536 + mix (green c1) (green c2) t * 256 + mix (blue c1) (blue c2) t := by
    unfold mixed
    rw [BitVec.toNat_ofNat]
    change (mix (red c1) (red c2) t * 65536 + mix (green c1) (green c2) t * 256 + mix (blue c1) (blue c2) t) % _ = _
    omega
  generalize mix (red c1) (red c2) t = r at *
  generalize mix (green c1) (green c2) t = g at *
  generalize mix (blue c1) (blue c2) t = b at *
  unfold red green blue at *
  rw [e]
  omega

theorem mixed_between (c1 c2 : Color) {t : Nat} (ht : t ≤ 255) : Between c1 c2 (mixed c1 c2 t) := by
  obtain ⟨h1, h2, h3⟩ := mixed_parts c1 c2 ht
  rw [Between, h1, h2, h3]
  exact ⟨mix_le ht, mix_le ht, mix_le ht⟩

theorem mixed_nearer (c1 c2 : Color) {t u : Nat} (htu : u ≤ t) (ht : t ≤ 255) : Nearer c1 c2 (mixed c1 c2 t) (mixed c1 c2 u) := by
  obtain ⟨h1, h2, h3⟩ := mixed_parts c1 c2 ht
  obtain ⟨g1, g2, g3⟩ := mixed_parts c1 c2 (t := u) (by omega)
  rw [Nearer, Between, Between, h1, h2, h3, g1, g2, g3]
  have k1 := mix_mono (a := red c1) (b := red c2) htu ht
  have k2 := mix_mono (a := green c1) (b := green c2) htu ht
  have k3 := mix_mono (a := blue c1) (b := blue c2) htu ht
  omega

theorem mix_255 (a b : Nat) : mix a b 255 = a := by unfold mix; omega
theorem mix_0 (a b : Nat) : mix a b 0 = b := by unfold mix; omega

theorem eq_of_parts {c d : Color} (h1 : red c = red d) (h2 : green c = green d) (h3 : blue c = blue d) : c = d := by
  apply BitVec.eq_of_toNat_eq
  unfold red green blue at *
  omega

theorem mixed_255 (c1 c2 : Color) : mixed c1 c2 255 = c1 := by
  obtain ⟨h1, h2, h3⟩ := mixed_parts c1 c2 (t := 255) (by omega)
  exact eq_of_parts (by rw [h1, mix_255]) (by rw [h2, mix_255]) (by rw [h3, mix_255])

theorem mixed_0 (c1 c2 : Color) : mixed c1 c2 0 = c2 := by
  obtain ⟨h1, h2, h3⟩ := mixed_parts c1 c2 (t := 0) (by omega)
  exact eq_of_parts (by rw [h1, mix_0]) (by rw [h2, mix_0]) (by rw [h3, mix_0])

theorem cosTab_length : cosTab.length = 256 := by decide +kernel

theorem cosTab_le : ∀ t ∈ cosTab, t ≤ 255 := by decide +kernel

theorem cosTab_mono : ∀ i, i < 128 → cosTab.getD (i + 1) 0 ≤ cosTab.getD i 0 := by decide +kernel

theorem cosTab_mono' {i j : Nat} (hij : i ≤ j) (hj : j ≤ 128) : cosTab.getD j 0 ≤ cosTab.getD i 0 := by
  induction j with
  | zero => rw [show i = 0 by omega]; exact Nat.le_refl _
  | succ n ih =>
    rcases Nat.lt_or_ge n i with h | h
    · rw [show i = n + 1 by omega]; exact Nat.le_refl _
    · exact Nat.le_trans (cosTab_mono n (by omega)) (ih h (by omega))

theorem tmod_range (a : Int) {b : Int} (hb : 0 < b) : -b < a.tmod b ∧ a.tmod b < b := by
  have h2 := Int.tmod_lt_of_pos a hb
  have h1 := Int.tmod_lt_of_pos (-a) hb
  rw [Int.neg_tmod] at h1
  omega

/-- The index is in the table for all positions. -/
theorem tabPos_some {p1 p2 : Nat} (h1 : 0 < p1) (h2 : p2 < 65536) (mirrored : Bool) {pos : Int} (hp : -8000000 ≤ pos ∧ pos ≤ 8000000) : ∃ i, tabPos p1 p2 mirrored pos = some i ∧ i < 256 := by
  unfold tabPos
  simp only
  rw [ck_ok0 (by omega), Option.bind_some, ck_ok0 (by omega), Option.bind_some, if_neg (by omega)]
  refine ⟨_, rfl, ?_⟩
  have hl : (0 : Int) < (if mirrored then 256 else 128) ∧ (if mirrored then 256 else 128 : Int) ≤ 256 := by cases mirrored <;> decide
  generalize (if mirrored then 256 else 128 : Int) = len at *
  have := tmod_range ((((pos - p2) * 256).tdiv p1).tdiv 2) hl.1
  split <;> omega

/-- The index for positions from the offset on. -/
theorem tabPos_nat {p1 p2 : Nat} (h1 : 0 < p1) (h2 : p2 < 65536) (mirrored : Bool) {d : Nat} (hd : d ≤ 7000000) : tabPos p1 p2 mirrored (p2 + d) = some (d * 256 / p1 / 2 % (if mirrored then 256 else 128)) := by
  unfold tabPos
  simp only
  rw [ck_ok0 (by omega), Option.bind_some, ck_ok0 (by omega), Option.bind_some, if_neg (by omega)]
  have e1 : ((p2 : Int) + d - p2) * 256 = ((d * 256 : Nat) : Int) := by omega
  rw [e1]
  have e2 : ((d * 256 : Nat) : Int).tdiv p1 = ((d * 256 / p1 : Nat) : Int) := rfl
  have e3 : ((d * 256 / p1 : Nat) : Int).tdiv 2 = ((d * 256 / p1 / 2 : Nat) : Int) := rfl
  rw [e2, e3]
  generalize d * 256 / p1 / 2 = t
  cases mirrored
  · have e4 : (t : Int).tmod 128 = ((t % 128 : Nat) : Int) := rfl
    simp only [Bool.false_eq_true, if_false]
    rw [e4, if_neg (by omega), Int.toNat_natCast]
  · have e4 : (t : Int).tmod 256 = ((t % 256 : Nat) : Int) := rfl
    simp only [if_true]
    rw [e4, if_neg (by omega), Int.toNat_natCast]

/-- The colour of a gradient at a position. -/
def gradAt (c1 c2 : Color) (p1 p2 : Nat) (mirrored : Bool) (pos : Int) : Option Color := (tabPos p1 p2 mirrored pos).bind fun i => (cosTab[i]?).map (mixed c1 c2)

/-- Its position: the column or the row. -/
def axis (t : ColorType) (x y : Int) : Int := if t = .gradX ∨ t = .preX then x else y

theorem cosTab_get {i : Nat} (h : i < 256) : cosTab[i]? = some (cosTab.getD i 0) ∧ cosTab.getD i 0 ≤ 255 := by
  have hl : i < cosTab.length := by rw [cosTab_length]; exact h
  rw [List.getD_eq_getElem?_getD, List.getElem?_eq_getElem hl]
  exact ⟨rfl, cosTab_le _ (List.getElem_mem hl)⟩

theorem gradAt_some (c1 c2 : Color) {p1 p2 : Nat} (h1 : 0 < p1) (h2 : p2 < 65536) (mirrored : Bool) {pos : Int} (hp : -8000000 ≤ pos ∧ pos ≤ 8000000) :
    ∃ c, gradAt c1 c2 p1 p2 mirrored pos = some c ∧ Between c1 c2 c := by
  obtain ⟨i, e, hi⟩ := tabPos_some h1 h2 mirrored hp
  obtain ⟨g, hl⟩ := cosTab_get hi
  exact ⟨_, by rw [gradAt, e, Option.bind_some, g]; rfl, mixed_between c1 c2 hl⟩

theorem gradAt_nat (c1 c2 : Color) {p1 p2 : Nat} (h1 : 0 < p1) (h2 : p2 < 65536) (mirrored : Bool) {d : Nat} (hd : d ≤ 7000000) :
    gradAt c1 c2 p1 p2 mirrored (p2 + d) = some (mixed c1 c2 (cosTab.getD (d * 256 / p1 / 2 % (if mirrored then 256 else 128)) 0)) := by
  rw [gradAt, tabPos_nat h1 h2 mirrored hd, Option.bind_some, (cosTab_get (i := d * 256 / p1 / 2 % (if mirrored then 256 else 128)) (by cases mirrored <;> simp only [Bool.false_eq_true, if_false, if_true] <;> omega)).1]
  rfl

theorem tab_period {p1 : Nat} (h : 0 < p1) (d k : Nat) : (d + k * p1) * 256 / p1 / 2 = d * 256 / p1 / 2 + k * 128 := by
  rw [Nat.add_mul, show k * p1 * 256 = k * 256 * p1 by rw [Nat.mul_right_comm], Nat.add_mul_div_right _ _ h]
  omega

theorem tab_lt {p1 d : Nat} (h : d < p1) : d * 256 / p1 / 2 < 128 := by
  have : d * 256 / p1 < 256 := Nat.div_lt_of_lt_mul (Nat.mul_lt_mul_of_pos_right h (by omega))
  omega

/-- The table of a precalculated gradient. -/
theorem preLoop_spec {c : ColorT} {f : Nat → Color} (n : Nat) : ∀ i, (∀ k, i ≤ k → k < i + n → (ck (k + c.p2)).bind (fun z => fromColor c z z) = some (f k)) → ∃ l, preLoop c n i = some l ∧ l.length = n ∧ ∀ k, k < n → l[k]? = some (f (i + k)) := by
  induction n with
  | zero => exact fun i _ => ⟨[], rfl, rfl, fun k hk => by omega⟩
  | succ n ih =>
    intro i h
    obtain ⟨l, e, hl, hk⟩ := ih (i + 1) fun k h1 h2 => h k (by omega) (by omega)
    have h0 := h i (by omega) (by omega)
    refine ⟨f i :: l, ?_, by simp [hl], fun k hk' => ?_⟩
    · rw [preLoop]
      cases hc : ck (i + c.p2) with
      | none => rw [hc] at h0; cases h0
      | some z =>
        rw [hc, Option.bind_some] at h0
        rw [Option.bind_some, h0, Option.bind_some, e]
        rfl
    · cases k with
      | zero => rfl
      | succ k =>
        rw [List.getElem?_cons_succ, hk k (by omega), Nat.add_assoc, Nat.add_comm 1 k]

end Verif.Img
