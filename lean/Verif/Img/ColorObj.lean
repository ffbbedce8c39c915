import Verif.Img.Color

/-!
# C124: colour objects

`img-color` makes a colour, `img-color-set` and `img-color-get` change and read its properties, `img-color-setpre` and `img-color-getpre` the entries of its table.
-/

namespace Verif.Img

/-- The symbols that name a property, `src/extensions/display_extensions.c:2125-2158`. -/
inductive CProp where
  | color0 | color1 | width | offset | repeatType
  /-- any other symbol -/
  | other (id : Nat)
  deriving DecidableEq

/-- Values of arguments and results. A number is the word that `lbm_dec_as_i32` and `lbm_dec_as_u32` give; they give the same for integers. Simplified: floats, for which they may differ, are not modelled. -/
inductive CVal where
  | num (n : Color)
  | symRepeat
  | symMirrored
  /-- any other value -/
  | other
  deriving DecidableEq

/-- Results. -/
inductive CRes where
  | ok
  | val (v : CVal)
  | terror
  | eerror
  deriving DecidableEq

def ColorT.isGradient (c : ColorT) : Bool := c.type = .gradX ∨ c.type = .gradY
def ColorT.isPre (c : ColorT) : Bool := c.type = .preX ∨ c.type = .preY

/-- The cast to `uint16_t`. -/
def lo16 (n : Color) : Nat := n.toNat % 65536

theorem lo16_lt (n : Color) : lo16 n < 65536 := Nat.mod_lt _ (by decide)

/-- `ext_color_set`, `src/extensions/display_extensions.c:2112-2162`, for a colour and a symbol. -/
def colorSet (c : ColorT) (p : CProp) (v : CVal) : ColorT × CRes :=
  match p with
  | .color0 => match v with
    | .num n => if c.type = .regular ∨ c.isGradient = true then ({ c with c1 := n }, .ok) else (c, .terror)
    | _ => (c, .terror)
  | .color1 => match v with
    | .num n => if c.isGradient = true then ({ c with c2 := n }, .ok) else (c, .terror)
    | _ => (c, .terror)
  | .width => match v with
    | .num n => if c.isGradient = true then ({ c with p1 := lo16 n }, .ok) else (c, .terror)
    | _ => (c, .terror)
  | .offset => match v with
    | .num n => if c.isGradient = true ∨ c.isPre = true then ({ c with p2 := lo16 n }, .ok) else (c, .terror)
    | _ => (c, .terror)
  | .repeatType => match v with
    | .symRepeat => if c.isGradient = true ∨ c.isPre = true then ({ c with mirrored := false }, .ok) else (c, .terror)
    | .symMirrored => if c.isGradient = true ∨ c.isPre = true then ({ c with mirrored := true }, .ok) else (c, .terror)
    | _ => (c, .terror)
  | .other _ => (c, .terror)

/-- `ext_color_get`, `src/extensions/display_extensions.c:2164-2204`. -/
def colorGet (c : ColorT) (p : CProp) : CRes :=
  match p with
  | .color0 => .val (.num c.c1)
  | .color1 => if c.isGradient = true ∨ c.isPre = true then .val (.num c.c2) else .terror
  | .width => if c.isGradient = true ∨ c.isPre = true then .val (.num (.ofNat 32 c.p1)) else .terror
  | .offset => if c.isGradient = true ∨ c.isPre = true then .val (.num (.ofNat 32 c.p2)) else .terror
  | .repeatType => if c.isGradient = true ∨ c.isPre = true then .val (if c.mirrored then .symMirrored else .symRepeat) else .terror
  | .other _ => .terror

/-- `ext_color_setpre`, `src/extensions/display_extensions.c:2206-2224`, with two numbers. `none` would be an access outside of the table. -/
def colorSetPre (c : ColorT) (pos : Color) (v : Color) : Option (ColorT × CRes) :=
  if c.pre.isEmpty ∨ 512 ≤ pos.toNat then some (c, .eerror)
  else if pos.toNat < c.pre.length then some ({ c with pre := c.pre.set pos.toNat v }, .ok) else none

/-- `ext_color_getpre`, `src/extensions/display_extensions.c:2226-2241`. -/
def colorGetPre (c : ColorT) (pos : Color) : Option CRes :=
  if c.pre.isEmpty ∨ 512 ≤ pos.toNat then some .eerror
  else (c.pre[pos.toNat]?).map fun x => .val (.num x)

/-! ## Histories -/

/-- What has happened to a colour since it was made. -/
inductive ColorReach : ColorT → Prop
  | make {t : ColorType} {c1 c2 : Color} {w o : Int} {m : Bool} {junk : List Color} {c : ColorT} (hj : junk.length = 512) (h : makeColor t c1 c2 w o m junk = some c) : ColorReach c
  | set {c : ColorT} (p : CProp) (v : CVal) (h : ColorReach c) : ColorReach (colorSet c p v).1
  | setPre {c c' : ColorT} {r : CRes} (pos v : Color) (h : ColorReach c) (e : colorSetPre c pos v = some (c', r)) : ColorReach c'

/-- The invariant. -/
structure ColorOk (c : ColorT) : Prop where
  w : c.p1 < 65536
  o : c.p2 < 65536
  pre : c.isPre = true → c.pre.length = 512 ∧ c.p1 ≤ 512
  noPre : c.isPre = false → c.pre = []

theorem preLoop_length (c : ColorT) : ∀ (n i : Nat) (l : List Color), preLoop c n i = some l → l.length = n := by
  intro n
  induction n with
  | zero => intro i l h; rw [preLoop] at h; injection h with h; subst h; rfl
  | succ n ih =>
    intro i l h
    rw [preLoop, Option.bind_eq_some_iff] at h
    obtain ⟨_, _, h⟩ := h
    rw [Option.bind_eq_some_iff] at h
    obtain ⟨_, _, h⟩ := h
    rw [Option.map_eq_some_iff] at h
    obtain ⟨l', h', rfl⟩ := h
    rw [List.length_cons, ih (i + 1) l' h']

theorem u16_lt (z : Int) : u16 z < 65536 := by unfold u16; omega

theorem make_ok {t : ColorType} {c1 c2 : Color} {w o : Int} {m : Bool} {junk : List Color} {c : ColorT} (hj : junk.length = 512) (h : makeColor t c1 c2 w o m junk = some c) : ColorOk c := by
  have hw := u16_lt w
  have ho := u16_lt o
  unfold makeColor at h
  cases t with
  | preX | preY =>
    simp only [Option.map_eq_some_iff] at h
    obtain ⟨l, hl, rfl⟩ := h
    have hlen := preLoop_length _ _ _ _ hl
    refine ⟨?_, ho, fun _ => ⟨?_, ?_⟩, fun h => by simp [ColorT.isPre] at h⟩
    · simp only; split <;> omega
    · simp only [List.length_append, List.length_drop, hlen, hj]; split <;> omega
    · simp only; split <;> omega
  | _ =>
    injection h with h
    subst h
    exact ⟨hw, ho, fun h => by simp [ColorT.isPre] at h, fun _ => rfl⟩

theorem set_cases (c : ColorT) (p : CProp) (v : CVal) :
    colorSet c p v = (c, .terror) ∨ (∃ n, p = .color0 ∧ v = .num n ∧ c.isPre = false ∧ colorSet c p v = ({ c with c1 := n }, .ok)) ∨
    (∃ n, p = .color1 ∧ v = .num n ∧ c.isGradient = true ∧ colorSet c p v = ({ c with c2 := n }, .ok)) ∨
    (∃ n, p = .width ∧ v = .num n ∧ c.isGradient = true ∧ colorSet c p v = ({ c with p1 := lo16 n }, .ok)) ∨
    (∃ n, p = .offset ∧ v = .num n ∧ (c.isGradient = true ∨ c.isPre = true) ∧ colorSet c p v = ({ c with p2 := lo16 n }, .ok)) ∨
    (p = .repeatType ∧ v = .symRepeat ∧ (c.isGradient = true ∨ c.isPre = true) ∧ colorSet c p v = ({ c with mirrored := false }, .ok)) ∨
    (p = .repeatType ∧ v = .symMirrored ∧ (c.isGradient = true ∨ c.isPre = true) ∧ colorSet c p v = ({ c with mirrored := true }, .ok)) := by
  have ite2 : ∀ {q : Prop} [Decidable q] (a b : ColorT × CRes), (if q then a else b) = b ∨ q ∧ (if q then a else b) = a := by
    intro q _ a b
    by_cases h : q
    · exact .inr ⟨h, if_pos h⟩
    · exact .inl (if_neg h)
  cases p with
  | color0 =>
    cases v with
    | num n =>
      refine (ite2 _ _).imp id fun h => .inl ⟨n, rfl, rfl, ?_, h.2⟩
      rcases h.1 with h | h
      · simp [ColorT.isPre, h]
      · simp only [ColorT.isGradient, decide_eq_true_eq] at h
        rcases h with h | h <;> simp [ColorT.isPre, h]
    | _ => exact .inl rfl
  | color1 =>
    cases v with
    | num n => exact (ite2 _ _).imp id fun h => .inr (.inl ⟨n, rfl, rfl, h.1, h.2⟩)
    | _ => exact .inl rfl
  | width =>
    cases v with
    | num n => exact (ite2 _ _).imp id fun h => .inr (.inr (.inl ⟨n, rfl, rfl, h.1, h.2⟩))
    | _ => exact .inl rfl
  | offset =>
    cases v with
    | num n => exact (ite2 _ _).imp id fun h => .inr (.inr (.inr (.inl ⟨n, rfl, rfl, h.1, h.2⟩)))
    | _ => exact .inl rfl
  | repeatType =>
    cases v with
    | symRepeat => exact (ite2 _ _).imp id fun h => .inr (.inr (.inr (.inr (.inl ⟨rfl, rfl, h.1, h.2⟩))))
    | symMirrored => exact (ite2 _ _).imp id fun h => .inr (.inr (.inr (.inr (.inr ⟨rfl, rfl, h.1, h.2⟩))))
    | _ => exact .inl rfl
  | other => exact .inl rfl

theorem set_ok {c : ColorT} (h : ColorOk c) (p : CProp) (v : CVal) : ColorOk (colorSet c p v).1 := by
  obtain ⟨h1, h2, h3, h4⟩ := h
  rcases set_cases c p v with e | ⟨n, _, _, _, e⟩ | ⟨n, _, _, _, e⟩ | ⟨n, _, _, hg, e⟩ | ⟨n, _, _, _, e⟩ | ⟨_, _, _, e⟩ | ⟨_, _, _, e⟩ <;> rw [e]
  · exact ⟨h1, h2, h3, h4⟩
  · exact ⟨h1, h2, h3, h4⟩
  · exact ⟨h1, h2, h3, h4⟩
  · refine ⟨lo16_lt _, h2, fun hp => ?_, h4⟩
    have hp : c.isPre = true := hp
    simp only [ColorT.isGradient, ColorT.isPre, decide_eq_true_eq] at hg hp
    rcases hg with hg | hg <;> rw [hg] at hp <;> simp at hp
  · exact ⟨h1, lo16_lt _, h3, h4⟩
  · exact ⟨h1, h2, h3, h4⟩
  · exact ⟨h1, h2, h3, h4⟩

theorem setPre_ok {c c' : ColorT} {r : CRes} {pos v : Color} (h : ColorOk c) (e : colorSetPre c pos v = some (c', r)) : ColorOk c' := by
  obtain ⟨h1, h2, h3, h4⟩ := h
  unfold colorSetPre at e
  split at e
  · cases e; exact ⟨h1, h2, h3, h4⟩
  · split at e
    · cases e
      refine ⟨h1, h2, fun hp => ?_, fun hp => ?_⟩
      · simp only [List.length_set]; exact h3 hp
      · have := h4 hp; simp [this]
    · cases e

theorem reach_ok {c : ColorT} (h : ColorReach c) : ColorOk c := by
  induction h with
  | make hj h => exact make_ok hj h
  | set p v _ ih => exact set_ok ih p v
  | setPre pos v _ e ih => exact setPre_ok ih e

/-! ## The theorems -/

/-- What a property that has been set to `v` reads as: width and offset have 16 bits. -/
def stored : CProp → CVal → CVal
  | .width, .num n => .num (.ofNat 32 (lo16 n))
  | .offset, .num n => .num (.ofNat 32 (lo16 n))
  | _, v => v

/-- C124: what has been set is read back (16 bits of width and offset), and all other properties, the table and the kind of the colour stay. If setting fails, nothing changes. -/
theorem C124_get_set (c : ColorT) (p : CProp) (v : CVal) :
    ((colorSet c p v).2 = .ok → colorGet (colorSet c p v).1 p = .val (stored p v) ∧ (∀ q, q ≠ p → colorGet (colorSet c p v).1 q = colorGet c q) ∧
      (colorSet c p v).1.pre = c.pre ∧ (colorSet c p v).1.type = c.type) ∧
    ((colorSet c p v).2 ≠ .ok → (colorSet c p v).2 = .terror ∧ (colorSet c p v).1 = c) := by
  rcases set_cases c p v with e | ⟨n, rfl, rfl, hg, e⟩ | ⟨n, rfl, rfl, hg, e⟩ | ⟨n, rfl, rfl, hg, e⟩ | ⟨n, rfl, rfl, hg, e⟩ | ⟨rfl, rfl, hg, e⟩ | ⟨rfl, rfl, hg, e⟩ <;> rw [e]
  · exact ⟨fun h => (by cases h), fun _ => ⟨rfl, rfl⟩⟩
  · exact ⟨fun _ => ⟨rfl, fun q hq => (by cases q <;> first | rfl | exact absurd rfl hq), rfl, rfl⟩, fun h => absurd rfl h⟩
  · exact ⟨fun _ => ⟨if_pos (.inl hg), fun q hq => (by cases q <;> first | rfl | exact absurd rfl hq), rfl, rfl⟩, fun h => absurd rfl h⟩
  · exact ⟨fun _ => ⟨if_pos (.inl hg), fun q hq => (by cases q <;> first | rfl | exact absurd rfl hq), rfl, rfl⟩, fun h => absurd rfl h⟩
  · exact ⟨fun _ => ⟨if_pos hg, fun q hq => (by cases q <;> first | rfl | exact absurd rfl hq), rfl, rfl⟩, fun h => absurd rfl h⟩
  · exact ⟨fun _ => ⟨if_pos hg, fun q hq => (by cases q <;> first | rfl | exact absurd rfl hq), rfl, rfl⟩, fun h => absurd rfl h⟩
  · exact ⟨fun _ => ⟨if_pos hg, fun q hq => (by cases q <;> first | rfl | exact absurd rfl hq), rfl, rfl⟩, fun h => absurd rfl h⟩

/-- C124: which properties can be set, with which values. -/
theorem C124_settable (c : ColorT) (p : CProp) (v : CVal) :
    (colorSet c p v).2 = .ok ↔
      (∃ n, v = .num n ∧ ((p = .color0 ∧ c.isPre = false) ∨ (p = .color1 ∧ c.isGradient = true) ∨ (p = .width ∧ c.isGradient = true) ∨ (p = .offset ∧ c.type ≠ .regular))) ∨
      ((v = .symRepeat ∨ v = .symMirrored) ∧ p = .repeatType ∧ c.type ≠ .regular) := by
  have hk : (c.type ≠ .regular ↔ (c.isGradient = true ∨ c.isPre = true)) ∧ (c.isPre = false ↔ (c.type = .regular ∨ c.isGradient = true)) := by
    cases h : c.type <;> simp [ColorT.isGradient, ColorT.isPre, h]
  have ite2 : ∀ {q : Prop} [Decidable q] (a : ColorT), (if q then (a, CRes.ok) else (c, .terror)).2 = .ok ↔ q := by
    intro q _ a
    by_cases h : q
    · rw [if_pos h]; exact ⟨fun _ => h, fun _ => rfl⟩
    · rw [if_neg h]; exact ⟨fun e => (by cases e), fun e => absurd e h⟩
  rw [hk.1, hk.2]
  cases p with
  | color0 | color1 | width | offset =>
    cases v with
    | num n => exact (ite2 _).trans (by simp)
    | _ => exact ⟨fun h => (by cases h), fun h => (by simp at h)⟩
  | repeatType =>
    cases v with
    | symRepeat | symMirrored => exact (ite2 _).trans (by simp)
    | _ => exact ⟨fun h => (by cases h), fun h => (by simp at h)⟩
  | other => exact ⟨fun h => (by cases h), fun h => (by simp at h)⟩

/-- C124: a new colour has the properties it was made with (16 bits of width and offset; the width of a precalculated gradient is at most 512). -/
theorem C124_make {t : ColorType} {c1 c2 : Color} {w o : Int} {m : Bool} {junk : List Color} {c : ColorT} (h : makeColor t c1 c2 w o m junk = some c) :
    colorGet c .color0 = .val (.num c1) ∧ (t ≠ .regular → colorGet c .color1 = .val (.num c2) ∧
      colorGet c .width = .val (.num (.ofNat 32 (if t = .preX ∨ t = .preY then min (w % 65536).toNat 512 else (w % 65536).toNat))) ∧
      colorGet c .offset = .val (.num (.ofNat 32 (o % 65536).toNat)) ∧ colorGet c .repeatType = .val (if m then .symMirrored else .symRepeat)) ∧
    (t = .regular → ∀ p, p ≠ .color0 → colorGet c p = .terror) := by
  unfold makeColor at h
  cases t with
  | preX | preY =>
    simp only [Option.map_eq_some_iff] at h
    obtain ⟨l, hl, rfl⟩ := h
    refine ⟨rfl, fun _ => ⟨rfl, ?_, rfl, rfl⟩, fun h => by cases h⟩
    simp only [colorGet, ColorT.isGradient, ColorT.isPre]
    have : (if u16 w > 512 then 512 else u16 w) = min (w % 65536).toNat 512 := by unfold u16; split <;> omega
    simp [this]
  | regular =>
    injection h with h
    subst h
    refine ⟨rfl, fun h => absurd rfl h, fun _ p hp => ?_⟩
    cases p <;> first | rfl | exact absurd rfl hp
  | _ =>
    injection h with h
    subst h
    exact ⟨rfl, fun _ => ⟨rfl, rfl, rfl, rfl⟩, fun h => by cases h⟩

/-- C124: the accesses to the table stay inside of it, whatever happened before; exactly colours with a table have the positions 0 to 511. What has been set is read back, other entries and all properties stay. -/
theorem C124_table {c : ColorT} (h : ColorReach c) (pos v : Color) :
    (c.isPre = true → pos.toNat < 512 → ∃ c', colorSetPre c pos v = some (c', .ok) ∧ colorGetPre c' pos = some (.val (.num v)) ∧
      (∀ q, q ≠ pos → colorGetPre c' q = colorGetPre c q) ∧ ∀ p, colorGet c' p = colorGet c p) ∧
    (c.isPre = false ∨ 512 ≤ pos.toNat → colorSetPre c pos v = some (c, .eerror) ∧ colorGetPre c pos = some .eerror) ∧ colorGetPre c pos ≠ none := by
  obtain ⟨h1, h2, h3, h4⟩ := reach_ok h
  refine ⟨fun hp hlt => ?_, fun hor => ?_, ?_⟩
  · obtain ⟨hl, _⟩ := h3 hp
    have hne : c.pre.isEmpty = false := by cases hc : c.pre with | nil => rw [hc] at hl; simp at hl | cons => rfl
    have hne' : (c.pre.set pos.toNat v).isEmpty = false := by
      have : (c.pre.set pos.toNat v).length = 512 := by rw [List.length_set, hl]
      cases hc : c.pre.set pos.toNat v with
      | nil => rw [hc] at this; simp at this
      | cons => rfl
    refine ⟨{ c with pre := c.pre.set pos.toNat v }, ?_, ?_, fun q hq => ?_, fun p => by cases p <;> rfl⟩
    · simp only [colorSetPre, hne, hl]
      rw [if_neg (by simp; omega), if_pos hlt]
    · simp only [colorGetPre, hne']
      rw [if_neg (by simp; omega), List.getElem?_set_self (by omega)]
      rfl
    · simp only [colorGetPre, hne', hne]
      have : pos.toNat ≠ q.toNat := fun e => hq (BitVec.eq_of_toNat_eq e.symm)
      rw [List.getElem?_set_ne this]
  · have : c.pre.isEmpty = true ∨ 512 ≤ pos.toNat := hor.imp (fun h => by rw [h4 h]; rfl) id
    exact ⟨if_pos this, if_pos this⟩
  · unfold colorGetPre
    split
    · simp
    · rename_i hn
      simp only [not_or, Bool.not_eq_true] at hn
      have hp : c.isPre = true := by
        cases hc : c.isPre with
        | true => rfl
        | false => rw [h4 hc] at hn; simp at hn
      have hl := (h3 hp).1
      rw [List.getElem?_eq_getElem (by omega)]
      simp

theorem tmod_range2 (d : Int) {m : Int} (hm : 0 < m) : 0 ≤ (if d.tmod m < 0 then d.tmod m + m else d.tmod m) ∧ (if d.tmod m < 0 then d.tmod m + m else d.tmod m) < m := by
  have h1 := Int.tmod_lt_of_pos d hm
  have h2 : -m < d.tmod m := by
    have := Int.tmod_lt_of_pos (-d) hm
    rw [Int.neg_tmod] at this
    omega
  split <;> omega

/-- C124: whatever has been done to a colour, as long as its width is not 0 it can be used for drawing at all positions of images and screens (with up to 16 bits, and with the offset up to 6000000). Only
for widths that are not 0: see `C124_width_violated`. -/
theorem C124_draw_partial {c : ColorT} (h : ColorReach c) (hw : c.p1 ≠ 0 ∨ c.type = .regular) {x y : Int} (hx : 0 ≤ x ∧ x ≤ 6000000) (hy : 0 ≤ y ∧ y ≤ 6000000) : ∃ v, toRgb c x y = some v := by
  obtain ⟨h1, h2, h3, h4⟩ := reach_ok h
  by_cases hr : c.type = .regular
  · exact ⟨c.c1, if_pos hr⟩
  have hw0 : c.p1 ≠ 0 := hw.resolve_right hr
  have hpos : ∀ z : Int, 0 ≤ z ∧ z ≤ 6000000 → ∃ i, tabPos c.p1 c.p2 c.mirrored z = some i ∧ i < 256 := by
    intro z hz
    unfold tabPos
    rw [ck_ok0 (by omega)]
    simp only [Option.bind_some]
    rw [ck_ok0 (by omega)]
    simp only [Option.bind_some, if_neg hw0]
    refine ⟨_, rfl, ?_⟩
    have hl : (0 : Int) < (if c.mirrored then 256 else 128) := by split <;> omega
    have := tmod_range2 (((z - c.p2) * 256).tdiv c.p1 |>.tdiv 2) hl
    have hl2 : (if c.mirrored then (256 : Int) else 128) ≤ 256 := by split <;> omega
    omega
  have htab : ∀ i, i < 256 → ∃ t, cosTab[i]? = some t := fun i hi => ⟨_, List.getElem?_eq_getElem (by rw [cosTab_length]; exact hi)⟩
  cases ht : c.type with
  | regular => exact absurd ht hr
  | gradX =>
    have hp : c.pre = [] := h4 (by simp [ColorT.isPre, ht])
    obtain ⟨i, e, hi⟩ := hpos x hx
    obtain ⟨t, et⟩ := htab i hi
    exact ⟨mixed c.c1 c.c2 t, by simp [toRgb, ht, hp, fromColor, e, et]⟩
  | gradY =>
    have hp : c.pre = [] := h4 (by simp [ColorT.isPre, ht])
    obtain ⟨i, e, hi⟩ := hpos y hy
    obtain ⟨t, et⟩ := htab i hi
    exact ⟨mixed c.c1 c.c2 t, by simp [toRgb, ht, hp, fromColor, e, et]⟩
  | preX | preY =>
    obtain ⟨hl, hle⟩ := h3 (by simp [ColorT.isPre, ht])
    have hne : c.pre.isEmpty = false := by cases hc : c.pre with | nil => rw [hc] at hl; simp at hl | cons => rfl
    have hget : ∀ i : Nat, i < 512 → ∃ v, c.pre[i]? = some v := fun i hi => ⟨_, List.getElem?_eq_getElem (by omega)⟩
    have hgo : ∀ z : Int, 0 ≤ z ∧ z ≤ 6000000 → ∃ v, ((ck (z - c.p2)).bind fun d =>
        if c.mirrored then
          let i := d.tmod (c.p1 * 2)
          let i := if i < 0 then i + c.p1 * 2 else i
          let i := if i ≥ c.p1 then c.p1 * 2 - i - 1 else i
          c.pre[i.toNat]?
        else
          let i := d.tmod c.p1
          let i := if i < 0 then i + c.p1 else i
          c.pre[i.toNat]?) = some v := by
      intro z hz
      rw [ck_ok0 (by omega)]
      simp only [Option.bind_some]
      split
      · refine hget _ ?_
        have := tmod_range2 (z - c.p2) (m := c.p1 * 2) (by omega)
        split <;> omega
      · refine hget _ ?_
        have := tmod_range2 (z - c.p2) (m := c.p1) (by omega)
        omega
    first
      | (obtain ⟨v, e⟩ := hgo x hx
         exact ⟨v, by simp only [toRgb, ht, hne]; simp only [applyPre, ht, if_neg hw0]; exact e⟩)
      | (obtain ⟨v, e⟩ := hgo y hy
         exact ⟨v, by simp only [toRgb, ht, hne]; simp only [applyPre, ht, if_neg hw0]; exact e⟩)

/-- C124: an entry of the table of a gradient in x direction that has been set is the colour of its column. -/
theorem C124_shown {c : ColorT} (h : ColorReach c) (ht : c.type = .preX) {pos v : Color} (hp : pos.toNat < c.p1) {c' : ColorT} (e : colorSetPre c pos v = some (c', .ok)) (y : Int) :
    toRgb c' (c.p2 + pos.toNat) y = some v := by
  obtain ⟨h1, h2, h3, h4⟩ := reach_ok h
  obtain ⟨hl, hle⟩ := h3 (by simp [ColorT.isPre, ht])
  unfold colorSetPre at e
  split at e
  · cases e
  · rw [if_pos (by omega)] at e
    cases e
    have hne : (c.pre.set pos.toNat v).isEmpty = false := by
      have : (c.pre.set pos.toNat v).length = 512 := by rw [List.length_set, hl]
      cases hc : c.pre.set pos.toNat v with
      | nil => rw [hc] at this; simp at this
      | cons => rfl
    simp only [toRgb, ht, hne, applyPre]
    rw [if_neg (by decide), if_neg (by decide), if_neg (by omega), ck_ok0 (by omega)]
    simp only [Option.bind_some]
    have ed : (c.p2 + pos.toNat : Int) - c.p2 = pos.toNat := by omega
    rw [ed]
    have hm : ∀ m : Int, (pos.toNat : Int) < m → Int.tmod pos.toNat m = pos.toNat := fun m hm => Int.tmod_eq_of_lt (by omega) hm
    split
    · rw [hm _ (by omega), if_neg (by omega), if_neg (by omega), Int.toNat_natCast, List.getElem?_set_self (by omega)]
    · rw [hm _ (by omega), if_neg (by omega), Int.toNat_natCast, List.getElem?_set_self (by omega)]

/-! ## Where it fails -/

/-- The width of a gradient can be set to 0, also by a multiple of 65536: drawing with the colour then divides by zero. -/
theorem C124_width_violated : ∃ c, ColorReach c ∧ (colorSet c .width (.num 65536)).2 = .ok ∧ toRgb (colorSet c .width (.num 65536)).1 3 4 = none :=
  ⟨⟨.gradX, 1, 2, 10, 0, false, []⟩, .make (t := .gradX) (c1 := 1) (c2 := 2) (w := 10) (o := 0) (m := false) (junk := List.replicate 512 0) List.length_replicate rfl, rfl, rfl⟩

/-- The entries of a table behind the width of the gradient are not set when it is made: reading them gives what was in the memory before. -/
theorem C124_table_junk_violated (x : Color) : ∃ junk c, junk.length = 512 ∧ makeColor .preX 1 2 4 0 false junk = some c ∧ colorGetPre c 100 = some (.val (.num x)) := by
  have : ∃ l, preLoop ⟨.gradX, 1, 2, 4, 0, false, []⟩ 4 0 = some l := ⟨_, rfl⟩
  obtain ⟨l, hl⟩ := this
  have hlen := preLoop_length _ _ _ _ hl
  have hmk : makeColor .preX 1 2 4 0 false (List.replicate 512 x) = (preLoop ⟨.gradX, 1, 2, 4, 0, false, []⟩ 4 0).map fun l => ⟨.preX, 1, 2, 4, 0, false, l ++ (List.replicate 512 x).drop 4⟩ := rfl
  refine ⟨List.replicate 512 x, ⟨.preX, 1, 2, 4, 0, false, l ++ (List.replicate 512 x).drop 4⟩, List.length_replicate, ?_, ?_⟩
  · rw [hmk, hl]
    rfl
  · have hne : (l ++ (List.replicate 512 x).drop 4).isEmpty = false := by
      cases l with
      | nil => cases hlen
      | cons => rfl
    unfold colorGetPre
    rw [hne, if_neg (by decide)]
    show ((l ++ (List.replicate 512 x).drop 4)[100]?).map _ = _
    rw [List.getElem?_append_right (by rw [hlen]; decide), hlen, List.drop_replicate, List.getElem?_replicate, if_pos (by decide)]
    rfl

/-! ## Examples -/

/-- A colour of a history, with a table. -/
example : ∃ c, ColorReach c ∧ c.isPre = true ∧ c.p1 = 4 := by
  obtain ⟨junk, c, hj, h, _⟩ := C124_table_junk_violated 0
  refine ⟨c, .make hj h, ?_, ?_⟩
  all_goals
    unfold makeColor at h
    simp only [Option.map_eq_some_iff] at h
    obtain ⟨l, _, rfl⟩ := h
    rfl

example : (colorSet ⟨.gradX, 1, 2, 10, 0, false, []⟩ .offset (.num 65537)).2 = .ok ∧ colorGet (colorSet ⟨.gradX, 1, 2, 10, 0, false, []⟩ .offset (.num 65537)).1 .offset = .val (.num 1) := ⟨rfl, rfl⟩

end Verif.Img
