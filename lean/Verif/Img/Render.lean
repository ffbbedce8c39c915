import Verif.Img.ColorObj

/-!
# C135: `disp-render`

What the display driver is given: the image, the place and sixteen colours.
-/

namespace Verif.Img

/-- What `disp-render` looks at in a value: a number, a colour (a custom value), a pair or another value; nil is `list` without being a pair. Simplified: numbers are the word that `lbm_dec_as_u32` gives. -/
inductive RVal where
  | num (n : Color)
  | color (c : ColorT)
  | pair (i : Nat)
  | nil
  | image (img : Nat)
  | other

/-- The heap: first and second part of each pair. Lists may be circular. -/
structure RHeap where
  car : Nat → RVal
  cdr : Nat → RVal

/-- The colour of a zeroed `color_t` whose `color1` is set, `src/extensions/display_extensions.c:2744-2753`. -/
def plain (n : Color) : ColorT := ⟨.regular, n, 0, 0, 0, false, []⟩

/-- The loop over the list, `src/extensions/display_extensions.c:2748-2763`; `n` is the number of colours that are left. `none` is a type error. -/
def renderColors (h : RHeap) : Nat → RVal → Option (List ColorT)
  | 0, _ => some []
  | n + 1, .pair i =>
    match h.car i with
    | .num c => (renderColors h n (h.cdr i)).map (plain c :: ·)
    | .color c => (renderColors h n (h.cdr i)).map (c :: ·)
    | _ => none
  | n + 1, _ => some (List.replicate (n + 1) (plain 0))

/-- A call of the driver. -/
structure DriverCall where
  img : Nat
  x : Nat
  y : Nat
  colors : List ColorT

/-- `ext_disp_render`, `src/extensions/display_extensions.c:2722-2776`. `driver` is what `disp_render_image` answers; `none` if there is no driver. The call that is made, if one is made, and the result. -/
def dispRender (h : RHeap) (driver : Option (DriverCall → Bool)) (args : List RVal) : Option DriverCall × CRes :=
  match driver with
  | none => (none, .eerror)
  | some d =>
    match args with
    | [.image img, .num x, .num y] =>
      let c : DriverCall := ⟨img, lo16 x, lo16 y, List.replicate 16 (plain 0)⟩
      (some c, if d c then .ok else .eerror)
    | [.image img, .num x, .num y, l] =>
      match renderColors h 16 l with
      | some cs =>
        let c : DriverCall := ⟨img, lo16 x, lo16 y, cs⟩
        (some c, if d c then .ok else .eerror)
      | none => (none, .terror)
    | _ => (none, .terror)

/-! ## Specification -/

/-- The element of a list behind `i` others. -/
def RHeap.elem (h : RHeap) : RVal → Nat → Option RVal
  | .pair p, 0 => some (h.car p)
  | .pair p, i + 1 => h.elem (h.cdr p) i
  | _, _ => none

/-- The colour that a value stands for. -/
def asColor : RVal → Option ColorT
  | .num n => some (plain n)
  | .color c => some c
  | _ => none

/-- The colour number `i` of a list: black behind its end. -/
def RHeap.colorAt (h : RHeap) (l : RVal) (i : Nat) : Option ColorT :=
  match h.elem l i with
  | some v => asColor v
  | none => some (plain 0)

/-! ## Proofs -/

theorem renderColors_spec (h : RHeap) : ∀ (n : Nat) (l : RVal),
    (∃ cs, renderColors h n l = some cs ∧ cs.length = n ∧ ∀ i, i < n → h.colorAt l i = cs[i]?) ∨
    (renderColors h n l = none ∧ ∃ i, i < n ∧ h.colorAt l i = none)
  | 0, l => Or.inl ⟨[], by cases l <;> rfl, rfl, fun i hi => absurd hi (Nat.not_lt_zero _)⟩
  | n + 1, .pair p => by
    have key : ∀ c, asColor (h.car p) = some c → renderColors h (n + 1) (.pair p) = (renderColors h n (h.cdr p)).map (c :: ·) := by
      intro c hc
      rw [renderColors]
      cases e : h.car p <;> rw [e] at hc <;> simp only [asColor, Option.some.injEq, reduceCtorEq] at hc <;> subst hc <;> rfl
    cases hc : asColor (h.car p) with
    | none =>
      refine Or.inr ⟨?_, 0, Nat.succ_pos _, by simpa only [RHeap.colorAt, RHeap.elem] using hc⟩
      rw [renderColors]
      cases e : h.car p <;> rw [e] at hc <;> simp only [asColor, reduceCtorEq] at hc <;> rfl
    | some c =>
      rw [key c hc]
      rcases renderColors_spec h n (h.cdr p) with ⟨cs, e, hl, hi⟩ | ⟨e, i, hi, hn⟩
      · refine Or.inl ⟨c :: cs, by rw [e]; rfl, by rw [List.length_cons, hl], fun i hlt => ?_⟩
        cases i with
        | zero => simpa only [RHeap.colorAt, RHeap.elem, List.getElem?_cons_zero] using hc
        | succ i => exact hi i (by omega)
      · exact Or.inr ⟨by rw [e]; rfl, i + 1, by omega, hn⟩
  | n + 1, .num _ | n + 1, .color _ | n + 1, .nil | n + 1, .image _ | n + 1, .other =>
    Or.inl ⟨List.replicate (n + 1) (plain 0), rfl, List.length_replicate, fun i hi => by
      rw [List.getElem?_replicate, if_pos hi]; cases i <;> rfl⟩

/-- C135: the driver is called exactly if there is one, the arguments are an image, two numbers and maybe a value, and the first sixteen elements of a list are numbers or colours; it is then given the image, the place modulo 65536 and sixteen colours, those of the list and black
for the rest. The result is true if the driver says so. Lists of any length, also circular ones. -/
theorem C135_render (h : RHeap) (d : DriverCall → Bool) (img : Nat) (x y : Color) (l : RVal) :
    (∃ cs, cs.length = 16 ∧ (∀ i, i < 16 → h.colorAt l i = cs[i]?) ∧ dispRender h (some d) [.image img, .num x, .num y, l] =
        (some ⟨img, x.toNat % 65536, y.toNat % 65536, cs⟩, if d ⟨img, x.toNat % 65536, y.toNat % 65536, cs⟩ then .ok else .eerror)) ∨
    (∃ i, i < 16 ∧ h.colorAt l i = none) ∧ dispRender h (some d) [.image img, .num x, .num y, l] = (none, .terror) := by
  rcases renderColors_spec h 16 l with ⟨cs, e, hl, hi⟩ | ⟨e, hn⟩
  · exact Or.inl ⟨cs, hl, hi, by simp only [dispRender, e]; rfl⟩
  · exact Or.inr ⟨hn, by simp only [dispRender, e]⟩

/-- C135: without colours all sixteen are black. -/
theorem C135_render_no_colors (h : RHeap) (d : DriverCall → Bool) (img : Nat) (x y : Color) :
    dispRender h (some d) [.image img, .num x, .num y] = dispRender h (some d) [.image img, .num x, .num y, .nil] := rfl

/-- C135: with other arguments, or without a driver, nothing is called. -/
theorem C135_render_refused (h : RHeap) (driver : Option (DriverCall → Bool)) (args : List RVal) (hn : driver = none ∨ ¬ ∃ img x y rest, args = .image img :: .num x :: .num y :: rest ∧ rest.length ≤ 1) :
    (dispRender h driver args).1 = none ∧ ((dispRender h driver args).2 = .eerror ∨ (dispRender h driver args).2 = .terror) := by
  cases driver with
  | none => exact ⟨rfl, Or.inl rfl⟩
  | some d =>
    have hn := hn.resolve_left (by simp)
    unfold dispRender
    simp only
    split
    · exact absurd ⟨_, _, _, [], rfl, by simp⟩ hn
    · exact absurd ⟨_, _, _, [_], rfl, by simp⟩ hn
    · exact ⟨rfl, Or.inr rfl⟩

/-- The place is not checked but cut to 16 bits: an image at -1 is given to the driver with 65535, one at 65536 with 0. -/
theorem C135_place_violated (h : RHeap) (d : DriverCall → Bool) : (dispRender h (some d) [.image 0, .num (-1), .num 65536]).1 = some ⟨0, 65535, 0, List.replicate 16 (plain 0)⟩ := rfl

/-- A circular list of one colour gives sixteen times that colour. -/
example : renderColors ⟨fun _ => .num 5, fun _ => .pair 0⟩ 16 (.pair 0) = some (List.replicate 16 (plain 5)) := rfl
/-- An element that is no colour is refused among the first sixteen. -/
example : renderColors ⟨fun _ => .nil, fun _ => .pair 0⟩ 16 (.pair 0) = none := rfl

end Verif.Img
