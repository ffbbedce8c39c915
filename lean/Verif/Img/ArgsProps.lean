import Verif.Img.ArgsSpec
import Verif.Img.Spec

/-! # C114: the arguments of the drawing functions -/

namespace Verif.Img.Args

theorem upd_same (r : Res) (k : Kind) (a : At) : (r.upd k a).attr k = a := if_pos rfl
theorem upd_other (r : Res) {k k' : Kind} (a : At) (h : k' ≠ k) : (r.upd k a).attr k' = r.attr k' := if_neg h

/-- The result has the shape of `img_args_t`. -/
def Res.Shape (r : Res) : Prop := r.args.length = 8 ∧ ∀ k, (r.attr k).args.length = 3

theorem Res.Shape.upd {r : Res} (h : r.Shape) {k : Kind} {a : At} (ha : a.args.length = 3) : (r.upd k a).Shape := by
  refine ⟨h.1, fun k' => ?_⟩
  by_cases e : k' = k
  · subst e; rw [upd_same]; exact ha
  · rw [upd_other _ _ e]; exact h.2 k'

/-- What an attribute leaves alone. -/
structure Same (r r' : Res) (k : Kind) : Prop where
  valid : r'.valid = r.valid
  img : r'.img = r.img
  args : r'.args = r.args
  attr : ∀ k', k' ≠ k → r'.attr k' = r.attr k'

theorem Same.refl (r : Res) (k : Kind) : Same r r k := ⟨rfl, rfl, rfl, fun _ _ => rfl⟩
theorem Same.trans {a b c : Res} {k : Kind} (h : Same a b k) (g : Same b c k) : Same a c k :=
  ⟨g.valid.trans h.valid, g.img.trans h.img, g.args.trans h.args, fun k' e => (g.attr k' e).trans (h.attr k' e)⟩
theorem Same.upd (r : Res) (k : Kind) (a : At) : Same r (r.upd k a) k := ⟨rfl, rfl, rfl, fun _ e => upd_other r a e⟩

theorem set_take (l : List Nat) (n v : Nat) (h : n < l.length) : (l.set n v).take (n + 1) = l.take n ++ [v] := by
  rw [List.take_set, List.take_succ_eq_append_getElem h, List.set_append, if_neg (by rw [List.length_take]; omega), List.length_take, Nat.min_eq_left (by omega), Nat.sub_self]
  rfl

/-- The numbers of an attribute. -/
theorem attrLoop_nums {k : Kind} : ∀ (vs : List Nat) (ind : Nat) (r : Res), 1 ≤ ind → ind - 1 + vs.length ≤ 3 → r.Shape →
    ∃ r', attrLoop (vs.map .num) ind (some k) r = .go (r', ind + vs.length, some k) ∧ r'.Shape ∧ Same r r' k ∧ (r'.attr k).n = (r.attr k).n ∧ (r'.attr k).valid = (r.attr k).valid ∧
      (r'.attr k).args.take (ind - 1 + vs.length) = (r.attr k).args.take (ind - 1) ++ vs
  | [], ind, r, _, _, hs => ⟨r, rfl, hs, .refl r k, rfl, rfl, by simp⟩
  | v :: vs, ind, r, h1, h2, hs => by
    rw [List.length_cons] at h2
    have hlen : ind - 1 < (r.attr k).args.length := by rw [hs.2]; omega
    have hs' : (r.upd k { r.attr k with args := (r.attr k).args.set (ind - 1) v }).Shape := hs.upd (by simp only [List.length_set]; exact hs.2 k)
    obtain ⟨r', e, s, sm, hn, hv, ht⟩ := attrLoop_nums vs (ind + 1) _ (by omega) (by omega) hs'
    refine ⟨r', ?_, s, (Same.upd r k _).trans sm, by rw [hn, upd_same], by rw [hv, upd_same], ?_⟩
    · rw [List.map_cons, attrLoop, attrStep, if_neg (by omega)]
      simp only
      rw [if_pos hlen]
      simp only
      rw [if_neg (by omega), e, List.length_cons]
      congr 3; omega
    · rw [upd_same, show ind + 1 - 1 = ind - 1 + 1 by omega] at ht
      rw [List.length_cons, show ind - 1 + (vs.length + 1) = ind - 1 + 1 + vs.length by omega, ht, set_take _ _ _ hlen]
      simp

/-- Something that is no number ends the decoding. -/
theorem attrLoop_bad {k : Kind} : ∀ (t : List Item) (ind : Nat) (r : Res), 1 ≤ ind → ind - 1 + t.length ≤ 3 → r.Shape → (∀ vs : List Nat, t ≠ vs.map .num) →
    ∃ r', attrLoop t ind (some k) r = .stop r' ∧ r'.valid = r.valid
  | [], _, _, _, _, _, hb => absurd rfl (hb [])
  | a :: t, ind, r, h1, h2, hs, hb => by
    rw [List.length_cons] at h2
    cases a with
    | num v =>
      have hlen : ind - 1 < (r.attr k).args.length := by rw [hs.2]; omega
      have hs' : (r.upd k { r.attr k with args := (r.attr k).args.set (ind - 1) v }).Shape := hs.upd (by simp only [List.length_set]; exact hs.2 k)
      obtain ⟨r', e, h⟩ := attrLoop_bad t (ind + 1) _ (by omega) (by omega) hs' (fun vs hvs => hb (v :: vs) (by rw [hvs]; rfl))
      refine ⟨r', ?_, h⟩
      rw [attrLoop, attrStep, if_neg (by omega)]
      simp only
      rw [if_pos hlen]
      simp only
      rw [if_neg (by omega), e]
    | key k' => exact ⟨r, by rw [attrLoop, attrStep, if_neg (by omega)], rfl⟩
    | other => exact ⟨r, by simp only [attrLoop, attrStep, if_neg (show ¬ ind = 0 by omega)], rfl⟩

theorem wants_arity (k : Kind) : wants k = k.arity := by cases k <;> rfl

theorem arity_le (k : Kind) : k.arity ≤ 3 := by cases k <;> decide

/-- An attribute is decoded. -/
theorem attrRun_good {k : Kind} {vs : List Nat} (h : GoodAttr k vs) {r : Res} (hs : r.Shape) :
    ∃ r', attrRun (.key k) (vs.map .num) r = .go r' ∧ r'.Shape ∧ Same r r' k ∧ (r'.attr k).valid = true ∧ (r'.attr k).args.take vs.length = vs := by
  have hlen : vs.length ≤ 3 := by
    rcases h with h | h
    · rw [h, wants_arity]; exact arity_le k
    · rw [h.2]; decide
  have hs0 : (r.upd k { r.attr k with n := k.arity }).Shape := hs.upd (hs.2 k)
  obtain ⟨r1, e, s1, sm, hn, -, ht⟩ := attrLoop_nums (k := k) vs 1 _ (by omega) (by omega) hs0
  rw [upd_same] at hn
  have e' : attrLoop (.key k :: vs.map .num) 0 none r = .go (r1, 1 + vs.length, some k) := by
    rw [attrLoop, attrStep, if_pos rfl]
    simp only
    rw [if_neg (by omega)]
    exact e
  have ht' : (r1.attr k).args.take vs.length = vs := by simpa using ht
  unfold attrRun
  rw [e']
  simp only
  by_cases hr : k = .rounded ∧ 1 + vs.length = 1
  · rw [if_pos hr, if_pos (by rw [upd_same]; simp only; omega)]
    refine ⟨_, rfl, Res.Shape.upd (Res.Shape.upd s1 ?_) ?_, ((Same.upd r k _).trans sm).trans ((Same.upd r1 k _).trans (Same.upd _ k _)), by rw [upd_same], ?_⟩
    · exact s1.2 k
    · rw [upd_same]; exact s1.2 k
    · rw [upd_same, upd_same]; exact ht'
  · rw [if_neg hr]
    have : vs.length = k.arity := by
      rcases h with h | h
      · rw [← wants_arity]; exact h
      · exact absurd ⟨h.1, by rw [h.2]; rfl⟩ hr
    rw [if_pos (by rw [hn]; simp only; omega)]
    exact ⟨_, rfl, s1.upd (s1.2 k), ((Same.upd r k _).trans sm).trans (Same.upd _ k _), by rw [upd_same], by rw [upd_same]; exact ht'⟩

/-- A list that is no attribute ends the decoding. -/
theorem attrRun_bad {a : Item} {t : List Item} (h : ¬ GoodArg (.cons a t)) (hl : t.length ≤ 3) {r : Res} (hs : r.Shape) : ∃ r', attrRun a t r = .stop r' ∧ r'.valid = r.valid := by
  cases a with
  | num v => exact ⟨r, by rw [attrRun, attrLoop, attrStep, if_pos rfl], rfl⟩
  | other => exact ⟨r, by simp only [attrRun, attrLoop, attrStep, if_pos], rfl⟩
  | key k =>
    have hs0 : (r.upd k { r.attr k with n := k.arity }).Shape := hs.upd (hs.2 k)
    by_cases hv : ∃ vs : List Nat, t = vs.map .num
    · obtain ⟨vs, rfl⟩ := hv
      rw [List.length_map] at hl
      obtain ⟨r1, e, s1, sm, hn, -, ht⟩ := attrLoop_nums (k := k) vs 1 _ (by omega) (by omega) hs0
      rw [upd_same] at hn
      have e' : attrLoop (.key k :: vs.map .num) 0 none r = .go (r1, 1 + vs.length, some k) := by
        rw [attrLoop, attrStep, if_pos rfl]
        simp only
        rw [if_neg (by omega)]
        exact e
      have hng : ¬ GoodAttr k vs := fun g => h ⟨k, vs, rfl, rfl, g⟩
      unfold attrRun
      rw [e']
      simp only
      have hr : ¬ (k = .rounded ∧ 1 + vs.length = 1) := fun hr => hng (.inr ⟨hr.1, List.length_eq_zero_iff.1 (by omega)⟩)
      rw [if_neg hr, if_neg (fun g => hng (.inl (by rw [hn] at g; simp only at g; rw [wants_arity]; omega)))]
      exact ⟨r1, rfl, sm.valid⟩
    · obtain ⟨r1, e, hv1⟩ := attrLoop_bad (k := k) t 1 _ (by omega) (by omega) hs0 (fun vs e => hv ⟨vs, e⟩)
      refine ⟨r1, ?_, hv1⟩
      unfold attrRun
      rw [attrLoop, attrStep, if_pos rfl]
      simp only
      rw [if_neg (by omega), e]

/-- Good arguments are decoded. -/
theorem argsLoop_good : ∀ (l : List Arg) (nd : Nat) (r : Res), (∀ a ∈ l, GoodArg a) → nd + (nums l).length ≤ 8 → r.Shape →
    ∃ r', argsLoop l nd r = .go (r', nd + (nums l).length) ∧ r'.Shape ∧ r'.valid = r.valid ∧ r'.img = r.img ∧ r'.args.take (nd + (nums l).length) = r.args.take nd ++ nums l ∧
      (∀ k, Has l k → (r'.attr k).valid = true) ∧ (∀ k, ¬ Has l k → r'.attr k = r.attr k) ∧
      ∀ k vs l1 l2, l = l1 ++ .cons (.key k) (vs.map .num) :: l2 → ¬ Has l2 k → (r'.attr k).args.take vs.length = vs
  | [], nd, r, _, _, hs => ⟨r, rfl, hs, rfl, rfl, by simp [nums], fun k ⟨t, h⟩ => by simp at h, fun _ _ => rfl, fun k vs l1 l2 h => by simp at h⟩
  | .other :: l, nd, r, hg, _, _ => (hg .other (by simp)).elim
  | .num v :: l, nd, r, hg, hn, hs => by
    simp only [nums, List.length_cons] at hn ⊢
    have hlen : nd < r.args.length := by rw [hs.1]; omega
    obtain ⟨r', e, s, hv, hi, ha, h1, h2, h3⟩ := argsLoop_good l (nd + 1) { r with args := r.args.set nd v } (fun a h => hg a (by simp [h])) (by omega) ⟨by simp only [List.length_set]; exact hs.1, hs.2⟩
    have hhas : ∀ k, Has (.num v :: l) k ↔ Has l k := fun k => by unfold Has; simp
    refine ⟨r', ?_, s, hv, hi, ?_, fun k h => h1 k ((hhas k).1 h), fun k h => h2 k fun g => h ((hhas k).2 g), ?_⟩
    · rw [argsLoop, if_pos hlen, if_neg (by omega), e]
      congr 2; omega
    · rw [show nd + ((nums l).length + 1) = nd + 1 + (nums l).length by omega, ha, set_take _ _ _ hlen]
      simp
    · intro k vs l1 l2 hl hk
      cases l1 with
      | nil => simp at hl
      | cons b l1 =>
        rw [List.cons_append, List.cons.injEq] at hl
        exact h3 k vs l1 l2 hl.2 hk
  | .cons a t :: l, nd, r, hg, hn, hs => by
    simp only [nums] at hn ⊢
    obtain ⟨k0, vs0, rfl, rfl, hga⟩ := hg (.cons a t) (by simp)
    obtain ⟨r1, e1, s1, sm1, hv1, ht1⟩ := attrRun_good hga hs
    obtain ⟨r', e, s, hv, hi, ha, h1, h2, h3⟩ := argsLoop_good l nd r1 (fun a h => hg a (by simp [h])) hn s1
    have hhas : ∀ k, Has (.cons (.key k0) (vs0.map .num) :: l) k ↔ k = k0 ∨ Has l k := fun k => by
      unfold Has
      constructor
      · rintro ⟨t, h⟩
        rcases List.mem_cons.1 h with h | h
        · rw [Arg.cons.injEq, Item.key.injEq] at h; exact .inl h.1
        · exact .inr ⟨t, h⟩
      · rintro (rfl | ⟨t, h⟩)
        · exact ⟨_, List.mem_cons_self⟩
        · exact ⟨t, List.mem_cons_of_mem _ h⟩
    refine ⟨r', ?_, s, hv.trans sm1.valid, hi.trans sm1.img, by rw [ha, sm1.args], ?_, ?_, ?_⟩
    · rw [argsLoop, e1]
      exact e
    · intro k h
      by_cases hk : Has l k
      · exact h1 k hk
      · obtain rfl : k = k0 := ((hhas k).1 h).resolve_right hk
        rw [h2 k hk]; exact hv1
    · intro k h
      rw [h2 k fun g => h ((hhas k).2 (.inr g)), sm1.attr k fun g => h ((hhas k).2 (.inl g))]
    · intro k vs l1 l2 hl hk
      cases l1 with
      | nil =>
        rw [List.nil_append, List.cons.injEq, Arg.cons.injEq, Item.key.injEq] at hl
        obtain ⟨⟨rfl, hvs⟩, rfl⟩ := hl
        have : vs0 = vs := by
          have := congrArg (List.filterMap fun i => match i with | Item.num v => some v | _ => none) hvs
          simpa [List.filterMap_map, Function.comp_def] using this
        subst this
        rw [h2 k0 hk]; exact ht1
      | cons b l1 =>
        rw [List.cons_append, List.cons.injEq] at hl
        exact h3 k vs l1 l2 hl.2 hk

/-- If an argument is not good then the result is not valid. -/
theorem argsLoop_bad : ∀ (l : List Arg) (nd : Nat) (r : Res), ¬ (∀ a ∈ l, GoodArg a) → (∀ a t, .cons a t ∈ l → t.length ≤ 3) → nd + (nums l).length ≤ 8 → r.Shape →
    ∃ r', argsLoop l nd r = .stop r' ∧ r'.valid = r.valid
  | [], _, _, h, _, _, _ => absurd (fun _ h => by simp at h) h
  | .other :: l, nd, r, _, _, _, _ => ⟨r, rfl, rfl⟩
  | .num v :: l, nd, r, h, ht, hn, hs => by
    simp only [nums, List.length_cons] at hn
    have hlen : nd < r.args.length := by rw [hs.1]; omega
    obtain ⟨r', e, hv⟩ := argsLoop_bad l (nd + 1) { r with args := r.args.set nd v } (fun g => h fun a ha => by
      rcases List.mem_cons.1 ha with rfl | ha
      · trivial
      · exact g a ha) (fun a t g => ht a t (List.mem_cons_of_mem _ g)) (by omega) ⟨by simp only [List.length_set]; exact hs.1, hs.2⟩
    exact ⟨r', by rw [argsLoop, if_pos hlen, if_neg (by omega), e], hv⟩
  | .cons a t :: l, nd, r, h, ht, hn, hs => by
    simp only [nums] at hn
    by_cases hg : GoodArg (.cons a t)
    · obtain ⟨k0, vs0, rfl, rfl, hga⟩ := hg
      obtain ⟨r1, e1, s1, sm1, -⟩ := attrRun_good hga hs
      obtain ⟨r', e, hv⟩ := argsLoop_bad l nd r1 (fun g => h fun a ha => by
        rcases List.mem_cons.1 ha with rfl | ha
        · exact ⟨k0, vs0, rfl, rfl, hga⟩
        · exact g a ha) (fun a t g => ht a t (List.mem_cons_of_mem _ g)) hn s1
      exact ⟨r', by rw [argsLoop, e1]; exact e, hv.trans sm1.valid⟩
    · obtain ⟨r1, e1, hv⟩ := attrRun_bad hg (ht a t List.mem_cons_self) hs
      exact ⟨r1, by rw [argsLoop, e1], hv⟩

theorem empty_shape (i : Option Img) : ({ Res.empty with img := i } : Res).Shape := ⟨rfl, fun _ => rfl⟩

/-- An image and good arguments, in any order, are taken: the numbers in their order, and each attribute that is given is valid and has the numbers that were given last. -/
theorem C114_accept {a : List Byte} {m : Img} (hm : decodeImg a = some m) {l : List Arg} {n : Nat} (hn : n ≤ 8) (hg : Good l n) :
    ∃ r, decode (some a) l n = some r ∧ r.valid = true ∧ r.img = some m ∧ r.args.take n = nums l ∧ (∀ k, (r.attr k).valid = true ↔ Has l k) ∧
      (∀ k, ¬ Has l k → (r.attr k).args = [0, 0, 0]) ∧ ∀ k vs l1 l2, l = l1 ++ .cons (.key k) (vs.map .num) :: l2 → ¬ Has l2 k → (r.attr k).args.take vs.length = vs := by
  obtain ⟨r', e, s, hv, hi, ha, h1, h2, h3⟩ := argsLoop_good l 0 { Res.empty with img := some m } hg.1 (by rw [hg.2]; omega) (empty_shape _)
  refine ⟨{ r' with valid := true }, ?_, rfl, hi, ?_, fun k => ⟨fun h => ?_, h1 k⟩, fun k h => ?_, h3⟩
  · unfold decode
    rw [Option.bind_some, hm]
    simp only
    rw [e]
    simp only
    rw [if_neg (by rw [hg.2]; simp)]
  · rw [hg.2, Nat.zero_add] at ha
    simpa using ha
  · by_cases g : Has l k
    · exact g
    · simp only [h2 k g] at h
      cases h
  · simp only [h2 k h]
    rfl

/-- Other arguments are not taken; the function that was called gives a type error. Nothing is written outside of the result. -/
theorem C114_reject_partial {first : Option (List Byte)} {l : List Arg} {n : Nat} (hs : Short l) (hb : first.bind decodeImg = none ∨ ¬ Good l n) : ∃ r, decode first l n = some r ∧ r.valid = false := by
  unfold decode
  cases hm : first.bind decodeImg with
  | none => exact ⟨_, rfl, rfl⟩
  | some m =>
    have hb := hb.resolve_left (by rw [hm]; simp)
    simp only
    by_cases hg : ∀ a ∈ l, GoodArg a
    · obtain ⟨r', e, s, hv, -⟩ := argsLoop_good l 0 { Res.empty with img := some m } hg (by have := hs.2; omega) (empty_shape _)
      rw [e]
      simp only
      rw [if_pos (fun h => hb ⟨hg, by omega⟩)]
      exact ⟨r', rfl, hv⟩
    · obtain ⟨r', e, hv⟩ := argsLoop_bad l 0 { Res.empty with img := some m } hg hs.1 (by have := hs.2; omega) (empty_shape _)
      rw [e]
      exact ⟨r', rfl, hv⟩

/-- The bytes of an image of 8 times 1 pixels. -/
def tiny : List Byte := [0, 8, 0, 1, 1, 0]

example : ∃ r, decode (some tiny) [.num 11, .cons (.key .dotted) [.num 4, .num 5], .num 12, .cons (.key .rounded) [], .num 13] 3 = some r ∧ r.valid = true ∧ r.img = some ⟨8, 1, 1, [0]⟩ ∧ r.args.take 3 = [11, 12, 13] ∧
    (r.attr .dotted).valid = true ∧ (r.attr .dotted).args.take 2 = [4, 5] ∧ (r.attr .filled).valid = false := by
  obtain ⟨r, e, h1, h2, h3, h4, -, h6⟩ := C114_accept (a := tiny) (m := ⟨8, 1, 1, [0]⟩) (by decide +kernel) (l := [.num 11, .cons (.key .dotted) [.num 4, .num 5], .num 12, .cons (.key .rounded) [], .num 13]) (n := 3) (by decide) (by
    refine ⟨fun a ha => ?_, rfl⟩
    simp only [List.mem_cons, List.not_mem_nil, or_false] at ha
    rcases ha with rfl | rfl | rfl | rfl | rfl
    · trivial
    · exact ⟨.dotted, [4, 5], rfl, rfl, .inl rfl⟩
    · trivial
    · exact ⟨.rounded, [], rfl, rfl, .inr ⟨rfl, rfl⟩⟩
    · trivial)
  refine ⟨r, e, h1, h2, h3, (h4 .dotted).2 ⟨_, List.mem_cons_of_mem _ List.mem_cons_self⟩, h6 .dotted [4, 5] [.num 11] _ rfl ?_, ?_⟩
  · rintro ⟨t, h⟩; simp at h
  · refine Bool.eq_false_iff.2 fun h => ?_
    obtain ⟨t, h⟩ := (h4 .filled).1 h
    simp at h

example : ∃ r, decode (some tiny) [.num 11, .cons (.key .dotted) [.num 4]] 1 = some r ∧ r.valid = false := by
  refine C114_reject_partial ⟨fun a t h => ?_, by decide⟩ (.inr fun h => ?_)
  · simp at h; rw [h.2]; decide
  · obtain ⟨k, vs, h1, h2, h3⟩ := h.1 (.cons (.key .dotted) [.num 4]) (by simp)
    cases h1
    have := congrArg List.length h2
    rw [List.length_map] at this
    rcases h3 with h3 | h3
    · rw [← this] at h3; exact absurd h3 (by decide)
    · exact absurd h3.1 (by decide)

theorem tiny_img : (some tiny).bind decodeImg = some ⟨8, 1, 1, [0]⟩ := by decide +kernel

/-- The full claim fails: a ninth number is written behind the numbers of the result before it is refused. -/
theorem C114_ninth_violated (a b c d e f g h i : Nat) (l : List Arg) (n : Nat) : decode (some tiny) ([.num a, .num b, .num c, .num d, .num e, .num f, .num g, .num h, .num i] ++ l) n = none := by
  unfold decode
  rw [tiny_img]
  rfl

/-- And so is a fourth number of an attribute. -/
theorem C114_fourth_violated (k : Kind) (a b c d : Nat) (t : List Item) (l : List Arg) (n : Nat) : decode (some tiny) (.cons (.key k) ([.num a, .num b, .num c, .num d] ++ t) :: l) n = none := by
  unfold decode
  rw [tiny_img]
  cases k <;> rfl

end Verif.Img.Args
