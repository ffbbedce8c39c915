import Verif.Arith.Bits

/-!
# C26, C27, C28, C57, C58: numbers

`wrap b t z` is the integer `z` reduced to the range of the type `t`, and
`Is n t z` says that `n` is the number of type `t` that stands for it
(`Verif.Arith.Spec`).  `bigger` is the larger type in the documented order.
All statements hold for both builds and for every floating point unit `F`.
The evaluator retries a failed operation after a collection, so "allocation
succeeds" (`∀ k, ok k = true`) is the normal case; `C26_out_of_memory_violated`
is about the other one.
-/

namespace Verif.Arith

open Verif.Val (Build payload)

variable {b : Build} (F : FOps)

/-- The arguments are integers. -/
def AllInt (ns : List (Num b)) : Prop := ∀ n ∈ ns, n.ty.int = true

/-- A floating point unit for the examples. -/
def noFpu : FOps where
  add32 := fun x _ => x
  sub32 := fun x _ => x
  mul32 := fun x _ => x
  div32 := fun x _ => x
  mod32 := fun x _ => x
  lt32 := fun _ _ => false
  zero32 := fun _ => false
  tr32 := fun _ => 0
  of32 := fun _ => 0
  narrow := fun _ => 0
  add64 := fun x _ => x
  sub64 := fun x _ => x
  mul64 := fun x _ => x
  div64 := fun x _ => x
  mod64 := fun x _ => x
  lt64 := fun _ _ => false
  zero64 := fun _ => false
  tr64 := fun _ => 0
  of64 := fun _ => 0
  widen := fun _ => 0

/-! ## C26: addition, subtraction, multiplication -/

theorem bigger_char (t : Ty) : bigger b .char t = t := by
  rw [bigger_def]
  cases b <;> cases t <;> rfl

theorem zero_inRange : InRange b .char 0 := by cases b <;> decide
theorem one_inRange : InRange b .char 1 := by cases b <;> decide

theorem char_first {f : Int → Int → Int} {u : Int} (hu : InRange b .char u)
    (hf : ∀ z, f u z = z) (a : Num b) (ha : a.ty.int = true) : stepZ f (ofZ b .char u) a = a := by
  rw [stepZ, ofZ_ty, bigger_char, (ofZ_is (b := b) (t := .char) rfl u).2, wrap_eq _ _ rfl hu, hf,
    ofZ_val a ha]

/-- **C26**, two arguments: `(+ x y)` has the larger of the two types and the exact
sum reduced to that type, when the C compiler wraps signed overflow or there is none. -/
theorem C26_add (wrapv : Bool) (ok : Nat → Bool) (hok : ∀ k, ok k = true) (x y : Num b)
    (hx : x.ty.int = true) (hy : y.ty.int = true)
    (hno : wrapv = true ∨ NoOverflow b (bigger b x.ty y.ty) (x.val + y.val)) :
    ∃ r, fAdd F wrapv ok [.num x, .num y] = some (.num r) ∧
      Is r (bigger b x.ty y.ty) (x.val + y.val) := by
  have h1 : stepZ (· + ·) (.char 0) x = x :=
    char_first (u := 0) zero_inRange (fun z => Int.zero_add z) x hx
  have hg : GoodRun b wrapv (· + ·) (.char 0) [x, y] := by
    refine ⟨.inr (inRange_noOverflow _ _ ?_ ?_), ?_, trivial⟩
    · rw [Num.ty, bigger_char]; exact hx
    · have := val_range x hx
      simpa [Num.ty, Num.val, bigger_char] using this
    · rw [h1]; exact hno
  refine ⟨_, addLoop_int F wrapv ok hok (.char 0) [x, y] rfl (by simp [hx, hy]) hg, ?_⟩
  simp only [List.foldl_cons, List.foldl_nil, h1]
  exact ofZ_is (bigger_int hx hy) _

/-- **C26**, two arguments: `(* x y)`. -/
theorem C26_mul (wrapv : Bool) (ok : Nat → Bool) (hok : ∀ k, ok k = true) (x y : Num b)
    (hx : x.ty.int = true) (hy : y.ty.int = true)
    (hno : wrapv = true ∨ NoOverflow b (bigger b x.ty y.ty) (x.val * y.val)) :
    ∃ r, fMul F wrapv ok [.num x, .num y] = some (.num r) ∧
      Is r (bigger b x.ty y.ty) (x.val * y.val) := by
  have h1 : stepZ (· * ·) (.char 1) x = x :=
    char_first (u := 1) one_inRange (fun z => Int.one_mul z) x hx
  have hg : GoodRun b wrapv (· * ·) (.char 1) [x, y] := by
    refine ⟨.inr (inRange_noOverflow _ _ ?_ ?_), ?_, trivial⟩
    · rw [Num.ty, bigger_char]; exact hx
    · have := val_range x hx
      simpa [Num.ty, Num.val, bigger_char] using this
    · rw [h1]; exact hno
  refine ⟨_, opLoop_int wrapv _ _ (fun p q hp hq h => mulSwitch_int F wrapv p q hp hq h) ok hok
    (.char 1) [x, y] rfl (by simp [hx, hy]) hg, ?_⟩
  simp only [List.foldl_cons, List.foldl_nil, h1]
  exact ofZ_is (bigger_int hx hy) _

/-- **C26**, two arguments: `(- x y)`. -/
theorem C26_sub (wrapv : Bool) (ok : Nat → Bool) (hok : ∀ k, ok k = true) (x y : Num b)
    (hx : x.ty.int = true) (hy : y.ty.int = true)
    (hno : wrapv = true ∨ NoOverflow b (bigger b x.ty y.ty) (x.val - y.val)) :
    ∃ r, fSub F wrapv ok [.num x, .num y] = some (.num r) ∧
      Is r (bigger b x.ty y.ty) (x.val - y.val) := by
  refine ⟨_, ?_, ofZ_is (bigger_int hx hy) _⟩
  simp only [fSub, hok]
  exact sub2_int F wrapv x y hx hy hno

/-- **C26**, one argument: `(- x)` is the negation at the type of `x`. -/
theorem C26_neg (wrapv : Bool) (ok : Nat → Bool) (hok : ∀ k, ok k = true) (x : Num b)
    (hx : x.ty.int = true) (hno : wrapv = true ∨ NoOverflow b x.ty (-x.val)) :
    ∃ r, fSub F wrapv ok [.num x] = some (.num r) ∧ Is r x.ty (-x.val) := by
  refine ⟨_, ?_, ofZ_is hx _⟩
  simp only [fSub, hok]
  have e1 : bigger b (Num.char 0 : Num b).ty x.ty = x.ty := bigger_char _
  have e2 : (Num.char 0 : Num b).val - x.val = -x.val := Int.zero_sub _
  have := sub2_int F wrapv (.char 0) x rfl hx (by rw [e1, e2]; exact hno)
  rw [e1, e2] at this
  exact this

/-- **C26**: two-argument sums and products do not depend on the order of the
arguments. -/
theorem C26_comm (wrapv : Bool) (ok : Nat → Bool) (hok : ∀ k, ok k = true) (x y : Num b)
    (hx : x.ty.int = true) (hy : y.ty.int = true)
    (ha : wrapv = true ∨ NoOverflow b (bigger b x.ty y.ty) (x.val + y.val))
    (hm : wrapv = true ∨ NoOverflow b (bigger b x.ty y.ty) (x.val * y.val)) :
    fAdd F wrapv ok [.num x, .num y] = fAdd F wrapv ok [.num y, .num x] ∧
      fMul F wrapv ok [.num x, .num y] = fMul F wrapv ok [.num y, .num x] := by
  have e : x.val + y.val = y.val + x.val := Int.add_comm _ _
  have e' : x.val * y.val = y.val * x.val := Int.mul_comm _ _
  obtain ⟨r1, h1, i1⟩ := C26_add F wrapv ok hok x y hx hy ha
  obtain ⟨r2, h2, i2⟩ := C26_add F wrapv ok hok y x hy hx (by rw [bigger_comm, ← e]; exact ha)
  obtain ⟨r3, h3, i3⟩ := C26_mul F wrapv ok hok x y hx hy hm
  obtain ⟨r4, h4, i4⟩ := C26_mul F wrapv ok hok y x hy hx (by rw [bigger_comm, ← e']; exact hm)
  rw [bigger_comm, ← e] at i2
  rw [bigger_comm, ← e'] at i4
  rw [h1, h2, h3, h4, is_unique (bigger_int hx hy) i1 i2, is_unique (bigger_int hx hy) i3 i4]
  exact ⟨rfl, rfl⟩

/-- **C26**, any number of arguments, the first of the largest type (in particular
all of one type): the exact sum, reduced once, whatever happened on the way. -/
theorem C26_add_same (ok : Nat → Bool) (hok : ∀ k, ok k = true) (a : Num b) (ns : List (Num b))
    (ha : a.ty.int = true) (hns : ∀ n ∈ ns, n.ty.int = true ∧ bigger b a.ty n.ty = a.ty) :
    ∃ r, fAdd F true ok ((a :: ns).map .num) = some (.num r) ∧
      Is r a.ty (a.val + (vals ns).sum) := by
  have h1 : stepZ (· + ·) (.char 0) a = a :=
    char_first (u := 0) zero_inRange (fun z => Int.zero_add z) a ha
  refine ⟨_, addLoop_int F true ok hok (.char 0) (a :: ns) rfl ?_ (goodRun_wrap _ _ _), ?_⟩
  · intro v hv
    rcases List.mem_cons.1 hv with rfl | hv
    · exact ha
    · exact (hns v hv).1
  · simp only [List.foldl_cons, h1]
    have h := foldl_biggest add_compat a ns ha hns
    have e : ∀ (l : List Int) (z : Int), l.foldl (· + ·) z = z + l.sum := by
      intro l
      induction l with
      | nil => intro z; simp
      | cons v l ih => intro z; simp only [List.foldl_cons, ih, List.sum_cons]; omega
    rw [e] at h
    exact h

/-- The product of a list. -/
def product (l : List Int) : Int := l.foldr (· * ·) 1

/-- **C26**, any number of factors, the first of the largest type. -/
theorem C26_mul_same (ok : Nat → Bool) (hok : ∀ k, ok k = true) (a : Num b) (ns : List (Num b))
    (ha : a.ty.int = true) (hns : ∀ n ∈ ns, n.ty.int = true ∧ bigger b a.ty n.ty = a.ty) :
    ∃ r, fMul F true ok ((a :: ns).map .num) = some (.num r) ∧
      Is r a.ty (a.val * product (vals ns)) := by
  have h1 : stepZ (· * ·) (.char 1) a = a :=
    char_first (u := 1) one_inRange (fun z => Int.one_mul z) a ha
  refine ⟨_, opLoop_int true _ _ (fun p q hp hq h => mulSwitch_int F true p q hp hq h) ok hok
    (.char 1) (a :: ns) rfl ?_ (goodRun_wrap _ _ _), ?_⟩
  · intro v hv
    rcases List.mem_cons.1 hv with rfl | hv
    · exact ha
    · exact (hns v hv).1
  · simp only [List.foldl_cons, h1]
    have h := foldl_biggest mul_compat a ns ha hns
    have e : ∀ (l : List Int) (z : Int), l.foldl (· * ·) z = z * product l := by
      intro l
      induction l with
      | nil => intro z; simp [product]
      | cons v l ih =>
        intro z
        rw [List.foldl_cons, ih]
        simp only [product, List.foldr_cons, Int.mul_assoc]
    rw [e] at h
    exact h

/-- **C26**, any number of subtrahends, the first argument of the largest type. -/
theorem C26_sub_same (ok : Nat → Bool) (hok : ∀ k, ok k = true) (a c : Num b) (ns : List (Num b))
    (ha : a.ty.int = true)
    (hns : ∀ n ∈ c :: ns, n.ty.int = true ∧ bigger b a.ty n.ty = a.ty) :
    ∃ r, fSub F true ok ((a :: c :: ns).map .num) = some (.num r) ∧
      Is r a.ty (a.val - (vals (c :: ns)).sum) := by
  have e : ∀ (l : List Int) (z : Int), l.foldl (· - ·) z = z - l.sum := by
    intro l
    induction l with
    | nil => intro z; simp
    | cons v l ih => intro z; simp only [List.foldl_cons, ih, List.sum_cons]; omega
  have h := foldl_biggest sub_compat a (c :: ns) ha hns
  rw [e] at h
  refine ⟨_, ?_, h⟩
  cases ns with
  | nil =>
    simp only [fSub, hok, List.map_cons, List.map_nil, List.foldl_cons, List.foldl_nil]
    exact sub2_int F true a c ha (hns c (by simp)).1 (.inl rfl)
  | cons d ns =>
    exact opLoop_int true _ _ (fun p q hp hq h => sub2_int F true p q hp hq h) ok hok a
      (c :: d :: ns) ha (fun v hv => (hns v hv).1) (goodRun_wrap _ _ _)

/-- **C26**, any mixture of integer types: the result has the largest type and is
congruent to the exact sum modulo the width of the *first* argument. -/
theorem C26_add_mixed_partial (ok : Nat → Bool) (hok : ∀ k, ok k = true) (a : Num b)
    (ns : List (Num b)) (h : AllInt (a :: ns)) :
    ∃ r, fAdd F true ok ((a :: ns).map .num) = some (.num r) ∧ r.ty = biggest b a.ty ns ∧
      r.val % 2 ^ a.ty.bits b = ((vals ns).foldl (· + ·) a.val) % 2 ^ a.ty.bits b := by
  have ha := h a (by simp)
  have h1 : stepZ (· + ·) (.char 0) a = a :=
    char_first (u := 0) zero_inRange (fun z => Int.zero_add z) a ha
  refine ⟨_, addLoop_int F true ok hok (.char 0) (a :: ns) rfl h (goodRun_wrap _ _ _), ?_, ?_⟩
  · simp only [List.foldl_cons, h1]; exact foldl_ty _ _ _
  · simp only [List.foldl_cons, h1]
    exact foldl_mod add_compat a ns ha (fun v hv => h v (by simp [hv])) (Nat.le_refl _) _ rfl

/-- **C26**, any mixture of integer types and any compiler: if no partial sum
leaves the range of the type reached so far, the result is the exact sum, at the
largest type. -/
theorem C26_add_exact (wrapv : Bool) (ok : Nat → Bool) (hok : ∀ k, ok k = true) (a : Num b)
    (ns : List (Num b)) (h : AllInt (a :: ns)) (hr : ExactRun b (· + ·) a.ty a.val ns) :
    ∃ r, fAdd F wrapv ok ((a :: ns).map .num) = some (.num r) ∧ r.ty = biggest b a.ty ns ∧
      r.val = (vals ns).foldl (· + ·) a.val := by
  have ha := h a (by simp)
  have h1 : stepZ (· + ·) (.char 0) a = a :=
    char_first (u := 0) zero_inRange (fun z => Int.zero_add z) a ha
  have hg := exactRun_good wrapv a ns ha (fun v hv => h v (by simp [hv])) hr
  have hg2 : GoodRun b wrapv (· + ·) (.char 0) (a :: ns) := by
    refine ⟨.inr (inRange_noOverflow _ _ ?_ ?_), ?_⟩
    · rw [Num.ty, bigger_char]; exact ha
    · have := val_range a ha
      simpa [Num.ty, Num.val, bigger_char] using this
    · rw [h1]; exact hg.1
  refine ⟨_, addLoop_int F wrapv ok hok (.char 0) (a :: ns) rfl h hg2, ?_, ?_⟩
  · simp only [List.foldl_cons, h1]; exact foldl_ty _ _ _
  · simp only [List.foldl_cons, h1]; exact hg.2

/-- **C26**: an argument that is not a number makes the sum a type error. -/
theorem C26_add_type_error (ok : Nat → Bool) (hok : ∀ k, ok k = true) (ns : List (Num b))
    (h : AllInt ns) (v : V b) (hv : v.isNumber = false) (rest : List (V b)) :
    fAdd F true ok (ns.map .num ++ v :: rest) = some (.sym symTERROR) := by
  suffices ∀ acc : Num b, acc.ty.int = true →
      addLoop F true ok (.num acc) (ns.map .num ++ v :: rest) = some (.sym symTERROR) from
    this _ rfl
  induction ns with
  | nil => intro acc _; simp [addLoop, hv]
  | cons n ns ih =>
    intro acc ha
    have hn := h n (by simp)
    have hs := add2_int F true acc n ha hn (.inl rfl)
    simp only [List.map_cons, List.cons_append, addLoop, V.isNumber, if_true, hok]
    obtain ⟨p, q, e, -⟩ := swap_cases acc n ha hn
    simp only [e] at hs ⊢
    rw [hs]
    simp only [reduceCtorEq, and_false, if_false]
    exact ih (fun m hm => h m (by simp [hm])) _ (by rw [ofZ_ty]; exact bigger_int ha hn)

-- (+ 3i 250b 5u32) on the 32-bit build
example : ∃ r, fAdd noFpu false (fun _ => true) [.num (.i 3 : Num .b32), .num (.char 250), .num (.u32 5)]
    = some (.num r) ∧ r = .u32 258 := ⟨_, rfl, by decide⟩
-- wrapping: (+ 2^27-1 1) is -2^27 at type i
example : fAdd noFpu true (fun _ => true) [.num (.i 0x7FFFFFF : Num .b32), .num (.i 1)] =
    some (.num (.i 0x8000000)) ∧ (Num.i 0x8000000 : Num .b32).val = -134217728 := by decide
example : ∀ n ∈ [(.i 3 : Num .b32), .char 250], n.ty.int = true ∧ bigger .b32 .u32 n.ty = .u32 := by
  decide
example : ExactRun .b32 (· + ·) (Ty.i) 3 [.char 250, .u32 5] := by
  exact ⟨by decide, by decide, trivial⟩

/-- **C26 is violated** for mixed types: the sum depends on the order of the
arguments, as the partial sums are reduced to the type reached so far.  On the 32-bit build
`(+ 134217727 134217727 0u32)` is 4294967294 but `(+ 0u32 134217727 134217727)` is 268435454. -/
theorem C26_order_violated (wrapv : Bool) :
    fAdd F wrapv (fun _ => true)
        [.num (.i 0x7FFFFFF : Num .b32), .num (.i 0x7FFFFFF), .num (.u32 0)] =
      some (.num (.u32 0xFFFFFFFE)) ∧
    fAdd F wrapv (fun _ => true)
        [.num (.u32 0 : Num .b32), .num (.i 0x7FFFFFF), .num (.i 0x7FFFFFF)] =
      some (.num (.u32 0x0FFFFFFE)) := by
  have g1 : GoodRun .b32 wrapv (· + ·) (.char 0) [.i 0x7FFFFFF, .i 0x7FFFFFF, .u32 0] :=
    ⟨.inr (by unfold NoOverflow; decide +kernel), .inr (by unfold NoOverflow; decide +kernel),
      .inr (by unfold NoOverflow; decide +kernel), trivial⟩
  have g2 : GoodRun .b32 wrapv (· + ·) (.char 0) [.u32 0, .i 0x7FFFFFF, .i 0x7FFFFFF] :=
    ⟨.inr (by unfold NoOverflow; decide +kernel), .inr (by unfold NoOverflow; decide +kernel),
      .inr (by unfold NoOverflow; decide +kernel), trivial⟩
  have h1 := addLoop_int F wrapv (fun _ => true) (fun _ => rfl) (.char 0)
    [.i 0x7FFFFFF, .i 0x7FFFFFF, .u32 0] rfl (by decide) g1
  have h2 := addLoop_int F wrapv (fun _ => true) (fun _ => rfl) (.char 0)
    [.u32 0, .i 0x7FFFFFF, .i 0x7FFFFFF] rfl (by decide) g2
  exact ⟨h1.trans (by decide +kernel), h2.trans (by decide +kernel)⟩

/-- **C26 is violated** when signed overflow is undefined, as with the flags of the
Makefiles: `(+ 2147483647i32 1i32)` and `(* 134217727 134217727)`. -/
theorem C26_overflow_violated :
    fAdd F false (fun _ => true) [.num (.i32 0x7FFFFFFF : Num .b32), .num (.i32 1)] = none ∧
    fMul F false (fun _ => true) [.num (.i 0x7FFFFFF : Num .b32), .num (.i 0x7FFFFFF)] = none := by
  have h1 : ∀ x y : BitVec 32, sadd false x 0#32 = some x → sadd false x y = none →
      fAdd F false (fun _ => true) [.num (.i32 x : Num .b32), .num (.i32 y)] = none := by
    intro x y h1 h2
    have e1 : addSwitch F false true (.num (.i32 x) : V .b32) (.num (.char 0)) =
        (sadd false x 0#32).map fun r => .num (.i32 r) := rfl
    have e2 : addSwitch F false true (.num (.i32 x) : V .b32) (.num (.i32 y)) =
        (sadd false x y).map fun r => .num (.i32 r) := rfl
    rw [h1] at e1
    rw [h2] at e2
    simp only [fAdd, addLoop]
    rw [show promoteSwap (.num (.char 0) : V .b32) (.num (.i32 x)) =
      (.num (.i32 x), .num (.char 0)) from rfl]
    simp only [V.isNumber, if_true, e1, Option.map_some, addChecked, Num.ty, Bool.false_eq_true,
      false_and, if_false]
    rw [show promoteSwap (.num (.i32 x) : V .b32) (.num (.i32 y)) =
      (.num (.i32 x), .num (.i32 y)) from rfl]
    simp only [e2, Option.map_none]
  refine ⟨h1 _ _ (by decide +kernel) (by decide +kernel), ?_⟩
  have h2 : ∀ x y : BitVec 28, smul false (decI (b := .b32) x) 1#32 = some (decI (b := .b32) x) →
      encI (b := .b32) (decI (b := .b32) x) = .i x →
      smul false (decI (b := .b32) x) (decI (b := .b32) y) = none →
      fMul F false (fun _ => true) [.num (.i x : Num .b32), .num (.i y)] = none := by
    intro x y h1 h0 h2
    have e1 : mul2 F false true (.num (.char 1) : V .b32) (.num (.i x)) =
        (smul false (decI (b := .b32) x) 1#32).map fun r => .num (encI (b := .b32) r) := rfl
    have e2 : mul2 F false true (.num (.i x) : V .b32) (.num (.i y)) =
        (smul false (decI (b := .b32) x) (decI (b := .b32) y)).map
          fun r => .num (encI (b := .b32) r) := rfl
    rw [h1, Option.map_some, h0] at e1
    rw [h2] at e2
    simp only [fMul, opLoop, e1, e2, Option.map_none]
  exact h2 0x7FFFFFF 0x7FFFFFF (by decide +kernel) (by decide +kernel) (by decide +kernel)

/-- **C26 is violated** when the heap is full: on the 32-bit build a sum that
cannot be stored is dropped and the addition goes on with the error symbol, so
that `(+ 1u32 1b)` with no free cell is 36 rather than 2 or an out of memory error.
(The partial sum `0b + 1u32` becomes the symbol number 0x23, whose low byte is then
added to `1b`.) -/
theorem C26_out_of_memory_violated (wrapv : Bool) :
    fAdd F wrapv (fun _ => false) [.num (.u32 1 : Num .b32), .num (.char 1)] =
      some (.num (.char 36)) := by
  cases wrapv <;> rfl

/-! ## C27: division and modulo -/

/-- **C27**: dividing by zero is reported, for every pair of integer types. -/
theorem C27_divzero (ok : Nat → Bool) (x y : Num b) (hx : x.ty.int = true) (hy : y.ty.int = true)
    (h0 : y.val = 0) :
    fDiv F ok [.num x, .num y] = some (.sym symDIVZERO) ∧
      fMod F ok [.num x, .num y] = some (.sym symDIVZERO) := by
  have h := fun k => div2_zero F x y hx hy h0 k
  constructor
  · simp only [fDiv, opLoop, (h _).1]
  · simp only [fMod, (h _).2]

/-- **C27** (partial): `(/ x y)` is the truncated quotient of the operands promoted to the larger
type.  What is missing: at the 64-bit types the dividend must fit in 32 bits, at type `u`
no operand may be negative and, on the 64-bit build, the divisor must not be a multiple
of 2^32 (see the violations below); and the quotient must not overflow. -/
theorem C27_div_partial (ok : Nat → Bool) (hok : ∀ k, ok k = true) (x y : Num b)
    (hx : x.ty.int = true) (hy : y.ty.int = true) (t : Ty) (ht : t = bigger b x.ty y.ty)
    (hu : t = .u → InRange b .u x.val ∧ InRange b .u y.val)
    (hz : ¬ wrap b t y.val = 0) (h64 : t = .u → b = .b64 → ¬ y.val % 2 ^ 32 = 0)
    (hd1 : t = .i64 → -(2 ^ 31) ≤ x.val ∧ x.val < 2 ^ 31)
    (hd2 : t = .u64 → 0 ≤ x.val ∧ x.val < 2 ^ 32)
    (hno : NoOverflow b t ((wrap b t x.val).tdiv (wrap b t y.val))) :
    ∃ r, fDiv F ok [.num x, .num y] = some (.num r) ∧
      Is r t ((wrap b t x.val).tdiv (wrap b t y.val)) := by
  refine ⟨_, ?_, ofZ_is (ht ▸ bigger_int hx hy) _⟩
  simp only [fDiv, opLoop, hok,
    div2_int F x y hx hy t ht hu hz h64 ⟨hd1, hd2⟩ hno]

/-- **C27**: `(mod x y)` is the remainder of the truncated division of the promoted
operands, of the sign of the dividend.  (At type `u` with the restrictions of
`C27_div_partial`.) -/
theorem C27_mod (ok : Nat → Bool) (hok : ∀ k, ok k = true) (x y : Num b)
    (hx : x.ty.int = true) (hy : y.ty.int = true) (t : Ty) (ht : t = bigger b x.ty y.ty)
    (hu : t = .u → InRange b .u x.val ∧ InRange b .u y.val)
    (hz : ¬ wrap b t y.val = 0) (h64 : t = .u → b = .b64 → ¬ y.val % 2 ^ 32 = 0)
    (hno : NoOverflow b t ((wrap b t x.val).tdiv (wrap b t y.val))) :
    ∃ r, fMod F ok [.num x, .num y] = some (.num r) ∧
      Is r t ((wrap b t x.val).tmod (wrap b t y.val)) := by
  refine ⟨_, ?_, ofZ_is (ht ▸ bigger_int hx hy) _⟩
  simp only [fMod, hok, mod2_int F x y hx hy t ht hu hz h64 hno]

-- (/ -7 2i32) = -3, (mod -7 2i32) = -1
example : fDiv noFpu (fun _ => true) [.num (.i 0xFFFFFF9 : Num .b32), .num (.i32 2)] =
    some (.num (.i32 0xFFFFFFFD)) ∧
  fMod noFpu (fun _ => true) [.num (.i 0xFFFFFF9 : Num .b32), .num (.i32 2)] =
    some (.num (.i32 0xFFFFFFFF)) := by decide +kernel
example : NoOverflow .b32 .i32 ((-7 : Int).tdiv 2) := by intro _; decide
example : (wrap .b32 .i32 2 ≠ 0) := by decide

/-- **C27 is violated** at the 64-bit types: the dividend is cut to 32 bits.
`(/ 4294967296u64 2u64)` is 0 and `(/ 4294967296i64 2i64)` is 0, on both builds. -/
theorem C27_div64_violated :
    fDiv F (fun _ => true) [.num (.u64 0x100000000 : Num b), .num (.u64 2)] =
      some (.num (.u64 0)) ∧
    fDiv F (fun _ => true) [.num (.i64 0x100000000 : Num b), .num (.i64 2)] =
      some (.num (.i64 0)) := by
  have hu : ∀ x y : BitVec 64, div2 F true (.num (.u64 x) : V b) (.num (.u64 y)) =
      if y = 0 then some (.sym symDIVZERO)
      else some (.num (.u64 ((x.setWidth 32).setWidth 64 / y))) := by
    intro x y; cases b <;> rfl
  have hi : ∀ x y : BitVec 64, div2 F true (.num (.i64 x) : V b) (.num (.i64 y)) =
      if y = 0 then some (.sym symDIVZERO)
      else (sdiv' ((x.setWidth 32).signExtend 64) y).map fun r => .num (.i64 r) := by
    intro x y; cases b <;> rfl
  simp only [fDiv, opLoop, hu, hi]
  cases b <;> decide +kernel

/-- **C27 is violated** on the 64-bit build: a divisor of type `u` that is a multiple
of 2^32 is taken for zero. -/
theorem C27_divzero_u_violated :
    fDiv F (fun _ => true) [.num (.u 0x200000000 : Num .b64), .num (.u 0x100000000)] =
      some (.sym symDIVZERO) ∧
    fMod F (fun _ => true) [.num (.u 0x200000000 : Num .b64), .num (.u 0x100000000)] =
      some (.sym symDIVZERO) := ⟨rfl, rfl⟩

/-- **C27 is violated** at type `u` with a negative operand: `(/ -1 2u)` divides
2^32 - 1, not the promoted operand 2^28 - 1, on the 32-bit build. -/
theorem C27_negative_u_violated :
    fDiv F (fun _ => true) [.num (.i 0xFFFFFFF : Num .b32), .num (.u 2)] =
      some (.num (.u 0xFFFFFFF)) ∧
    (wrap .b32 .u (-1)).tdiv (wrap .b32 .u 2) = 0x7FFFFFF := by
  refine ⟨?_, by decide⟩
  have h : ∀ x y : BitVec 28, div2 F true (.num (.i x) : V .b32) (.num (.u y)) =
      if (decU (b := .b32) y).setWidth 32 = 0 then some (.sym symDIVZERO)
      else some (.num (encU (b := .b32) ((decI (b := .b32) x).setWidth 32 / (decU (b := .b32) y).setWidth 32))) := by
    intro x y; rfl
  have h' := h 0xFFFFFFF 2
  simp only [fDiv, opLoop]
  have e : div2 F true (.num (.i 0xFFFFFFF : Num .b32)) (.num (.u 2)) =
      some (.num (.u 0xFFFFFFF)) := h'.trans (by decide +kernel)
  rw [e]

/-- **C27 is violated**: dividing the least number by -1 is undefined (the
processor traps); for `mod` the result 0 would be representable. -/
theorem C27_overflow_violated :
    fDiv F (fun _ => true) [.num (.i32 0x80000000 : Num b), .num (.i32 0xFFFFFFFF)] = none ∧
    fMod F (fun _ => true) [.num (.i32 0x80000000 : Num b), .num (.i32 0xFFFFFFFF)] = none ∧
    fMod F (fun _ => true) [.num (.i64 0x8000000000000000 : Num b), .num (.i64 0xFFFFFFFFFFFFFFFF)] =
      none := by
  cases b <;> exact ⟨rfl, rfl, rfl⟩

/-! ## C28: comparison -/

/-- Both operands are in range of the type at which they are compared.  Always so
when the larger type is signed, or both have one type, or none is negative. -/
def Comparable (x y : Num b) : Prop :=
  x.ty.int = true ∧ y.ty.int = true ∧
    InRange b (bigger b x.ty y.ty) x.val ∧ InRange b (bigger b x.ty y.ty) y.val

theorem Comparable.of_same {x y : Num b} (h : x.ty = y.ty) (hx : x.ty.int = true) :
    Comparable x y := by
  have hy : y.ty.int = true := h ▸ hx
  have e : bigger b x.ty y.ty = x.ty := by rw [h, bigger_def]; simp
  refine ⟨hx, hy, ?_, ?_⟩
  · rw [e]; exact val_range x hx
  · rw [e, h]; exact val_range y hy

theorem compare_exact {x y : Num b} (h : Comparable x y) :
    compareNum F (.num x) (.num y) = sign x.val y.val := by
  obtain ⟨hx, hy, rx, ry⟩ := h
  rw [compare_int F x y hx hy _ rfl (fun e => by rw [e] at rx ry; exact ⟨rx, ry⟩),
    wrap_eq _ _ (bigger_int hx hy) rx, wrap_eq _ _ (bigger_int hx hy) ry]

theorem sign_le (x y : Int) : sign x y ≤ 0 ↔ x ≤ y := by
  simp only [sign]; split <;> split <;> omega
theorem sign_ge (x y : Int) : 0 ≤ sign x y ↔ y ≤ x := by
  simp only [sign]; split <;> split <;> omega
theorem sign_eq (x y : Int) : sign x y = 0 ↔ x = y := by
  simp only [sign]; split <;> split <;> omega

theorem cmpLoop_eq (good : Int → Bool) (rel : Int → Int → Prop) [DecidableRel rel]
    (hg : ∀ x y, good (sign x y) = decide (rel x y)) (a : Num b) (ns : List (Num b))
    (h : ∀ n ∈ ns, Comparable a n) (r : Bool) :
    cmpLoop F good (.num a) r (ns.map .num) = some (r && decide (∀ n ∈ ns, rel a.val n.val)) := by
  induction ns generalizing r with
  | nil => simp [cmpLoop]
  | cons n ns ih =>
    simp only [List.map_cons, cmpLoop, V.isNumber, Bool.not_true, Bool.false_eq_true, if_false]
    rw [compare_exact F (h n (by simp)), hg, ih (fun m hm => h m (by simp [hm]))]
    simp only [List.mem_cons, forall_eq_or_imp, Bool.decide_and, Bool.and_assoc]

/-- The result of a comparison as a symbol. -/
def symOf (p : Prop) [Decidable p] : Nat := if p then symTRUE else symNIL

/-- **C28**: `(<= a n₁ … nₖ)` is true exactly when `a` is at most every other argument. -/
theorem C28_leq (a : Num b) (ha : a.ty.int = true) (ns : List (Num b))
    (h : ∀ n ∈ ns, Comparable a n) :
    fLeq F (.num a :: ns.map .num) = some (symOf (∀ n ∈ ns, a.val ≤ n.val)) := by
  simp only [fLeq, cmpAll, V.isNumber, Bool.not_true, Bool.false_eq_true, if_false]
  rw [cmpLoop_eq F _ (· ≤ ·) (fun x y => decide_eq_decide.2 (sign_le x y)) a ns h true]
  simp only [Bool.true_and]
  congr 1
  by_cases hc : ∀ n ∈ ns, a.val ≤ n.val
  · rw [decide_eq_true hc, symOf, if_pos hc]
  · rw [decide_eq_false hc, symOf, if_neg hc]

/-- **C28**: `(>= a n₁ … nₖ)` is true exactly when `a` is at least every other argument. -/
theorem C28_geq (a : Num b) (ha : a.ty.int = true) (ns : List (Num b))
    (h : ∀ n ∈ ns, Comparable a n) :
    fGeq F (.num a :: ns.map .num) = some (symOf (∀ n ∈ ns, n.val ≤ a.val)) := by
  simp only [fGeq, cmpAll, V.isNumber, Bool.not_true, Bool.false_eq_true, if_false]
  rw [cmpLoop_eq F _ (fun x y => y ≤ x) (fun x y => decide_eq_decide.2 (sign_ge x y)) a ns h true]
  simp only [Bool.true_and]
  congr 1
  by_cases hc : ∀ n ∈ ns, n.val ≤ a.val
  · rw [decide_eq_true hc, symOf, if_pos hc]
  · rw [decide_eq_false hc, symOf, if_neg hc]

/-- **C28**: `(= a n₁ … nₖ)` is true exactly when every other argument equals `a`, and
`!=` is its negation. -/
theorem C28_numeq (a : Num b) (ha : a.ty.int = true) (ns : List (Num b))
    (h : ∀ n ∈ ns, Comparable a n) :
    fNumEq F (.num a :: ns.map .num) = some (symOf (∀ n ∈ ns, a.val = n.val)) ∧
      fNumNotEq F (.num a :: ns.map .num) = some (symOf (∃ n ∈ ns, a.val ≠ n.val)) := by
  have key : fNumEq F (.num a :: ns.map .num) = some (symOf (∀ n ∈ ns, a.val = n.val)) := by
    simp only [fNumEq, V.isNumber, if_true]
    congr 1
    induction ns with
    | nil => simp [numeqLoop, symOf]
    | cons n ns ih =>
      simp only [List.map_cons, numeqLoop, V.isNumber, Bool.not_true, Bool.false_eq_true, if_false]
      rw [compare_exact F (h n (by simp))]
      by_cases he : a.val = n.val
      · rw [if_neg (by simpa using (sign_eq _ _).2 he), ih (fun m hm => h m (by simp [hm]))]
        simp only [symOf, List.mem_cons, forall_eq_or_imp, he, true_and]
      · rw [if_pos (fun h => he ((sign_eq _ _).1 h)), symOf, if_neg]
        intro hc; exact he (hc n (by simp))
  refine ⟨key, ?_⟩
  simp only [fNumNotEq, key, Option.map_some]
  congr 1
  by_cases hc : ∀ n ∈ ns, a.val = n.val
  · have : ¬ ∃ n ∈ ns, a.val ≠ n.val := fun ⟨n, hn, hne⟩ => hne (hc n hn)
    rw [symOf, if_pos hc, symOf, if_neg this]; rfl
  · have : ∃ n ∈ ns, a.val ≠ n.val := by
      apply Classical.byContradiction
      intro hx
      exact hc fun n hn => Classical.byContradiction fun hne => hx ⟨n, hn, hne⟩
    rw [symOf, if_neg hc, symOf, if_pos this]; rfl

/-- **C28** (partial): `(< a c)` and `(> a c)` with two arguments.  With more
arguments see `C28_lt_violated`. -/
theorem C28_lt_gt_partial (a c : Num b) (h : Comparable a c) :
    fLt F [.num a, .num c] = some (symOf (a.val < c.val)) ∧
      fGt F [.num a, .num c] = some (symOf (c.val < a.val)) := by
  have h1 := C28_geq F a h.1 [c] (by simpa using h)
  have h2 := C28_leq F a h.1 [c] (by simpa using h)
  simp only [List.map_cons, List.map_nil] at h1 h2
  simp only [fLt, fGt, h1, h2, Option.map_some]
  constructor <;> congr 1
  · by_cases hc : a.val < c.val
    · rw [symOf, if_neg (by simp; omega), symOf, if_pos hc]; rfl
    · rw [symOf, if_pos (by simp; omega), symOf, if_neg hc]; rfl
  · by_cases hc : c.val < a.val
    · rw [symOf, if_neg (by simp; omega), symOf, if_pos hc]; rfl
    · rw [symOf, if_pos (by simp; omega), symOf, if_neg hc]; rfl

/-- **C28**: what `(< a n₁ … nₖ)` and `(> a n₁ … nₖ)` compute: whether *some* other argument
is greater (less). -/
theorem C28_lt_gt_some (a : Num b) (ha : a.ty.int = true) (ns : List (Num b))
    (h : ∀ n ∈ ns, Comparable a n) :
    fLt F (.num a :: ns.map .num) = some (symOf (∃ n ∈ ns, a.val < n.val)) ∧
      fGt F (.num a :: ns.map .num) = some (symOf (∃ n ∈ ns, n.val < a.val)) := by
  have neg : ∀ (p q : Prop) [Decidable p] [Decidable q], (q ↔ ¬ p) →
      negate (symOf p) = symOf q := by
    intro p q _ _ hpq
    by_cases hp : p
    · rw [symOf, if_pos hp, symOf, if_neg (by rw [hpq]; simpa using hp)]; rfl
    · rw [symOf, if_neg hp, symOf, if_pos (hpq.2 hp)]; rfl
  simp only [fLt, fGt, C28_geq F a ha ns h, C28_leq F a ha ns h, Option.map_some]
  constructor <;> congr 1 <;> apply neg
  · constructor
    · rintro ⟨n, hn, hl⟩ hc; have := hc n hn; omega
    · intro hc
      apply Classical.byContradiction
      intro hx
      apply hc
      intro n hn
      apply Classical.byContradiction
      intro hl; exact hx ⟨n, hn, by omega⟩
  · constructor
    · rintro ⟨n, hn, hl⟩ hc; have := hc n hn; omega
    · intro hc
      apply Classical.byContradiction
      intro hx
      apply hc
      intro n hn
      apply Classical.byContradiction
      intro hl; exact hx ⟨n, hn, by omega⟩

/-- **C28**: an argument that is not a number makes `<=`, `>=`, `<`, `>` a type error. -/
theorem C28_type_error (args : List (V b)) (hne : args ≠ []) (h : ∃ v ∈ args, v.isNumber = false) :
    fLeq F args = some symTERROR ∧ fGeq F args = some symTERROR ∧
      fLt F args = some symTERROR ∧ fGt F args = some symTERROR := by
  have key : ∀ good, cmpAll F good args = some symTERROR := by
    intro good
    cases args with
    | nil => exact absurd rfl hne
    | cons a cs =>
      simp only [cmpAll]
      congr 1
      by_cases ha : a.isNumber = true
      · simp only [ha, Bool.not_true, Bool.false_eq_true, if_false]
        have hcs : ∃ v ∈ cs, v.isNumber = false := by
          obtain ⟨v, hv, hn⟩ := h
          rcases List.mem_cons.1 hv with rfl | hv
          · simp [ha] at hn
          · exact ⟨v, hv, hn⟩
        have hl : ∀ r, cmpLoop F good a r cs = none := by
          clear h hne
          induction cs with
          | nil => obtain ⟨v, hv, _⟩ := hcs; cases hv
          | cons c cs ih =>
            intro r
            simp only [cmpLoop]
            by_cases hc : c.isNumber = true
            · simp only [hc, Bool.not_true, Bool.false_eq_true, if_false]
              apply ih
              obtain ⟨v, hv, hn⟩ := hcs
              rcases List.mem_cons.1 hv with rfl | hv
              · simp [hc] at hn
              · exact ⟨v, hv, hn⟩
            · simp [hc]
        rw [hl]
      · simp [ha]
  refine ⟨key _, key _, ?_, ?_⟩
  · simp only [fLt, fGeq, key]; rfl
  · simp only [fGt, fLeq, key]; rfl

example : Comparable (.i 3 : Num .b32) (.u 5) := by
  exact ⟨rfl, rfl, by decide, by decide⟩
example : fLeq noFpu [.num (.i 3 : Num .b32), .num (.i32 7), .num (.i 3)] = some symTRUE := by decide
example : fLt noFpu [.num (.i 0xFFFFFFF : Num .b32), .num (.i32 7)] = some symTRUE := by decide

/-- **C28 is violated** with more than two arguments: the manual says that `(< a …)` is
true if `a` is less than *all* others, but `(< 1 2 0)` is true; likewise `(> 1 0 2)`. -/
theorem C28_lt_violated :
    fLt F [.num (.i 1 : Num b), .num (.i 2), .num (.i 0)] = some symTRUE ∧
      fGt F [.num (.i 1 : Num b), .num (.i 0), .num (.i 2)] = some symTRUE := by
  cases b <;> exact ⟨rfl, rfl⟩

/-- **C28 is violated** for a negative number against an unsigned one: `(< -1 1u)` is
false and `(= -1i32 4294967295u32)` is true. -/
theorem C28_mixed_sign_violated :
    fLt F [.num (.i (-1) : Num b), .num (.u 1)] = some symNIL ∧
      fNumEq F [.num (.i32 (-1) : Num b), .num (.u32 0xFFFFFFFF)] = some symTRUE := by
  cases b <;> exact ⟨rfl, rfl⟩

/-! ## C57: conversions -/

/-- **C57**: `to-byte`, `to-i`, `to-u`, `to-i32`, `to-u32`, `to-i64`, `to-u64` of an integer
give the number of that type congruent to it. -/
theorem C57_convert (t : Ty) (ht : t.int = true) (n : Num b) (hn : n.ty.int = true) :
    ∃ r, fTo F t true [.num n] = .num r ∧ Is r t n.val := by
  refine ⟨ofZ b t n.val, ?_, ofZ_is ht _⟩
  cases t <;> simp [Ty.int] at ht <;>
    simp only [fTo, enc_ok, decAsChar_eq F n hn, decAsI64_eq F n hn, decAsU64_eq F n hn,
      decAsI32_eq F n hn, decAsU32_eq F n hn]
  · rfl
  · rw [setWidth_ofInt (w_le b), encI_ofInt]
  · rw [setWidth_ofInt (w_le b), encU_ofInt]
  all_goals rfl

/-- **C57**: conversion to a type that can represent the number keeps it, so
converting there and back is the identity. -/
theorem C57_roundtrip (t : Ty) (ht : t.int = true) (n : Num b) (hn : n.ty.int = true)
    (hr : InRange b t n.val) :
    ∃ r, fTo F t true [.num n] = .num r ∧ r.val = n.val ∧
      fTo F n.ty true [.num r] = .num n := by
  obtain ⟨r, h1, h2⟩ := C57_convert F t ht n hn
  have hv : r.val = n.val := by rw [h2.2, wrap_eq _ _ ht hr]
  refine ⟨r, h1, hv, ?_⟩
  obtain ⟨m, h3, h4⟩ := C57_convert F n.ty hn r (by rw [h2.1]; exact ht)
  rw [h3]
  congr 1
  refine is_unique hn h4 ⟨rfl, ?_⟩
  rw [hv, wrap_eq _ _ hn (val_range n hn)]

example : fTo noFpu .char true [.num (.i32 0x1FF : Num .b32)] = .num (.char 0xFF) := by decide
example : InRange .b32 .i64 (Num.u32 0xFFFFFFFF : Num .b32).val := by
  simp [InRange, Ty.signed, Ty.bits, Num.val]

/-- **C57 is violated** for what is not a number: the manual's conversions take numbers,
but `(to-i 'a)` is 0 rather than a type error. -/
theorem C57_symbol_violated (id : Nat) :
    fTo F .i true [(.sym id : V b)] = .num (.i 0) := by
  cases b <;> rfl

/-! ## C58: bit operations -/

/-- **C58**: `bitwise-and`, `bitwise-or`, `bitwise-xor` of integers (the first not a byte)
give a number of the type of the first argument, each bit of which is the
Boolean combination of the corresponding two's complement bits of the arguments. -/
theorem C58_bitwise (o : BitOp) (x y : Num b) (hx : x.ty.int = true) (hc : x.ty ≠ .char)
    (hy : y.ty.int = true) :
    ∃ r, fBit F o true [.num x, .num y] = .num r ∧ r.ty = x.ty ∧
      ∀ i, i < x.ty.bits b → bitOf r.val i = o.bool (bitOf x.val i) (bitOf y.val i) := by
  have hw := payload_le b
  cases x <;> simp [Ty.int, Num.ty] at hx hc <;>
    simp only [fBit, enc_ok, decAsIW_eq F y hy, decAsUW_eq F y hy, decAsI64_eq F y hy,
      decAsU64_eq F y hy, decAsI32_eq F y hy, decAsU32_eq F y hy] <;>
    refine ⟨_, rfl, rfl, ?_⟩ <;> intro i hi <;> simp only [Num.ty, Ty.bits] at hi <;>
    simp only [Num.val, encI, encU]
  case i x =>
    have hi' := bits_le_w hi
    rw [bitOf_toInt _ hi, BitVec.getLsbD_setWidth, BitOp.ap_bit, getLsbD_ofInt' _ hi', decI_eq,
      getLsbD_ofInt' _ hi']
    simp [hi]
  case u x =>
    have hi' := bits_le_w hi
    rw [bitOf_toNat, BitVec.getLsbD_setWidth, BitOp.ap_bit, getLsbD_ofInt' _ hi', decU_eq,
      getLsbD_ofInt' _ hi']
    simp [hi]
  case i32 x => rw [bitOf_toInt _ hi, BitOp.ap_bit, getLsbD_ofInt' _ hi, bitOf_toInt _ hi]
  case u32 x => rw [bitOf_toNat, BitOp.ap_bit, getLsbD_ofInt' _ hi, bitOf_toNat]
  case i64 x => rw [bitOf_toInt _ hi, BitOp.ap_bit, getLsbD_ofInt' _ hi, bitOf_toInt _ hi]
  case u64 x => rw [bitOf_toNat, BitOp.ap_bit, getLsbD_ofInt' _ hi, bitOf_toNat]

/-- **C58**: `bitwise-not` flips every bit. -/
theorem C58_not (x : Num b) (hx : x.ty.int = true) (hc : x.ty ≠ .char) :
    ∃ r, fNot true [.num x] = .num r ∧ r.ty = x.ty ∧
      ∀ i, i < x.ty.bits b → bitOf r.val i = !bitOf x.val i := by
  have hw := payload_le b
  cases x <;> simp [Ty.int, Num.ty] at hx hc <;>
    simp only [fNot, enc_ok] <;>
    refine ⟨_, rfl, rfl, ?_⟩ <;> intro i hi <;> simp only [Num.ty, Ty.bits] at hi <;>
    simp only [Num.val, encI, encU]
  case i x =>
    have hi' := bits_le_w hi
    rw [bitOf_toInt _ hi, BitVec.getLsbD_setWidth, BitVec.getLsbD_not, decI_eq,
      getLsbD_ofInt' _ hi']
    simp [hi, hi']
  case u x =>
    have hi' := bits_le_w hi
    rw [bitOf_toNat, BitVec.getLsbD_setWidth, BitVec.getLsbD_not, decU_eq,
      getLsbD_ofInt' _ hi']
    simp [hi, hi']
  case i32 x => rw [bitOf_toInt _ hi, BitVec.getLsbD_not, bitOf_toInt _ hi]; simp [hi]
  case u32 x => rw [bitOf_toNat, BitVec.getLsbD_not, bitOf_toNat]; simp [hi]
  case i64 x => rw [bitOf_toInt _ hi, BitVec.getLsbD_not, bitOf_toInt _ hi]; simp [hi]
  case u64 x => rw [bitOf_toNat, BitVec.getLsbD_not, bitOf_toNat]; simp [hi]

/-- The width within which C shifts a number of a type. -/
def shiftWidth (b : Build) : Ty → Nat
  | .i | .u => b.w
  | t => t.bits b

/-- **C58**: `(shl x n)` with `0 ≤ n` less than the machine width is `x * 2 ^ n` reduced to
the type of `x`. -/
theorem C58_shl (x n : Num b) (hx : x.ty.int = true) (hc : x.ty ≠ .char) (hn : n.ty.int = true)
    (h0 : 0 ≤ n.val) (h1 : n.val < shiftWidth b x.ty) :
    ∃ r, fShl F true [.num x, .num n] = some (.num r) ∧ Is r x.ty (x.val * 2 ^ n.val.toNat) := by
  have hsw : shiftWidth b x.ty ≤ 64 := by cases b <;> generalize x.ty = t <;> cases t <;> decide
  have e : (BitVec.ofInt 32 n.val).toNat = n.val.toNat := by
    have := toNat_ofInt' 32 n.val
    rw [Int.emod_eq_of_lt h0 (by omega)] at this
    omega
  have hlt : n.val.toNat < shiftWidth b x.ty := by omega
  refine ⟨ofZ b x.ty (x.val * 2 ^ n.val.toNat), ?_, ofZ_is hx _⟩
  cases x <;> simp [Ty.int, Num.ty] at hx hc <;> simp only [Num.ty, shiftWidth, Ty.bits] at hlt <;>
    simp only [fShl, decAsU32_eq F n hn, shlC, e] <;> rw [if_neg (by omega)] <;>
    simp only [Option.map_some, enc_ok]
  case i x => rw [decI_eq, ofInt_shl, encI_ofInt]; rfl
  case u x => rw [decU_eq, ofInt_shl, encU_ofInt]; rfl
  case i32 x => rw [ofInt_eq_of_toInt x, ofInt_shl, ← ofInt_eq_of_toInt x]; rfl
  case u32 x => rw [ofInt_eq_of_toNat x, ofInt_shl, ← ofInt_eq_of_toNat x]; rfl
  case i64 x => rw [ofInt_eq_of_toInt x, ofInt_shl, ← ofInt_eq_of_toInt x]; rfl
  case u64 x => rw [ofInt_eq_of_toNat x, ofInt_shl, ← ofInt_eq_of_toNat x]; rfl

theorem sshr_eq {w : Nat} (x : BitVec w) (n : Nat) :
    x.sshiftRight n = BitVec.ofInt w (x.toInt / 2 ^ n) := by
  rw [BitVec.sshiftRight, Int.shiftRight_eq_div_pow]; simp

theorem ushr_eq {w : Nat} (x : BitVec w) (n : Nat) :
    x >>> n = BitVec.ofInt w ((x.toNat : Int) / 2 ^ n) := by
  rw [show ((x.toNat : Int) / 2 ^ n) = ((x.toNat / 2 ^ n : Nat) : Int) by push_cast; rfl,
    BitVec.ofInt_natCast]
  apply BitVec.eq_of_toNat_eq
  simp only [BitVec.toNat_ushiftRight, Nat.shiftRight_eq_div_pow, BitVec.toNat_ofNat]
  rw [Nat.mod_eq_of_lt]
  exact Nat.lt_of_le_of_lt (Nat.div_le_self _ _) x.isLt

/-- **C58**: `(shr x n)` with `0 ≤ n` less than the machine width is `x / 2 ^ n` rounded
down. -/
theorem C58_shr (x n : Num b) (hx : x.ty.int = true) (hc : x.ty ≠ .char) (hn : n.ty.int = true)
    (h0 : 0 ≤ n.val) (h1 : n.val < shiftWidth b x.ty) :
    ∃ r, fShr F true [.num x, .num n] = some (.num r) ∧ Is r x.ty (x.val / 2 ^ n.val.toNat) := by
  have hsw : shiftWidth b x.ty ≤ 64 := by cases b <;> generalize x.ty = t <;> cases t <;> decide
  have e : (BitVec.ofInt 32 n.val).toNat = n.val.toNat := by
    have := toNat_ofInt' 32 n.val
    rw [Int.emod_eq_of_lt h0 (by omega)] at this
    omega
  have hlt : n.val.toNat < shiftWidth b x.ty := by omega
  refine ⟨ofZ b x.ty (x.val / 2 ^ n.val.toNat), ?_, ofZ_is hx _⟩
  cases x <;> simp [Ty.int, Num.ty] at hx hc <;> simp only [Num.ty, shiftWidth, Ty.bits] at hlt <;>
    simp only [fShr, decAsU32_eq F n hn, shrC, sarC, e] <;> rw [if_neg (by omega)] <;>
    simp only [Option.map_some, enc_ok]
  case i x => rw [sshr_eq, decI_toInt, encI_ofInt]; rfl
  case u x => rw [ushr_eq, decU_toNat, encU_ofInt]; rfl
  case i32 x => rw [sshr_eq]; rfl
  case u32 x => rw [ushr_eq]; rfl
  case i64 x => rw [sshr_eq]; rfl
  case u64 x => rw [ushr_eq]; rfl

example : fBit noFpu .and true [.num (.i 0xFFFFFFF : Num .b32), .num (.u32 0xF0)] =
    .num (.i 0xF0) := by decide
example : fShl noFpu true [.num (.i 1 : Num .b32), .num (.i 27)] = some (.num (.i 0x8000000)) := by
  decide
example : fShr noFpu true [.num (.i 0xFFFFFF8 : Num .b32), .num (.i 1)] =
    some (.num (.i 0xFFFFFFC)) := by decide

/-- **C58 is violated** by shift amounts that are negative or not less than the width:
undefined behaviour, not an error value.  `(shl 1u32 32)`, `(shr 1u32 -1)`. -/
theorem C58_shift_violated :
    fShl F true [.num (.u32 1 : Num b), .num (.i 32)] = none ∧
      fShr F true [.num (.u32 1 : Num b), .num (.i (-1))] = none := by
  cases b <;> exact ⟨rfl, rfl⟩

/-- **C58 is violated** for bytes: `(bitwise-and 3b 1b)` is a type error, and so are the shifts of
bytes. -/
theorem C58_byte_violated (o : BitOp) :
    fBit F o true [(.num (.char 3) : V b), .num (.char 1)] = .sym symTERROR ∧
      fShl F true [(.num (.char 3) : V b), .num (.char 1)] = some (.sym symTERROR) := ⟨rfl, rfl⟩

end Verif.Arith
