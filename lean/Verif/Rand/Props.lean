import Verif.Rand.Spec
import Mathlib.NumberTheory.LucasPrimality
import Mathlib.GroupTheory.OrderOfElement
import Mathlib.Tactic.NormNum.Prime

namespace Verif.Rand

open Verif.Val (Build payload)
open Verif.Arith (V Num FOps)

/-! ## The numbers -/

/-- Powers by repeated squaring, the bits of the exponent with the lowest first. -/
def pw (a m : Nat) : List Bool → Nat
  | [] => 1
  | b :: l => let q := pw (a * a % m) m l; if b then a * q % m else q

def bits : List Bool → Nat
  | [] => 0
  | b :: l => b.toNat + 2 * bits l

theorem pw_eq (m : Nat) [NeZero m] : ∀ (l : List Bool) (a : Nat), ((pw a m l : Nat) : ZMod m) = (a : ZMod m) ^ bits l
  | [], a => by simp [pw, bits]
  | b :: l, a => by
    have ih := pw_eq m l (a * a % m)
    rw [ZMod.natCast_mod, Nat.cast_mul, ← pow_two (a : ZMod m), ← pow_mul] at ih
    cases b
    · simp only [pw, bits, Bool.toNat_false, zero_add, Bool.false_eq_true, if_false]; exact ih
    · simp only [pw, bits, Bool.toNat_true, if_true, ZMod.natCast_mod, Nat.cast_mul, ih, pow_add, pow_one]

/-- The bits of a number. -/
def toBits : Nat → Nat → List Bool
  | 0, _ => []
  | f + 1, n => (n % 2 == 1) :: toBits f (n / 2)

theorem prime_dvd {q : Nat} (hq : q.Prime) (h : q ∣ cM - 1) : q = 2 ∨ q = 3 ∨ q = 1123 ∨ q = 39839 := by
  have e : cM - 1 = 2 * 3 * 1123 * 39839 := by decide
  rw [e] at h
  have p1 : Nat.Prime 1123 := by norm_num
  have p2 : Nat.Prime 39839 := by norm_num
  rcases (Nat.Prime.dvd_mul hq).1 h with h | h
  · rcases (Nat.Prime.dvd_mul hq).1 h with h | h
    · rcases (Nat.Prime.dvd_mul hq).1 h with h | h
      · exact .inl ((Nat.prime_dvd_prime_iff_eq hq Nat.prime_two).1 h)
      · exact .inr (.inl ((Nat.prime_dvd_prime_iff_eq hq Nat.prime_three).1 h))
    · exact .inr (.inr (.inl ((Nat.prime_dvd_prime_iff_eq hq p1).1 h)))
  · exact .inr (.inr (.inr ((Nat.prime_dvd_prime_iff_eq hq p2).1 h)))

instance : NeZero cM := ⟨by decide⟩

theorem pow_value (n v : Nat) (h : pw cA cM (toBits 28 n) = v) (hb : bits (toBits 28 n) = n) : (cA : ZMod cM) ^ n = (v : ZMod cM) := by
  rw [← h, pw_eq, hb]

theorem cast_ne {a b : Nat} (ha : a < cM) (hb : b < cM) (h : a ≠ b) : (a : ZMod cM) ≠ (b : ZMod cM) := by
  intro e
  rw [ZMod.natCast_eq_natCast_iff'] at e
  rw [Nat.mod_eq_of_lt ha, Nat.mod_eq_of_lt hb] at e
  exact h e

theorem pow_one' : (cA : ZMod cM) ^ (cM - 1) = 1 := by
  have := pow_value (cM - 1) 1 (by decide +kernel) (by decide +kernel)
  simpa using this

theorem pow_ne (q : Nat) (hq : q.Prime) (h : q ∣ cM - 1) : (cA : ZMod cM) ^ ((cM - 1) / q) ≠ 1 := by
  have key : ∀ n, bits (toBits 28 n) = n → pw cA cM (toBits 28 n) ≠ 1 → pw cA cM (toBits 28 n) < cM → (cA : ZMod cM) ^ n ≠ 1 := by
    intro n hb h1 h2
    rw [pow_value n _ rfl hb]
    have := cast_ne h2 (show 1 < cM by decide) h1
    simpa using this
  rcases prime_dvd hq h with rfl | rfl | rfl | rfl
  all_goals exact key _ (by decide +kernel) (by decide +kernel) (by decide +kernel)

theorem prime_M : cM.Prime := lucas_primality cM cA pow_one' pow_ne

instance : Fact cM.Prime := ⟨prime_M⟩

theorem order_A : orderOf (cA : ZMod cM) = cM - 1 := orderOf_eq_of_pow_and_pow_div_prime (by decide) pow_one' pow_ne

/-! ## The sequence -/

/-- One step, on numbers. -/
def g (x : Nat) : Nat := (cA * x + cC) % cM

/-- The number with which nothing changes. -/
def fixed : Nat := 194187152

theorem g_fixed : g fixed = fixed := by decide

/-- Call number `i`. -/
def nth (x : Nat) : Nat → Nat
  | 0 => g x
  | i + 1 => g (nth x i)

theorem nth_lt (x i : Nat) : nth x i < cM := by
  cases i <;> exact Nat.mod_lt _ (by decide)

theorem nth_shift (x i : Nat) : nth (g x) i = nth x (i + 1) := by
  induction i with
  | zero => simp only [nth]
  | succ i ih => rw [nth, ih, nth.eq_2 x (i + 1)]

theorem g_cast (x : Nat) : ((g x : Nat) : ZMod cM) = (cA : ZMod cM) * x + (cC : ZMod cM) := by
  rw [g, ZMod.natCast_mod, Nat.cast_add, Nat.cast_mul]

theorem g_diff' {R : Type} [CommRing R] {a c f x gx : R} (h : gx = a * x + c) (hf : f = a * f + c) : gx - f = a * (x - f) := by
  rw [h]
  conv_lhs => rw [hf]
  ring

theorem g_diff (x : Nat) : ((g x : Nat) : ZMod cM) - (fixed : ZMod cM) = (cA : ZMod cM) * ((x : ZMod cM) - (fixed : ZMod cM)) :=
  g_diff' (g_cast x) (by
    have h2 := g_cast fixed
    rwa [g_fixed] at h2)

theorem nth_diff (x : Nat) : ∀ i, ((nth x i : Nat) : ZMod cM) - (fixed : ZMod cM) = (cA : ZMod cM) ^ (i + 1) * ((x : ZMod cM) - (fixed : ZMod cM))
  | 0 => by rw [nth, g_diff]; ring
  | i + 1 => by rw [nth, g_diff, nth_diff x i]; ring

theorem A_ne : (cA : ZMod cM) ≠ 0 := by
  have := cast_ne (a := cA) (b := 0) (by decide) (by decide) (by decide)
  simpa using this

theorem pow_iff (i j : Nat) : (cA : ZMod cM) ^ i = (cA : ZMod cM) ^ j ↔ i % (cM - 1) = j % (cM - 1) := by
  have h := pow_eq_pow_iff_modEq (x := Units.mk0 (cA : ZMod cM) A_ne) (n := i) (m := j)
  rw [← orderOf_units, Units.val_mk0, order_A] at h
  rw [← Nat.ModEq, ← h, ← Units.val_inj]
  simp

theorem nth_iff {x : Nat} (hx : x % cM ≠ fixed) (i j : Nat) : nth x i = nth x j ↔ i % (cM - 1) = j % (cM - 1) := by
  have hd : (x : ZMod cM) - (fixed : ZMod cM) ≠ 0 := by
    rw [sub_ne_zero, ← ZMod.natCast_mod]
    exact cast_ne (Nat.mod_lt _ (by decide)) (by decide) hx
  have h1 : nth x i = nth x j ↔ ((nth x i : Nat) : ZMod cM) = ((nth x j : Nat) : ZMod cM) := by
    constructor
    · intro h; rw [h]
    · intro h
      by_contra hne
      exact cast_ne (nth_lt x i) (nth_lt x j) hne h
  rw [h1, ← sub_left_inj (a := (fixed : ZMod cM)), nth_diff, nth_diff, mul_left_inj' hd, pow_iff]
  show i + 1 ≡ j + 1 [MOD cM - 1] ↔ i ≡ j [MOD cM - 1]
  exact ⟨Nat.ModEq.add_right_cancel' 1, Nat.ModEq.add_right 1⟩

theorem nth_ne_fixed {x : Nat} (hx : x % cM ≠ fixed) (i : Nat) : nth x i ≠ fixed := by
  intro h
  have h1 : nth x (i + 1) = nth x i := by rw [nth, h, g_fixed]
  rw [nth_iff hx] at h1
  have h2 : i + 1 ≡ i + 0 [MOD cM - 1] := h1
  have h3 := Nat.ModEq.add_left_cancel' i h2
  revert h3
  decide

theorem nth_covers {x : Nat} (hx : x % cM ≠ fixed) (start n : Nat) (hn : n < cM) (hf : n ≠ fixed) : ∃ i, i < cM - 1 ∧ nth x (start + i) = n := by
  have hsub : (Finset.range (cM - 1)).image (fun i => nth x (start + i)) ⊆ (Finset.range cM).erase fixed := by
    intro y hy
    obtain ⟨i, _, rfl⟩ := Finset.mem_image.1 hy
    exact Finset.mem_erase.2 ⟨nth_ne_fixed hx _, Finset.mem_range.2 (nth_lt _ _)⟩
  have hcard : ((Finset.range (cM - 1)).image (fun i => nth x (start + i))).card = cM - 1 := by
    rw [Finset.card_image_of_injOn, Finset.card_range]
    intro i hi j hj e
    have hi := Finset.mem_range.1 (Finset.mem_coe.1 hi)
    have hj := Finset.mem_range.1 (Finset.mem_coe.1 hj)
    have h1 : start + i ≡ start + j [MOD cM - 1] := (nth_iff hx _ _).1 e
    have h2 : i % (cM - 1) = j % (cM - 1) := Nat.ModEq.add_left_cancel' start h1
    rwa [Nat.mod_eq_of_lt hi, Nat.mod_eq_of_lt hj] at h2
  have he := Finset.eq_of_subset_of_card_le hsub (by
    rw [hcard, Finset.card_erase_of_mem (Finset.mem_range.2 (by decide)), Finset.card_range])
  have : n ∈ (Finset.range (cM - 1)).image (fun i => nth x (start + i)) := by
    rw [he]
    exact Finset.mem_erase.2 ⟨hf, Finset.mem_range.2 hn⟩
  obtain ⟨i, hi, h⟩ := Finset.mem_image.1 this
  exact ⟨i, Finset.mem_range.1 hi, h⟩

/-! ## The calls -/

variable {b : Build}

theorem number_random (st : BitVec b.w) : number (extRandom st).1 = some (extRandom st).2.toNat ∧ (extRandom st).2.toNat < cM := by
  have hlt : (extRandom st).2.toNat < cM := by
    unfold extRandom
    simp only [BitVec.toNat_umod]
    cases b <;> exact Nat.mod_lt _ (by decide)
  refine ⟨?_, hlt⟩
  show some (((extRandom st).2.setWidth (payload b)).toNat) = _
  rw [BitVec.toNat_setWidth, Nat.mod_eq_of_lt]
  cases b
  · exact Nat.lt_trans hlt (by decide)
  · exact Nat.lt_trans hlt (by decide)

/-- The state after `k` calls of `random`. -/
def state (s : BitVec b.w) : Nat → BitVec b.w
  | 0 => s
  | k + 1 => state (extRandom s).2 k

theorem state_succ (s : BitVec b.w) (k : Nat) : state s (k + 1) = (extRandom (state s k)).2 := by
  induction k generalizing s with
  | zero => rfl
  | succ k ih => rw [state, ih]; rfl

theorem calls_random (F : FOps) (s : BitVec b.w) (cs : List (List (V b))) :
    (calls F s (cs.map .random)).1.map number = (List.range cs.length).map (fun i => some (state s (i + 1)).toNat) := by
  induction cs generalizing s with
  | nil => rfl
  | cons c cs ih =>
    rw [List.length_cons, List.range_succ_eq_map, List.map_cons (a := 0), List.map_map]
    show number (extRandom s).1 :: (calls F (extRandom s).2 (cs.map .random)).1.map number = _
    rw [ih, (number_random s).1]
    rfl

theorem sequence_state (F : FOps) (s : BitVec b.w) : Sequence F s (fun i => (state s (i + 1)).toNat) := by
  intro k cs hk
  rw [← hk]
  exact calls_random F s cs

theorem sequence_unique {F : FOps} {s : BitVec b.w} {f f' : Nat → Nat} (h : Sequence F s f) (h' : Sequence F s f') (i : Nat) : f i = f' i := by
  have e := (h (i + 1) (List.replicate (i + 1) []) (by simp)).symm.trans (h' (i + 1) (List.replicate (i + 1) []) (by simp))
  have := congrArg (·[i]?) e
  simpa using this

theorem random64 {s : BitVec Build.b64.w} (h : s.toNat < 2 ^ 32) : (extRandom s).2.toNat = g s.toNat := by
  show ((BitVec.ofNat 64 cA * s + BitVec.ofNat 64 cC) % BitVec.ofNat 64 cM).toNat = _
  have h' : BitVec.toNat (w := 64) s < 2 ^ 32 := h
  have e1 : (cA * BitVec.toNat (w := 64) s) < 2 ^ 60 := by unfold cA; omega
  rw [BitVec.toNat_umod, BitVec.toNat_add, BitVec.toNat_mul, BitVec.toNat_ofNat, BitVec.toNat_ofNat, BitVec.toNat_ofNat,
    Nat.mod_eq_of_lt (show cA < 2 ^ 64 by decide), Nat.mod_eq_of_lt (show cC < 2 ^ 64 by decide), Nat.mod_eq_of_lt (show cM < 2 ^ 64 by decide),
    Nat.mod_eq_of_lt (show cA * BitVec.toNat (w := 64) s < 2 ^ 64 by omega), Nat.mod_eq_of_lt (show cA * BitVec.toNat (w := 64) s + cC < 2 ^ 64 by unfold cC; omega)]
  rfl

theorem state64 {s : BitVec Build.b64.w} (h : s.toNat < 2 ^ 32) (k : Nat) : (state s (k + 1)).toNat = nth s.toNat k := by
  induction k with
  | zero => exact random64 h
  | succ k ih =>
    rw [state_succ, random64, ih, nth]
    rw [ih]
    exact Nat.lt_trans (nth_lt _ _) (by decide)

/-! ## The property -/

/-- On both builds: after `(seed v)` with a number `v`, whatever was called before, the results of the following calls are the numbers of a sequence that is determined by `v` taken as an unsigned number of
32 bits. They are of type u and below 268435183. A call of `seed` that is not with one number changes nothing. -/
theorem C105_reproducible (F : FOps) (st : BitVec b.w) (cs : List (Call b)) (v : V b) (hv : v.isNumber = true) (rs : List (List (V b))) :
    ∃ f, Sequence F ((Arith.decAsU32 F v).setWidth b.w) f ∧ (∀ i, f i < 268435183) ∧
      (calls F st (cs ++ .seed [v] :: rs.map .random)).1.map number = (calls F st cs).1.map number ++ none :: (List.range rs.length).map (fun i => some (f i)) := by
  refine ⟨_, sequence_state F _, fun i => ?_, ?_⟩
  · show (state _ (i + 1)).toNat < cM
    rw [state_succ]
    exact (number_random _).2
  · induction cs generalizing st with
    | nil =>
      show number (extSeed F st [v]).1 :: ((calls F (extSeed F st [v]).2 (rs.map .random)).1.map number) = _
      simp only [extSeed, hv, if_true]
      rw [calls_random]
      rfl
    | cons c cs ih =>
      show number (call F st c).1 :: ((calls F (call F st c).2 (cs ++ .seed [v] :: rs.map .random)).1.map number) = _
      rw [ih]
      rfl

/-- `seed` with the wrong arguments. -/
theorem C105_bad_seed (F : FOps) (st : BitVec b.w) (args : List (V b)) (h : ∀ v, args = [v] → v.isNumber = false) : extSeed F st args = (.sym Arith.symEERROR, st) := by
  unfold extSeed
  split
  · rw [if_neg (by simp [h _ rfl])]
  · rfl

/-- On 64 bits, for every seed but those that are 194187152 modulo 268435183: two results are the same exactly if the number of calls between them is a multiple of 268435182, and any 268435182 calls in a row
give every number below 268435183 other than 194187152. -/
theorem C105_period_partial (F : FOps) (s : BitVec Build.b64.w) (h : s.toNat < 2 ^ 32) (hs : s.toNat % 268435183 ≠ 194187152) {f : Nat → Nat} (hf : Sequence F s f) :
    (∀ i j, f i = f j ↔ i % 268435182 = j % 268435182) ∧ ∀ start n, n < 268435183 → n ≠ 194187152 → ∃ i, i < 268435182 ∧ f (start + i) = n := by
  have e : ∀ i, f i = nth s.toNat i := fun i => (sequence_unique hf (sequence_state F s) i).trans (state64 h i)
  constructor
  · intro i j
    rw [e, e]
    exact nth_iff hs i j
  · intro start n h1 h2
    obtain ⟨i, hi, h3⟩ := nth_covers hs start n h1 h2
    exact ⟨i, hi, (e _).trans h3⟩

/-- The initial state, with which no `seed` is needed. -/
example (F : FOps) : ∀ f, Sequence F (seed0 .b64) f → ∀ i j, f i = f j ↔ i % 268435182 = j % 268435182 := fun f hf =>
  (C105_period_partial F (seed0 .b64) (by decide) (by decide) hf).1

/-- On 64 bits, after `(seed 194187152)` every result is 194187152. -/
theorem C105_fixed_violated (F : FOps) : Sequence F (b := .b64) (BitVec.ofNat 64 194187152) (fun _ => 194187152) := by
  intro k cs hk
  rw [calls_random, hk]
  refine List.map_congr_left fun i hi => ?_
  clear hi
  rw [state64 (by decide)]
  congr 1
  induction i with
  | zero => decide
  | succ i ih =>
    rw [nth, ih]
    exact g_fixed

/-- One step on 32 bits, on numbers. -/
def step (p a c m x : Nat) : Nat := (a * x % p + c) % p % m

/-- The same, for the constants of the code. -/
def g32 (x : Nat) : Nat := step (2 ^ 32) cA cC cM x

/-- The value of a function at a number that is calculated first. -/
def force (y : Nat) (k : Nat → Nat) : Nat :=
  match y with
  | 0 => k 0
  | y + 1 => k (y + 1)

theorem force_eq (y : Nat) (k : Nat → Nat) : force y k = k y := by
  cases y <;> rfl

/-- The number after `n` steps, with each of them calculated at once. -/
def steps32 : Nat → Nat → Nat
  | 0 => fun x => x
  | n + 1 => fun x => force (g32 x) (steps32 n)

theorem steps32_succ (n x : Nat) : steps32 (n + 1) x = steps32 n (g32 x) := by
  rw [steps32.eq_2]
  exact force_eq (g32 x) (steps32 n)

theorem arith32 (a c m x : BitVec 32) : ((a * x + c) % m).toNat = step (2 ^ 32) a.toNat c.toNat m.toNat x.toNat := by
  rw [BitVec.toNat_umod, BitVec.toNat_add, BitVec.toNat_mul, step]

theorem const32 : (BitVec.ofNat 32 cA).toNat = cA ∧ (BitVec.ofNat 32 cC).toNat = cC ∧ (BitVec.ofNat 32 cM).toNat = cM := by decide

theorem random32 (s : BitVec Build.b32.w) : (extRandom s).2.toNat = g32 s.toNat := by
  have h := arith32 (BitVec.ofNat 32 cA) (BitVec.ofNat 32 cC) (BitVec.ofNat 32 cM) s
  rewrite [const32.1, const32.2.1, const32.2.2] at h
  exact h

theorem steps32_eq (n : Nat) (s : BitVec Build.b32.w) : (state s n).toNat = steps32 n s.toNat := by
  induction n generalizing s with
  | zero => exact Eq.refl s.toNat
  | succ n ih =>
    rewrite [state.eq_2, steps32_succ, ← random32]
    exact ih _

theorem state_add (s : BitVec b.w) (n k : Nat) : state s (n + k) = state (state s n) k := by
  induction n generalizing s with
  | zero => rw [Nat.zero_add]; rfl
  | succ n ih => rw [Nat.succ_add, state, ih]; rfl

theorem repeats {F : FOps} {s : BitVec b.w} {f : Nat → Nat} (hf : Sequence F s f) {n p : Nat} (h : (state s (n + p)).toNat = (state s n).toNat) (i : Nat) (hi : n ≤ i) : f (i + p) = f i := by
  rw [sequence_unique hf (sequence_state F s), sequence_unique hf (sequence_state F s)]
  have e := BitVec.eq_of_toNat_eq h
  rw [show i + p + 1 = (n + p) + (i - n + 1) by omega, state_add, e, ← state_add, show n + (i - n + 1) = i + 1 by omega]

/-- On 32 bits, after `(seed 32620102)` the same 28 numbers come again and again. -/
theorem C105_short_violated (F : FOps) {f : Nat → Nat} (hf : Sequence F (b := .b32) (BitVec.ofNat 32 32620102) f) (i : Nat) : f (i + 28) = f i :=
  repeats hf (n := 0) (by rw [steps32_eq, steps32_eq]; decide +kernel) i (Nat.zero_le _)

/-- On 32 bits, with the seed that a device starts with, the results repeat after 18535 calls. -/
theorem C105_initial_violated (F : FOps) {f : Nat → Nat} (hf : Sequence F (seed0 .b32) f) (i : Nat) (hi : 812 ≤ i) : f (i + 18535) = f i :=
  repeats hf (n := 812) (by rw [steps32_eq, steps32_eq]; decide +kernel) i hi

/-- A history: two calls, then `(seed 7)` and two more. -/
example (F : FOps) : (calls F (seed0 .b64) ([.random [], .seed []] ++ .seed [.num (.i 7)] :: [[], []].map .random)).1.map number =
    [some 243551489, none] ++ none :: [some 268433969, some 169726] := by
  have h : Arith.decAsU32 F (b := .b64) (.num (.i 7)) = 7 := by rw [Arith.decAsU32]; decide
  simp only [List.map_cons, List.map_nil, List.cons_append, List.nil_append, calls, call, extSeed, V.isNumber, if_true, h]
  decide +kernel

end Verif.Rand
