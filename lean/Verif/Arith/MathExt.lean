import Verif.Arith.Props

/-!
# Property C142: the mathematical functions

`src/extensions/math_extensions.c`. The functions of the C library and the arithmetic of the processor are parameters. Of the heap only the
number of free cells is kept; a value is the tree that a program sees.
-/

namespace Verif.MathExt

open Verif.Val (Build)
open Verif.Arith (Num FOps decAsFloat noFpu)

variable {b : Build}

/-- Result of a function. -/
inductive Res where
  | float (x : BitVec 32)
  | nil
  | cons (a d : Res)
  | merror
  | eerror
deriving DecidableEq, Repr

/-- The reason for an error that is set (`lbm_set_error_reason`). -/
inductive Reason where
  | none | noNumber | numArgs
deriving DecidableEq, Repr

/-- `lbm_is_number_all`, `src/extensions.c:124-131`. -/
def isNumberAll : List (Arith.V b) → Bool
  | [] => true
  | v :: vs => if !v.isNumber then false else isNumberAll vs

/-- `lbm_check_argn_number`, `src/extensions.c:156-166`: the reason, or `none` when the check succeeds. -/
def checkArgnNumber (args : List (Arith.V b)) (n : Nat) : Reason :=
  if !isNumberAll args then .noNumber
  else if args.length ≠ n then .numArgs
  else .none

/-- `lbm_check_number_all`, `src/extensions.c:139-145`. -/
def checkNumberAll (args : List (Arith.V b)) : Reason :=
  if !isNumberAll args then .noNumber else .none

/-- `lbm_cons`, `src/heap.c:952-954` and `src/heap.c:557-571`. -/
def cons (free : Nat) (a d : Res) : Nat × Res :=
  if free = 0 then (free, .merror) else (free - 1, .cons a d)

/-- `lbm_enc_float`, `src/heap.c:114-126`: a cell on 32 bits, none on 64. -/
def encFloat (b : Build) (free : Nat) (x : BitVec 32) : Nat × Res :=
  match b with
  | .b32 =>
    match cons free .nil .nil with
    | (f, .merror) => (f, .merror)
    | (f, _) => (f, .float x)
  | .b64 => (free, .float x)

/-- The functions with a fixed number of arguments, `src/extensions/math_extensions.c:31-103`. -/
inductive Fn where
  | sin | cos | tan | asin | acos | atan | atan2 | pow | exp | sqrt | log | log10 | floor | ceil | round
deriving DecidableEq, Repr

/-- The C library: functions of one and of two floats. -/
structure Lib where
  sinf : BitVec 32 → BitVec 32
  cosf : BitVec 32 → BitVec 32
  tanf : BitVec 32 → BitVec 32
  asinf : BitVec 32 → BitVec 32
  acosf : BitVec 32 → BitVec 32
  atanf : BitVec 32 → BitVec 32
  atan2f : BitVec 32 → BitVec 32 → BitVec 32
  powf : BitVec 32 → BitVec 32 → BitVec 32
  expf : BitVec 32 → BitVec 32
  sqrtf : BitVec 32 → BitVec 32
  logf : BitVec 32 → BitVec 32
  log10f : BitVec 32 → BitVec 32
  floorf : BitVec 32 → BitVec 32
  ceilf : BitVec 32 → BitVec 32
  roundf : BitVec 32 → BitVec 32

/-- A function with `LBM_CHECK_ARGN_NUMBER(1)`. -/
def fun1 (F : FOps) (f : BitVec 32 → BitVec 32) (free : Nat) (args : List (Arith.V b)) : Nat × Res × Reason :=
  match checkArgnNumber args 1 with
  | .none =>
    match args with
    | a :: _ => let r := encFloat b free (f (decAsFloat F a)); (r.1, r.2, .none)
    | _ => (free, .eerror, .none)
  | e => (free, .eerror, e)

/-- A function with `LBM_CHECK_ARGN_NUMBER(2)`. -/
def fun2 (F : FOps) (f : BitVec 32 → BitVec 32 → BitVec 32) (free : Nat) (args : List (Arith.V b)) : Nat × Res × Reason :=
  match checkArgnNumber args 2 with
  | .none =>
    match args with
    | a :: c :: _ => let r := encFloat b free (f (decAsFloat F a) (decAsFloat F c)); (r.1, r.2, .none)
    | _ => (free, .eerror, .none)
  | e => (free, .eerror, e)

/-- `ext_sin` to `ext_round`, `src/extensions/math_extensions.c:31-103`. -/
def call (F : FOps) (L : Lib) (free : Nat) (args : List (Arith.V b)) : Fn → Nat × Res × Reason
  | .sin => fun1 F L.sinf free args
  | .cos => fun1 F L.cosf free args
  | .tan => fun1 F L.tanf free args
  | .asin => fun1 F L.asinf free args
  | .acos => fun1 F L.acosf free args
  | .atan => fun1 F L.atanf free args
  | .atan2 => fun2 F L.atan2f free args
  | .pow => fun2 F L.powf free args
  | .exp => fun1 F L.expf free args
  | .sqrt => fun1 F L.sqrtf free args
  | .log => fun1 F L.logf free args
  | .log10 => fun1 F L.log10f free args
  | .floor => fun1 F L.floorf free args
  | .ceil => fun1 F L.ceilf free args
  | .round => fun1 F L.roundf free args

/-- The loop of `ext_deg2rad` and `ext_rad2deg` from the last argument to the first, `src/extensions/math_extensions.c:112-116,126-130`: `rargs` are
the arguments from the last on. -/
def convLoop (F : FOps) (conv : BitVec 32 → BitVec 32) : Nat → Res → List (Arith.V b) → Nat × Res
  | free, out, [] => (free, out)
  | free, out, a :: rargs =>
    let r := encFloat b free (conv (decAsFloat F a))
    let c := cons r.1 r.2 out
    convLoop F conv c.1 c.2 rargs

/-- `ext_deg2rad` and `ext_rad2deg`, `src/extensions/math_extensions.c:106-133`; `conv` is `DEG2RAD_f` or `RAD2DEG_f`, `include/lbm_utils.h:38-39`. -/
def convert (F : FOps) (conv : BitVec 32 → BitVec 32) (free : Nat) (args : List (Arith.V b)) : Nat × Res × Reason :=
  match checkNumberAll args with
  | .none =>
    match args with
    | [a] => let r := encFloat b free (conv (decAsFloat F a)); (r.1, r.2, .none)
    | _ => let r := convLoop F conv free .nil args.reverse; (r.1, r.2, .none)
  | e => (free, .eerror, e)

/-! ### Specification -/

/-- The list of some floats. -/
def ofList : List (BitVec 32) → Res
  | [] => .nil
  | x :: xs => .cons (.float x) (ofList xs)

/-- Cells that a float takes. -/
def floatCells : Build → Nat
  | .b32 => 1
  | .b64 => 0

/-- What a mathematical function of `n` floats is to do: the arguments are `n` numbers and there is a cell for the result, or there is a reason for the
error. -/
inductive Does (F : FOps) (b : Build) (n : Nat) (f : List (BitVec 32) → BitVec 32) (free : Nat) (args : List (Arith.V b)) : Nat × Res × Reason → Prop
  | value : (∀ a ∈ args, a.isNumber = true) → args.length = n → floatCells b ≤ free →
      Does F b n f free args (free - floatCells b, .float (f (args.map (decAsFloat F))), .none)
  | memory : (∀ a ∈ args, a.isNumber = true) → args.length = n → free < floatCells b → Does F b n f free args (free, .merror, .none)
  | noNumber : (∃ a ∈ args, a.isNumber = false) → Does F b n f free args (free, .eerror, .noNumber)
  | numArgs : (∀ a ∈ args, a.isNumber = true) → args.length ≠ n → Does F b n f free args (free, .eerror, .numArgs)

/-- The number of arguments. -/
def Fn.arity : Fn → Nat
  | .atan2 => 2
  | .pow => 2
  | _ => 1

/-- A function of one float on lists. -/
def one (f : BitVec 32 → BitVec 32) (l : List (BitVec 32)) : BitVec 32 := f (l.getD 0 0)
/-- A function of two floats on lists. -/
def two (f : BitVec 32 → BitVec 32 → BitVec 32) (l : List (BitVec 32)) : BitVec 32 := f (l.getD 0 0) (l.getD 1 0)

/-- The function of the C library with the same name. -/
def Fn.meaning (L : Lib) : Fn → List (BitVec 32) → BitVec 32
  | .sin => one L.sinf
  | .cos => one L.cosf
  | .tan => one L.tanf
  | .asin => one L.asinf
  | .acos => one L.acosf
  | .atan => one L.atanf
  | .atan2 => two L.atan2f
  | .pow => two L.powf
  | .exp => one L.expf
  | .sqrt => one L.sqrtf
  | .log => one L.logf
  | .log10 => one L.log10f
  | .floor => one L.floorf
  | .ceil => one L.ceilf
  | .round => one L.roundf

/-! ### Proofs -/

theorem isNumberAll_iff : ∀ (args : List (Arith.V b)), isNumberAll args = true ↔ ∀ a ∈ args, a.isNumber = true := by
  intro args
  induction args with
  | nil => simp [isNumberAll]
  | cons v vs ih => cases hv : v.isNumber <;> simp [isNumberAll, hv, ih]

theorem not_all {args : List (Arith.V b)} (h : isNumberAll args = false) : ∃ a ∈ args, a.isNumber = false := by
  apply Classical.byContradiction
  intro hn
  have : isNumberAll args = true := (isNumberAll_iff args).mpr (fun a ha => by
    cases hv : a.isNumber with
    | true => rfl
    | false => exact absurd ⟨a, ha, hv⟩ hn)
  rw [h] at this; cases this

theorem encFloat_some {free : Nat} (x : BitVec 32) (h : floatCells b ≤ free) : encFloat b free x = (free - floatCells b, .float x) := by
  cases b with
  | b32 => simp only [floatCells] at h; have : free ≠ 0 := by omega
           simp [encFloat, cons, this, floatCells]
  | b64 => simp [encFloat, floatCells]

theorem encFloat_none {free : Nat} (x : BitVec 32) (h : free < floatCells b) : encFloat b free x = (free, .merror) := by
  cases b with
  | b32 => simp only [floatCells] at h; have : free = 0 := by omega
           simp [encFloat, cons, this]
  | b64 => simp [floatCells] at h

theorem fun1_does (F : FOps) (f : BitVec 32 → BitVec 32) (free : Nat) (args : List (Arith.V b)) : Does F b 1 (one f) free args (fun1 F f free args) := by
  unfold fun1 checkArgnNumber
  cases hn : isNumberAll args with
  | false => exact .noNumber (not_all hn)
  | true =>
    have hall := (isNumberAll_iff args).mp hn
    by_cases hl : args.length = 1
    · obtain ⟨a, rfl⟩ := List.length_eq_one_iff.mp hl
      simp only [Bool.not_true, Bool.false_eq_true, if_false, List.length_singleton, ne_eq, not_true_eq_false]
      by_cases hf : floatCells b ≤ free
      · rw [encFloat_some _ hf]; exact .value hall rfl hf
      · rw [encFloat_none _ (by omega)]; exact .memory hall rfl (by omega)
    · simp only [Bool.not_true, Bool.false_eq_true, if_false, ne_eq, hl, not_false_eq_true, if_true]
      exact .numArgs hall hl

theorem fun2_does (F : FOps) (f : BitVec 32 → BitVec 32 → BitVec 32) (free : Nat) (args : List (Arith.V b)) : Does F b 2 (two f) free args (fun2 F f free args) := by
  unfold fun2 checkArgnNumber
  cases hn : isNumberAll args with
  | false => exact .noNumber (not_all hn)
  | true =>
    have hall := (isNumberAll_iff args).mp hn
    by_cases hl : args.length = 2
    · obtain ⟨a, c, rfl⟩ : ∃ a c, args = [a, c] := by
        match args, hl with
        | [a, c], _ => exact ⟨a, c, rfl⟩
      simp only [Bool.not_true, Bool.false_eq_true, if_false, List.length_cons, List.length_nil, ne_eq, not_true_eq_false]
      by_cases hf : floatCells b ≤ free
      · rw [encFloat_some _ hf]; exact .value hall rfl hf
      · rw [encFloat_none _ (by omega)]; exact .memory hall rfl (by omega)
    · simp only [Bool.not_true, Bool.false_eq_true, if_false, ne_eq, hl, not_false_eq_true, if_true]
      exact .numArgs hall hl

/-- **C142**, functions with a fixed number of arguments: the value of the C function for the arguments as floats, in order; without memory a memory error; an
error with its reason for anything else. -/
theorem C142_functions (F : FOps) (L : Lib) (free : Nat) (args : List (Arith.V b)) (fn : Fn) :
    Does F b fn.arity (fn.meaning L) free args (call F L free args fn) := by
  cases fn <;> first | exact fun1_does _ _ _ _ | exact fun2_does _ _ _ _

/-- The two outcomes of the loop. -/
theorem convLoop_spec (F : FOps) (conv : BitVec 32 → BitVec 32) : ∀ (rargs : List (Arith.V b)) (free : Nat) (xs : List (BitVec 32)),
    ((floatCells b + 1) * rargs.length ≤ free → convLoop F conv free (ofList xs) rargs =
      (free - (floatCells b + 1) * rargs.length, ofList ((rargs.map (fun a => conv (decAsFloat F a))).reverse ++ xs))) ∧
    (free < (floatCells b + 1) * rargs.length → convLoop F conv free (ofList xs) rargs = (0, .merror)) := by
  -- without a free cell everything ends in an error
  have h0 : ∀ (rargs : List (Arith.V b)), convLoop F conv 0 .merror rargs = (0, .merror) := by
    intro rargs
    induction rargs with
    | nil => rfl
    | cons a rs ih =>
      simp only [convLoop]
      have : (encFloat b 0 (conv (decAsFloat F a))).1 = 0 := by cases b <;> simp [encFloat, cons]
      rw [this]; simpa [cons] using ih
  intro rargs
  induction rargs with
  | nil => intro free xs; simp [convLoop]
  | cons a rs ih =>
    intro free xs
    have hmul : (floatCells b + 1) * (a :: rs).length = (floatCells b + 1) * rs.length + (floatCells b + 1) := by
      rw [List.length_cons, Nat.mul_add, Nat.mul_one]
    simp only [convLoop]
    by_cases hf : floatCells b + 1 ≤ free
    · rw [encFloat_some _ (by omega)]
      have hne : free - floatCells b ≠ 0 := by omega
      have hc : cons (free - floatCells b) (.float (conv (decAsFloat F a))) (ofList xs) =
          (free - floatCells b - 1, ofList (conv (decAsFloat F a) :: xs)) := by simp [cons, hne, ofList]
      simp only [hc]
      obtain ⟨i1, i2⟩ := ih (free - floatCells b - 1) (conv (decAsFloat F a) :: xs)
      rw [hmul]
      constructor
      · intro h
        rw [i1 (by omega)]
        simp only [List.map_cons, List.reverse_cons, List.append_assoc, List.singleton_append, Prod.mk.injEq, and_true]
        omega
      · intro h
        exact i2 (by omega)
    · rw [hmul]
      refine ⟨fun h => by omega, fun _ => ?_⟩
      by_cases hg : floatCells b ≤ free
      · rw [encFloat_some _ hg]
        have : free - floatCells b = 0 := by omega
        simp only [this, cons, if_true]; exact h0 rs
      · rw [encFloat_none _ (by omega)]
        have : free = 0 := by cases b <;> simp [floatCells] at hg ⊢ <;> omega
        simp only [this, cons, if_true]; exact h0 rs

/-- **C142**, `deg2rad` and `rad2deg`: one number is converted; of any other number of numbers the result is the list of all converted numbers in order, and when the
heap has too few cells, a memory error, never a part of the list or a list with an error in it. -/
theorem C142_convert (F : FOps) (conv : BitVec 32 → BitVec 32) (free : Nat) (args : List (Arith.V b)) :
    (args.length = 1 → Does F b 1 (one conv) free args (convert F conv free args)) ∧
    (args.length ≠ 1 → (∀ a ∈ args, a.isNumber = true) → (floatCells b + 1) * args.length ≤ free →
      convert F conv free args = (free - (floatCells b + 1) * args.length, ofList (args.map (fun a => conv (decAsFloat F a))), .none)) ∧
    (args.length ≠ 1 → (∀ a ∈ args, a.isNumber = true) → free < (floatCells b + 1) * args.length → convert F conv free args = (0, .merror, .none)) ∧
    ((∃ a ∈ args, a.isNumber = false) → convert F conv free args = (free, .eerror, .noNumber)) := by
  have hspec := convLoop_spec F conv args.reverse free []
  have hlist : args.length ≠ 1 → (∀ a ∈ args, a.isNumber = true) →
      convert F conv free args = ((convLoop F conv free .nil args.reverse).1, (convLoop F conv free .nil args.reverse).2, .none) := by
    intro h1 hall
    unfold convert checkNumberAll
    rw [(isNumberAll_iff args).mpr hall]
    match args, h1 with
    | [], _ => rfl
    | [a], h1 => exact absurd rfl h1
    | a :: c :: as, _ => rfl
  refine ⟨fun h1 => ?_, fun h1 hall hf => ?_, fun h1 hall hf => ?_, fun hex => ?_⟩
  · obtain ⟨a, rfl⟩ := List.length_eq_one_iff.mp h1
    unfold convert checkNumberAll
    cases hn : isNumberAll [a] with
    | false => exact .noNumber (not_all hn)
    | true =>
      have hall := (isNumberAll_iff [a]).mp hn
      simp only [Bool.not_true, Bool.false_eq_true, if_false]
      by_cases hf : floatCells b ≤ free
      · rw [encFloat_some _ hf]; exact .value hall rfl hf
      · rw [encFloat_none _ (by omega)]; exact .memory hall rfl (by omega)
  · rw [hlist h1 hall]
    have h := hspec.1 (by simpa using hf)
    simp only [ofList] at h
    rw [h]
    simp
  · rw [hlist h1 hall]
    have h := hspec.2 (by simpa using hf)
    simp only [ofList] at h
    rw [h]
  · unfold convert checkNumberAll
    have : isNumberAll args = false := by
      cases hn : isNumberAll args with
      | false => rfl
      | true =>
        obtain ⟨a, ha, hf⟩ := hex
        rw [(isNumberAll_iff args).mp hn a ha] at hf; cases hf
    rw [this]; rfl

/-- Two floats on 32 bits need four cells; with three the result is a memory error. -/
example : convert (b := .b32) noFpu (fun x => x + 1) 5 [.num (.float 7), .num (.float 8)] = (1, .cons (.float 8) (.cons (.float 9) .nil), .none) ∧
    convert (b := .b32) noFpu (fun x => x + 1) 3 [.num (.float 7), .num (.float 8)] = (0, .merror, .none) ∧
    convert (b := .b64) noFpu (fun x => x + 1) 2 [.num (.float 7), .num (.float 8)] = (0, .cons (.float 8) (.cons (.float 9) .nil), .none) ∧
    convert (b := .b64) noFpu (fun x => x + 1) 2 [.num (.float 7), .sym 3] = (2, .eerror, .noNumber) := by decide +kernel

/-- A library in which each function adds another number; `powf` subtracts. -/
def demoLib : Lib where
  sinf x := x + 1
  cosf x := x + 2
  tanf x := x + 3
  asinf x := x + 4
  acosf x := x + 5
  atanf x := x + 6
  atan2f x y := x + 2 * y
  powf x y := x - y
  expf x := x + 7
  sqrtf x := x + 8
  logf x := x + 9
  log10f x := x + 10
  floorf x := x + 11
  ceilf x := x + 12
  roundf x := x + 13

example : call (b := .b32) noFpu demoLib 1 [.num (.float 9), .num (.float 4)] .pow = (0, .float 5, .none) ∧
    call (b := .b32) noFpu demoLib 0 [.num (.float 9)] .sqrt = (0, .merror, .none) ∧
    call (b := .b64) noFpu demoLib 0 [.num (.float 9)] .sqrt = (0, .float 17, .none) ∧
    call (b := .b64) noFpu demoLib 0 [.num (.float 9)] .pow = (0, .eerror, .numArgs) ∧
    call (b := .b64) noFpu demoLib 0 [.other] .pow = (0, .eerror, .noNumber) := by decide +kernel

end Verif.MathExt
