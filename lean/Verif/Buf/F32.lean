import Verif.Buf.Model

/-!
# Byte buffers: `f32` elements

Model of `float_to_u` and `u_to_float` (array_extensions.c:291-333), of `bufset-f32` and of
`bufget-f32`. A float is its IEEE 754 bit pattern. Every finite float is a multiple of 2^-149, and so are the intermediate results of the two functions: a magnitude is
a natural number in units of 2^-149. Every floating point operation of C rounds its result to the nearest float (ties to even). The comparisons with the `double`
constants 1.5e-38 and 0.5 are exact.
-/

namespace Verif.Buf

open Verif.Val (Build payload)
open Verif.Arith (Num V FOps decAsU32 decAsFloat symTRUE symTERROR symEERROR)

/-- A float, decoded. -/
inductive Fl where
  | fin (neg : Bool) (n : Nat)
  | inf (neg : Bool)
  | nan

/-- The magnitude of a pattern without the sign, in units of 2^-149 (IEEE 754: an exponent field of 0 means no hidden bit). -/
def magOf (u : Nat) : Nat :=
  if u / 2 ^ 23 = 0 then u % 2 ^ 23 else (2 ^ 23 + u % 2 ^ 23) * 2 ^ (u / 2 ^ 23 - 1)

/-- The number with a given pattern (IEEE 754, binary32). -/
def decode (x : BitVec 32) : Fl :=
  let neg := decide (2 ^ 31 ≤ x.toNat)
  let u := x.toNat % 2 ^ 31
  if u / 2 ^ 23 = 255 then (if u % 2 ^ 23 = 0 then .inf neg else .nan) else .fin neg (magOf u)

/-- `a / b`, rounded to the nearest integer, ties to even. -/
def rne (a b : Nat) : Nat :=
  if 2 * (a % b) < b then a / b else if b < 2 * (a % b) then a / b + 1 else a / b + (a / b) % 2

/-- The pattern of the float nearest to `a / b` units; infinity if it is too large (IEEE 754, round to nearest). -/
def toBits (a b : Nat) : Nat :=
  let k := Nat.log2 (a / b)
  let r := if k ≤ 23 then rne a b else (k - 23) * 2 ^ 23 + rne a (b * 2 ^ (k - 23))
  if 255 * 2 ^ 23 ≤ r then 255 * 2 ^ 23 else r

/-- The result `a / b` units of a floating point operation, rounded. None of the operations below overflows. -/
def fl (a b : Nat) : Nat := magOf (toBits a b)

/-- `frexpf` of a magnitude: the significand (at least 0.5 and less than 1, 0 for 0) and the exponent. -/
def frexp (n : Nat) : Nat × Int :=
  if n = 0 then (0, 0) else (n * 2 ^ 149 / 2 ^ (Nat.log2 n + 1), (Nat.log2 n : Int) + 1 - 149)

/-- `ldexpf` of a magnitude: the pattern of `s * 2^e`. -/
def ldexp (s : Nat) (e : Int) : Nat :=
  if 0 ≤ e then toBits (s * 2 ^ e.toNat) 1 else toBits s (2 ^ (-e).toNat)

/-- 0.5f. -/
def half : Nat := 2 ^ 148

/-- `float_to_u` (array_extensions.c:291-314). For a NaN `frexpf` stores an unspecified number, `ue`. For an infinity the conversion to `uint32_t` is undefined
behaviour, the result `none`. The `double` 1.5e-38 is 5746858278247083 * 2^-178. -/
def floatToU (ue : Int) (x : BitVec 32) : Option (BitVec 32) :=
  match decode x with
  | .nan => some (((BitVec.ofInt 32 ue) &&& 0xFF) <<< 23)
  | .inf _ => none
  | .fin neg n =>
    let small : Bool := decide (n * 2 ^ 29 < 5746858278247083)
    let neg := !small && neg
    let n := if small then 0 else n
    let se := frexp n
    let ie : BitVec 32 × Int :=
      if half ≤ se.1 then (BitVec.ofNat 32 (fl (fl (fl (se.1 - half) 1 * 2) 1 * 8388608) 1 / 2 ^ 149), se.2 + 126) else (0, se.2)
    let res := (((BitVec.ofInt 32 ie.2) &&& 0xFF) <<< 23) ||| (ie.1 &&& 0x7FFFFF)
    some (if neg && decide (0 < se.1) then res ||| 1 <<< 31 else res)

/-- `u_to_float` (array_extensions.c:316-333). -/
def uToFloat (v : BitVec 32) : BitVec 32 :=
  let e : Nat := ((v >>> 23) &&& 0xFF).toNat
  let sigI : Nat := (v &&& 0x7FFFFF).toNat
  let neg := decide (v &&& (1 <<< 31) ≠ 0)
  let se : Nat × Int := if e ≠ 0 ∨ sigI ≠ 0 then (fl (fl (fl (sigI * 2 ^ 149) 1) (8388608 * 2) + half) 1, (e : Int) - 126) else (0, e)
  let r := BitVec.ofNat 32 (ldexp se.1 se.2)
  if neg then r ||| 1 <<< 31 else r

section
variable {b : Build} (F : FOps) (le : Nat)

/-- `array_extension_buffer_append_f32` (array_extensions.c:335-348). -/
def bufsetF32 (ue : Int) (m : Mem) (args : List (Arg b)) : Out b :=
  match decodeAppend F le m args with
  | .inr err => .ret m (.sym err)
  | .inl (id, d, index, be, x) =>
    match floatToU ue (decAsFloat F x.val) with
    | none => .ub
    | some u =>
      match appendBytes d be index 4 (u.setWidth b.w) with
      | none => .ub
      | some none => .ret m (.sym symEERROR)
      | some (some d') => .ret (m.set id d') (.sym symTRUE)

/-- `array_extension_buffer_get_f32` (array_extensions.c:554-569); `ok` says whether a cell is available for `lbm_enc_float` on 32-bit builds. -/
def bufgetF32 (ok : Bool) (m : Mem) (args : List (Arg b)) : Out b :=
  match decodeGet F le m args with
  | .inr err => .ret m (.sym err)
  | .inl (d, index, be) =>
    match getUint d be index 4 with
    | none => .ub
    | some none => .ret m (.sym symEERROR)
    | some (some x) => .ret m (Arith.enc ok (.float (uToFloat (x.setWidth 32))))

end

end Verif.Buf
