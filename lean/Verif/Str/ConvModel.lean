import Verif.Str.Model
import Verif.Print.Model

/-!
# String extensions: numbers and text, to-str

`str-from-n` without a format, `str-to-i`, `to-str` and `to-str-delim` (string_extensions.c).
-/

namespace Verif.Str

open Verif.Val (Build payload)
open Verif.Arith (Num V FOps decAsU32 decAsI32 symMERROR)

section
variable {b : Build} (F : FOps) {S : Type} (A : Alloc S)

/-- `ext_str_from_n` (string_extensions.c:62-108) without a format; `%g` is a parameter.  `buffer` has 100
bytes, of which `snprintf` writes at most 99 and a zero. -/
def strFromN (fmtG : Num b → List Byte) (s : S) (args : List (Arg b)) : Option (Arg b) :=
  match args with
  | [x] =>
    match x with
    | .v (.num n) =>
      let t :=
        match n with
        | .float _ => fmtG n
        | .double _ => fmtG n
        | n => Print.intText (decAsI32 F (.num n)).toInt
      let buffer := t.take 99 ++ [0]
      let len := min t.length 100
      match A.arr s (len + 1) with
      | none => merror
      | some _ => (memcpy (zeros (len + 1)) 0 buffer len).bind fun d => (writeAt d len [0]).map .arr
    | _ => terror
  | _ => eerror

/-- `isspace` in the C locale. -/
def isspace (x : Byte) : Bool := decide (x.toNat = 32 ∨ 9 ≤ x.toNat ∧ x.toNat ≤ 13)

/-- The value of a digit, at least 36 for other characters. -/
def digitVal (x : Byte) : Nat :=
  if 48 ≤ x.toNat ∧ x.toNat ≤ 57 then x.toNat - 48
  else if 97 ≤ x.toNat ∧ x.toNat ≤ 122 then x.toNat - 87
  else if 65 ≤ x.toNat ∧ x.toNat ≤ 90 then x.toNat - 55
  else 36

/-- The digits at the beginning of a text. -/
def digitsVal (base : Nat) : List Byte → Nat → Nat
  | x :: t, acc => if digitVal x < base then digitsVal base t (acc * base + digitVal x) else acc
  | [], acc => acc

/-- The base that `strtol` uses and the text behind the prefix. -/
def baseOf (base : Nat) (c : List Byte) : Nat × List Byte :=
  match c with
  | 48 :: x :: d :: t =>
    if (base = 0 ∨ base = 16) ∧ (x = 120 ∨ x = 88) ∧ digitVal d < 16 then (16, d :: t)
    else if base = 0 then (8, c) else (base, c)
  | 48 :: _ => if base = 0 then (8, c) else (base, c)
  | _ => if base = 0 then (10, c) else (base, c)

/-- The sign. -/
def signOf (c : List Byte) : Bool × List Byte :=
  match c with
  | 45 :: t => (true, t)
  | 43 :: t => (false, t)
  | _ => (false, c)

/-- `strtol` of the C string `c`, with a `long` of `w` bits. -/
def strtol (w : Nat) (c : List Byte) (base : Int) : Int :=
  if base < 0 ∨ base = 1 ∨ base > 36 then 0
  else
    let s := signOf (c.dropWhile isspace)
    let p := baseOf base.toNat s.2
    let v : Int := digitsVal p.1 p.2 0
    max (-2 ^ (w - 1)) (min (2 ^ (w - 1) - 1) (if s.1 then -v else v))

/-- `ext_str_to_i` (string_extensions.c:188-208); `ok` says whether a cell is available for `lbm_enc_i32`
on 32-bit builds.  A `long` has the width of a word. -/
def strToI (ok : Bool) (args : List (Arg b)) : Option (Arg b) :=
  match args with
  | [x] => go x none
  | [x, n] => go x (some n)
  | _ => eerror
where
  go (x : Arg b) (n? : Option (Arg b)) : Option (Arg b) :=
    match decStr x with
    | none => terror
    | some d =>
      match n? with
      | none => fin d 0
      | some n => if n.isNumber then fin d (decAsU32 F n.val).toInt else terror
  fin (d : List Byte) (base : Int) : Option (Arg b) :=
    (cstr d).map fun c => .v (Arith.enc ok (.i32 (BitVec.ofInt 32 (strtol b.w c base))))

/-- `snprintf(buf + ofs, max, "%s…")` with the text `t`. -/
def snprintfAt (buf : List Byte) (ofs max : Nat) (t : List Byte) : Option (List Byte) :=
  if max = 0 then some buf else writeAt buf ofs (t.take (max - 1) ++ [0])

/-- The loop of `to_str` (string_extensions.c:485-511).  `pr` is the text of an argument: a printable string
itself (`lbm_value_is_printable_string`), for other values what `lbm_print_value` leaves in the buffer. -/
def toStrLoop (pr : Arg b → List Byte) (delim : List Byte) : List (Arg b) → Nat → List Byte → Option (Nat × List Byte)
  | [], ofs, buf => some (ofs, buf)
  | a :: t, ofs, buf =>
    let max := 300 - ofs - 1
    let text := if ofs = 0 then pr a else delim ++ pr a
    (snprintfAt buf ofs max text).bind fun buf =>
    toStrLoop pr delim t (if text.length ≥ max then ofs + max else ofs + text.length) buf

/-- `to_str` (string_extensions.c:478-523).  `junk` is what the memory that `lbm_malloc` returns contains,
`none` if it fails. -/
def toStr (pr : Arg b → List Byte) (delim : List Byte) (junk : Option (List Byte)) (s : S) (args : List (Arg b)) : Option (Arg b) :=
  match junk with
  | none => merror
  | some junk =>
    (toStrLoop pr delim args 0 junk).bind fun r =>
    match A.arr s (r.1 + 1) with
    | none => merror
    | some _ => (strncpy (zeros (r.1 + 1)) 0 r.2 (r.1 + 1)).map .arr

end

end Verif.Str
