import Verif.Arith.Spec

/-!
# String extensions

Model of src/extensions/string_extensions.c.  A readable byte array is its contents; a `char *`
into an array is the part of the contents from there to the end of the array, so that reading
through an empty pointer is an access outside of the array.  An array without bytes has the data
pointer `NULL` (heap.c:1222-1231).

Every function returns an `Option`: `none` is undefined behaviour (an access outside of an array,
signed overflow) or a loop that does not end.  The extensions do not change their arguments.
-/

namespace Verif.Str

open Verif.Val (Build payload)
open Verif.Arith (Num V FOps decAsU32 decAsI32 decAsChar decAsIW encI symNIL symTERROR symEERROR symMERROR)

abbrev Byte := BitVec 8

/-- A value: a readable byte array, a cons cell, or a number, symbol or something else. -/
inductive Arg (b : Build) where
  | v (x : V b)
  | arr (d : List Byte)
  | cons (a d : Arg b)

/-- The heap and the memory as `lbm_create_array` and `lbm_cons` see them: what is left after an
array of `n` bytes or a cell has been allocated, `none` if that fails.  An array takes a cell
(heap.c:1243), and nothing is freed while an extension runs. -/
structure Alloc (S : Type) where
  arr : S → Nat → Option S
  cell : S → Option S
  needs : ∀ s n, cell s = none → arr s n = none

section
variable {b : Build} (F : FOps) {S : Type} (A : Alloc S)

/-- `lbm_is_number` (heap.h:842-847). -/
def Arg.isNumber : Arg b → Bool
  | .v x => x.isNumber
  | _ => false

/-- What the number conversions see; they are applied to numbers only. -/
def Arg.val : Arg b → V b
  | .v x => x
  | _ => .other

def nil : Arg b := .v (.sym symNIL)
def terror : Option (Arg b) := some (.v (.sym symTERROR))
def eerror : Option (Arg b) := some (.v (.sym symEERROR))
def merror : Option (Arg b) := some (.v (.sym symMERROR))

/-- `lbm_is_list` (heap.h:940-942). -/
def Arg.isList : Arg b → Bool
  | .cons _ _ => true
  | .v (.sym n) => decide (n = symNIL)
  | _ => false

/-- `dec_str_size` (string_extensions.c:51-60). -/
def decStrSize : Arg b → Option (List Byte)
  | .arr d => some d
  | _ => none

/-- `lbm_dec_str` (heap.c:231-239), not `NULL`. -/
def decStr : Arg b → Option (List Byte)
  | .arr [] => none
  | .arr d => some d
  | _ => none

/-! ## The C library and memory -/

/-- `strlen_max` (string_extensions.c:43-49). -/
def strlenMax : List Byte → Nat → Option Nat
  | _, 0 => some 0
  | [], _ + 1 => none
  | x :: t, n + 1 => if x = 0 then some 0 else (strlenMax t n).map (· + 1)

/-- The C string at a pointer, without the terminating zero. -/
def cstr : List Byte → Option (List Byte)
  | [] => none
  | x :: t => if x = 0 then some [] else (cstr t).map (x :: ·)

/-- `strlen`. -/
def strlen (s : List Byte) : Option Nat := (cstr s).map (·.length)

/-- `n` bytes at a pointer. -/
def readN (s : List Byte) (n : Nat) : Option (List Byte) := if n ≤ s.length then some (s.take n) else none

/-- Bytes written at an offset of an array. -/
def writeAt (buf : List Byte) (off : Nat) (d : List Byte) : Option (List Byte) :=
  if off + d.length ≤ buf.length then some (buf.take off ++ d ++ buf.drop (off + d.length)) else none

/-- `memcpy(buf + off, s, n)`. -/
def memcpy (buf : List Byte) (off : Nat) (s : List Byte) (n : Nat) : Option (List Byte) :=
  (readN s n).bind (writeAt buf off)

/-- The characters at `s` up to the first one for which `p` fails. -/
def spanLen (p : Byte → Bool) : List Byte → Option Nat
  | [] => none
  | x :: t => if p x then (spanLen p t).map (· + 1) else some 0

/-- `strspn`: how many characters at `s` are in the string `set`. -/
def strspn (s set : List Byte) : Option Nat := (cstr set).bind fun c => spanLen (fun x => decide (x ∈ c)) s

/-- `strcspn`: how many characters at `s` are neither in the string `set` nor the terminator. -/
def strcspn (s set : List Byte) : Option Nat := (cstr set).bind fun c => spanLen (fun x => !decide (x ∈ c) && x != 0) s

/-- Where a list of bytes first occurs in another. -/
def indexOf (n : List Byte) : List Byte → Option Nat
  | [] => if n = [] then some 0 else none
  | x :: t => if n.isPrefixOf (x :: t) then some 0 else (indexOf n t).map (· + 1)

/-- `strstr(hay, needle)` as an offset; the inner `none` is `NULL`. -/
def strstr (hay needle : List Byte) : Option (Option Nat) :=
  (cstr hay).bind fun h => (cstr needle).map fun n => indexOf n h

/-- What `strncpy` writes: the string at `s`, cut off or filled up with zeros to `n` bytes. -/
def strncpySrc : List Byte → Nat → Option (List Byte)
  | _, 0 => some []
  | [], _ + 1 => none
  | x :: t, n + 1 => if x = 0 then some (List.replicate (n + 1) 0) else (strncpySrc t n).map (x :: ·)

/-- `strncpy(buf + off, s, n)`. -/
def strncpy (buf : List Byte) (off : Nat) (s : List Byte) (n : Nat) : Option (List Byte) :=
  (strncpySrc s n).bind (writeAt buf off)

/-- `strcpy(buf + off, s)`. -/
def strcpy (buf : List Byte) (off : Nat) (s : List Byte) : Option (List Byte) :=
  (cstr s).bind fun c => writeAt buf off (c ++ [0])

/-- `strcmp`; of the result of the C library only the sign is specified. -/
def strcmp : List Byte → List Byte → Option Int
  | x :: s, y :: t => if x ≠ y then some ((x.toNat : Int) - y.toNat) else if x = 0 then some 0 else strcmp s t
  | _, _ => none

/-- `strncmp`. -/
def strncmp : List Byte → List Byte → Nat → Option Int
  | _, _, 0 => some 0
  | x :: s, y :: t, n + 1 => if x ≠ y then some ((x.toNat : Int) - y.toNat) else if x = 0 then some 0 else strncmp s t n
  | _, _, _ + 1 => none

/-- `toupper` and `tolower` in the C locale.  Simplification: C leaves the result undefined for a
negative `char`; here bytes from 128 are left as they are, as by the common C libraries. -/
def toupper (x : Byte) : Byte := if 97 ≤ x.toNat ∧ x.toNat ≤ 122 then x - 32 else x
def tolower (x : Byte) : Byte := if 65 ≤ x.toNat ∧ x.toNat ≤ 90 then x + 32 else x

/-- An array that `lbm_create_array` made (lbm_c_interop.c:255-257, heap.c:1204-1257): zeros. -/
def zeros (n : Nat) : List Byte := List.replicate n 0

/-- The result of an `int` operation; outside of the range it is undefined. -/
def cint (z : Int) : Option Int := if -2 ^ 31 ≤ z ∧ z < 2 ^ 31 then some z else none

/-! ## The extensions -/

/-- `ext_str_len` (string_extensions.c:537-547). -/
def strLen (args : List (Arg b)) : Option (Arg b) :=
  match args with
  | [x] =>
    match decStrSize x with
    | none => terror
    | some d => (strlenMax d d.length).map fun n => .v (.num (encI ((BitVec.ofNat 32 n).signExtend b.w)))
  | _ => eerror

/-- `ext_str_part` (string_extensions.c:223-262). -/
def strPart (s : S) (args : List (Arg b)) : Option (Arg b) :=
  match args with
  | [x, st] => go x st none
  | [x, st, n] => go x st (some n)
  | _ => terror
where
  go (x st : Arg b) (n? : Option (Arg b)) : Option (Arg b) :=
    if !st.isNumber then terror
    else
      match decStrSize x with
      | none => terror
      | some d =>
        (strlenMax d d.length).bind fun len0 =>
        let len := len0 % 2 ^ 32
        let start := (decAsU32 F st.val).toNat
        if len ≤ start then eerror
        else
          match n? with
          | none => fin d start (len - start)
          | some n => if !n.isNumber then terror else fin d start (min (decAsU32 F n.val).toNat (len - start))
  fin (d : List Byte) (start n : Nat) : Option (Arg b) :=
    let size := (n + 1) % 2 ^ 32
    match A.arr s size with
    | none => merror
    | some _ =>
      (memcpy (zeros size) 0 (d.drop start) n).bind fun buf => (writeAt buf n [0]).map .arr

/-- The first loop of `ext_str_join` (string_extensions.c:128-141): the length of the strings and
their number, modulo the word; the inner `none` is an element that is not an array. -/
def joinScan : Arg b → Nat → Nat → Option (Option (Nat × Nat))
  | .cons a d, len, cnt =>
    match decStrSize a with
    | some x => (strlenMax x x.length).bind fun n => joinScan d ((len + n) % 2 ^ b.w) ((cnt + 1) % 2 ^ b.w)
    | none => some none
  | _, len, cnt => some (some (len, cnt))

/-- The second loop of `ext_str_join` (string_extensions.c:164-181). -/
def joinCopy (delim : List Byte) (dl cnt : Nat) : Arg b → Nat → Nat → List Byte → Option (List Byte)
  | .cons (.arr x) d, i, off, buf =>
    (strlenMax x x.length).bind fun n =>
    (memcpy buf off x n).bind fun buf =>
    if i ≠ (cnt + 2 ^ b.w - 1) % 2 ^ b.w then
      (memcpy buf (off + n) delim dl).bind fun buf => joinCopy delim dl cnt d ((i + 1) % 2 ^ b.w) (off + n + dl) buf
    else joinCopy delim dl cnt d ((i + 1) % 2 ^ b.w) (off + n) buf
  | .cons _ _, _, _, _ => none
  | _, _, _, buf => some buf

/-- `ext_str_join` (string_extensions.c:111-186). -/
def strJoin (s : S) (args : List (Arg b)) : Option (Arg b) :=
  match args with
  | [l] => go l none
  | [l, d] => go l (some d)
  | _ => eerror
where
  go (l : Arg b) (delim? : Option (Arg b)) : Option (Arg b) :=
    if !l.isList then terror
    else
      (joinScan l 0 0).bind fun r =>
      match r with
      | none => terror
      | some (len, cnt) =>
        match delim? with
        | none => fin l [0] len cnt
        | some d =>
          match decStr d with
          | none => terror
          | some delim => fin l delim len cnt
  fin (l : Arg b) (delim : List Byte) (len cnt : Nat) : Option (Arg b) :=
    (strlen delim).bind fun dl =>
    let total := if cnt > 0 then (len + (cnt - 1) * dl) % 2 ^ b.w else len
    let size := (total + 1) % 2 ^ b.w
    match A.arr s size with
    | none => merror
    | some _ => (joinCopy delim dl cnt l 0 0 (zeros size)).bind fun buf => (writeAt buf total [0]).map .arr

/-- `while ((ind_now + step_now) > len) step_now--` (string_extensions.c:289-291). -/
def shrinkStep (ind len : Int) : Nat → Option Nat
  | 0 => some 0
  | n + 1 => (cint (ind + (n + 1 : Nat))).bind fun e => if e > len then shrinkStep ind len n else some (n + 1)

/-- `res = lbm_cons(tok, res)`; without a free cell that is the symbol of the memory error. -/
def consTok (s : S) (tok : List Byte) (res : Arg b) : S × Arg b :=
  match A.cell s with
  | none => (s, .v (.sym symMERROR))
  | some s' => (s', .cons (.arr tok) res)

/-- The loop of `ext_str_split` with a number (string_extensions.c:282-303), `k` is `i + 1`. -/
def splitStep (d : List Byte) (len : Int) (step : Nat) : Nat → S → Arg b → Option (Arg b)
  | 0, _, res => some res
  | k + 1, s, res =>
    (cint ((k : Int) * step)).bind fun ind =>
    if ind ≥ len then splitStep d len step k s res
    else
      (shrinkStep ind len step).bind fun n =>
      match A.arr s (n + 1) with
      | none => merror
      | some s =>
        (memcpy (zeros (n + 1)) 0 (d.drop ind.toNat) n).bind fun tok =>
        (writeAt tok n [0]).bind fun tok =>
        let r := consTok A s tok res
        splitStep d len step k r.1 r.2

/-- The loop of `ext_str_split` with a string (string_extensions.c:309-325); the number bounds the
number of rounds. -/
def splitChars (split : List Byte) : Nat → List Byte → S → Arg b → Option (Arg b)
  | 0, _, _, _ => none
  | fuel + 1, p, s, res =>
    (strspn p split).bind fun k =>
    let p := p.drop k
    match p with
    | [] => none
    | x :: _ =>
      if x = 0 then some res
      else
        (strcspn p split).bind fun n =>
        match A.arr s (n + 1) with
        | none => merror
        | some s =>
          (memcpy (zeros (n + 1)) 0 p n).bind fun tok =>
          (writeAt tok n [0]).bind fun tok =>
          let r := consTok A s tok res
          splitChars split fuel (p.drop n) r.1 r.2

/-- The loop of `lbm_list_destructive_reverse` (heap.c:1107-1122) on a list of fresh cells. -/
def reverseLoop : Arg b → Arg b → Arg b
  | .cons a d, last => reverseLoop d (.cons a last)
  | _, last => last

/-- `lbm_list_destructive_reverse` (heap.c:1107-1122). -/
def reverse : Arg b → Arg b
  | .v (.sym n) => .v (.sym n)
  | l => reverseLoop l nil

/-- `ext_str_split` (string_extensions.c:264-327). -/
def strSplit (s : S) (args : List (Arg b)) : Option (Arg b) :=
  match args with
  | [x, sp] =>
    match decStrSize x with
    | none => terror
    | some d =>
      match decStr sp with
      | none =>
        if sp.isNumber then
          let step := (max (decAsI32 F sp.val).toInt 1).toNat
          (strlenMax d d.length).bind fun len0 =>
          let len := (BitVec.ofNat 32 len0).toInt
          splitStep A d len step (Int.tdiv len step + 1).toNat s nil
        else terror
      | some split => (splitChars A split (d.length + 1) d s nil).map fun r => reverse r
  | _ => eerror

/-- The loop of `ext_str_replace` that counts (string_extensions.c:372-374). -/
def countOcc (rep : List Byte) (lr : Nat) : Nat → List Byte → Nat → Option Nat
  | 0, _, _ => none
  | fuel + 1, ins, count =>
    (strstr ins rep).bind fun r =>
    match r with
    | none => some count
    | some k => countOcc rep lr fuel (ins.drop (k + lr)) (count + 1)

/-- The loop of `ext_str_replace` that copies (string_extensions.c:390-397), `off` is `tmp`. -/
def replaceLoop (rep wth : List Byte) (lr lw : Nat) : Nat → List Byte → Nat → List Byte → Option (List Byte)
  | 0, orig, off, buf => strcpy buf off orig
  | count + 1, orig, off, buf =>
    (strstr orig rep).bind fun r =>
    r.bind fun front =>
    (strncpy buf off orig front).bind fun buf =>
    (strncpy buf (off + front) wth lw).bind fun buf =>
    replaceLoop rep wth lr lw count (orig.drop (front + lr)) (off + front + lw) buf

/-- `ext_str_replace` (string_extensions.c:330-400).  Simplification: `count` does not overflow, it
is at most the length of an array. -/
def strReplace (s : S) (args : List (Arg b)) : Option (Arg b) :=
  match args with
  | [o, r] => go o r none
  | [o, r, w] => go o r (some w)
  | _ => eerror
where
  go (o r : Arg b) (w? : Option (Arg b)) : Option (Arg b) :=
    match decStrSize o with
    | none => terror
    | some orig =>
      match decStrSize r with
      | none => terror
      | some rep =>
        match w? with
        | none => fin o orig rep [0] 0
        | some w =>
          match decStrSize w with
          | none => terror
          | some wth => fin o orig rep wth wth.length
  fin (o : Arg b) (orig rep wth : List Byte) (wsize : Nat) : Option (Arg b) :=
    (strlenMax rep rep.length).bind fun lr =>
    if lr = 0 then some o
    else
      (strlenMax wth wsize).bind fun lw =>
      (countOcc rep lr (orig.length + 1) orig 0).bind fun count =>
      (strlenMax orig orig.length).bind fun lo =>
      let size := (((lo : Int) + ((lw : Int) - lr) * count + 1) % 2 ^ b.w).toNat
      match A.arr s size with
      | none => merror
      | some _ => (replaceLoop rep wth lr lw count orig 0 (zeros size)).map .arr

/-- The loop of `change_case` (string_extensions.c:421-427), `i` bytes are done. -/
def caseLoop (f : Byte → Byte) (d : List Byte) : Nat → Nat → List Byte → Option (List Byte)
  | 0, _, buf => some buf
  | k + 1, i, buf => (d[i]?).bind fun x => (writeAt buf i [f x]).bind fun buf => caseLoop f d k (i + 1) buf

/-- `change_case` (string_extensions.c:402-433). -/
def changeCase (s : S) (upper : Bool) (args : List (Arg b)) : Option (Arg b) :=
  match args with
  | [x] =>
    match decStrSize x with
    | none => terror
    | some d =>
      (strlenMax d d.length).bind fun len =>
      match A.arr s (len + 1) with
      | none => merror
      | some _ =>
        (caseLoop (if upper then toupper else tolower) d len 0 (zeros (len + 1))).bind fun buf => (writeAt buf len [0]).map .arr
  | _ => eerror

/-- `lbm_enc_i` of an `int`. -/
def encInt (z : Int) : Arg b := .v (.num (encI (BitVec.ofInt b.w z)))

/-- `ext_str_cmp` (string_extensions.c:443-475). -/
def strCmp (args : List (Arg b)) : Option (Arg b) :=
  match args with
  | [x, y] => go x y none
  | [x, y, n] => go x y (some n)
  | _ => eerror
where
  go (x y : Arg b) (n? : Option (Arg b)) : Option (Arg b) :=
    match decStr x with
    | none => terror
    | some s1 =>
      match decStr y with
      | none => terror
      | some s2 =>
        match n? with
        | none => fin s1 s2 (-1)
        | some n => if !n.isNumber then terror else fin s1 s2 (decAsI32 F n.val).toInt
  fin (s1 s2 : List Byte) (n : Int) : Option (Arg b) :=
    if n > 0 then (strncmp s1 s2 n.toNat).map encInt else (strcmp s1 s2).map encInt

/-- `ext_str_replicate` (string_extensions.c:549-577).  The size `len + 1` is computed in 32 bits. -/
def strReplicate (s : S) (args : List (Arg b)) : Option (Arg b) :=
  match args with
  | [n, c] =>
    if n.isNumber && c.isNumber then
      let len := (decAsU32 F n.val).toNat
      let size := (len + 1) % 2 ^ 32
      match A.arr s size with
      | none => merror
      | some _ =>
        (writeAt (zeros size) 0 (List.replicate len (decAsChar F c.val))).bind fun buf => (writeAt buf len [0]).map .arr
    else terror
  | _ => eerror

/-! ### str-find -/

/-- `ci_strncmp` (string_extensions.c:579-588). -/
def ciStrncmp : List Byte → List Byte → Nat → Option Bool
  | _, _, 0 => some true
  | x :: s, y :: t, n + 1 => if tolower x ≠ tolower y then some false else ciStrncmp s t n
  | _, _, _ + 1 => none

/-- `memcmp(s, t, n) == 0`. -/
def memcmpEq (s t : List Byte) (n : Nat) : Option Bool :=
  (readN s n).bind fun x => (readN t n).map fun y => decide (x = y)

/-- The loop over the list of substrings before the search (string_extensions.c:624-644); the inner
`none` is an element that is not an array. -/
def minSub : Arg b → Int → Option Int
  | .cons (.arr x) d, m => if (x.length : Int) - 1 < 0 then minSub d m else minSub d (if (x.length : Int) - 1 < m then x.length - 1 else m)
  | .cons _ _, _ => none
  | _, m => some m

/-- What the loop over the arguments finds (string_extensions.c:658-674). -/
structure Opts where
  nums : List Int := []
  right : Bool := true
  cs : Bool := true

def scanOpts (symLeft symNocase : Nat) : List (Arg b) → Opts → Opts
  | [], o => o
  | a :: t, o =>
    let o := if a.isNumber && decide (o.nums.length < 2) then { o with nums := o.nums ++ [(BitVec.setWidth 32 (decAsIW F a.val)).toInt] } else o
    let o :=
      match a with
      | .v (.sym n) => if n = symLeft then { o with right := false } else if n = symNocase then { o with cs := false } else o
      | _ => o
    scanOpts symLeft symNocase t o

/-- The inner loop of the search (string_extensions.c:700-722) at index `i`: found, or the number of
occurrences that are left. -/
def findAt (str : List Byte) (cs : Bool) (i : Nat) : Arg b → Nat → Option (Option Nat)
  | .cons (.arr x) d, occ =>
    if (i : Int) > (str.length : Int) - ((x.length : Int) - 1) ∨ (x.length : Int) - 1 < 0 then findAt str cs i d occ
    else
      (if cs then memcmpEq (str.drop i) x (x.length - 1) else ciStrncmp (str.drop i) x (x.length - 1)).bind fun eq =>
      if eq then if occ = 0 then some none else findAt str cs i d (occ - 1)
      else findAt str cs i d occ
  | .cons _ _, _ => none
  | _, occ => some (some occ)

/-- The search to the right (string_extensions.c:699-723): `k` indexes from `i` are left. -/
def findRight (str : List Byte) (cs : Bool) (subs : Arg b) : Nat → Nat → Nat → Option Int
  | 0, _, _ => some (-1)
  | k + 1, i, occ =>
    (findAt str cs i subs occ).bind fun r =>
    match r with
    | none => some i
    | some occ => findRight str cs subs k (i + 1) occ

/-- The search to the left: the indexes below `k` are left. -/
def findLeft (str : List Byte) (cs : Bool) (subs : Arg b) : Nat → Nat → Option Int
  | 0, _ => some (-1)
  | k + 1, occ =>
    (findAt str cs k subs occ).bind fun r =>
    match r with
    | none => some k
    | some occ => findLeft str cs subs k occ

/-- `ext_str_find` (string_extensions.c:595-726). Simplification: sizes of arrays are below
`LBM_INT_MAX / 2`, index arithmetic does not overflow. -/
def strFind (symLeft symNocase : Nat) (s : S) (args : List (Arg b)) : Option (Arg b) :=
  match args with
  | x :: y :: rest =>
    if 4 < rest.length then eerror
    else
      match decStrSize x with
      | none => terror
      | some str =>
        match y with
        | .arr sub =>
          match A.cell s with
          | none => merror
          | some _ =>
            if (sub.length : Int) - 1 < 0 then some (encInt (-1)) else search str (.cons y nil) (sub.length - 1) args
        | _ =>
          if y.isList then
            match minSub y (2 ^ (b.w - 1) - 1) with
            | none => terror
            | some m => search str y m args
          else terror
  | _ => eerror
where
  search (str : List Byte) (subs : Arg b) (min : Int) (args : List (Arg b)) : Option (Arg b) :=
    let o := scanOpts F symLeft symNocase args {}
    let size : Int := str.length
    let start : Int := if o.right then 0 else size - min
    let start := o.nums[0]?.getD start
    let occ := ((o.nums[1]?.getD 0) % 2 ^ 32).toNat
    let start := if start < 0 then size - 1 + start else start
    let start := if !o.right && start > size - min then size - min else if o.right && start < 0 then 0 else start
    (if o.right then findRight str o.cs subs (size - min - start + 1).toNat start.toNat occ
      else findLeft str o.cs subs (start + 1).toNat occ).map encInt

end

end Verif.Str
