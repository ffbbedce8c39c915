import Verif.Arith.Spec

/-!
# Byte buffers

Model of src/extensions/array_extensions.c: the typed accessors `bufset-*` and `bufget-*`,
`buflen`, `bufclear`, `bufcpy`, `bufset-bit` and `free`.

Byte arrays are numbered; what an array holds is a list of bytes, `none` after it has been freed
(`lbm_heap_array_valid`). Two arrays do not overlap (`Verif.Mem`). An access outside of the data of an array, and `memcpy` with overlapping regions, are the outcome `ub`.
-/

namespace Verif.Buf

open Verif.Val (Build payload)
open Verif.Arith (Num V FOps decAsU32 decAsI32 decAsFloat encI symNIL symTRUE symTERROR symEERROR symMERROR)

abbrev Byte := BitVec 8

/-- An argument: a number, symbol or other value, or a byte array (`const`: in constant memory). -/
inductive Arg (b : Build) where
  | v (x : V b)
  | arr (id : Nat) (const : Bool)

/-- `lbm_is_number` (heap.h:842-847). -/
def Arg.isNumber {b : Build} : Arg b → Bool
  | .v x => x.isNumber
  | .arr _ _ => false

/-- What the conversions see; no conversion is applied to an array. -/
def Arg.val {b : Build} : Arg b → V b
  | .v x => x
  | .arr _ _ => .other

/-- The arrays. -/
abbrev Mem := Nat → Option (List Byte)

def Mem.set (m : Mem) (id : Nat) (d : List Byte) : Mem := fun i => if i = id then some d else m i

/-- What an extension does: return a value, or undefined behaviour. -/
inductive Out (b : Build) where
  | ret (m : Mem) (r : V b)
  | ub

section
variable {b : Build} (F : FOps) (le : Nat)

/-- `lbm_is_array_rw` (heap.h:863-867) and the array header. -/
def rw (m : Mem) : Arg b → Option (Nat × List Byte)
  | .arr id false => (m id).map fun d => (id, d)
  | _ => none

/-- `lbm_is_array_r` (heap.h:858-861) and the array header. -/
def rd (m : Mem) : Arg b → Option (List Byte)
  | .arr id _ => m id
  | _ => none

/-- Is it the symbol `little-endian`, whose id is `le`? -/
def isLE : Arg b → Bool
  | .v (.sym n) => decide (n = le)
  | _ => false

/-- `decode_append_args` (array_extensions.c:103-129): the array, its data, the index and the byte order; or the error. -/
def decodeAppend (m : Mem) (args : List (Arg b)) : (Nat × List Byte × BitVec b.w × Bool × Arg b) ⊕ Nat :=
  match args with
  | [a, i, x] => go a i x true
  | [a, i, x, e] => go a i x (!isLE le e)
  | _ => .inr symEERROR
where
  go (a i x : Arg b) (be : Bool) : (Nat × List Byte × BitVec b.w × Bool × Arg b) ⊕ Nat :=
    match rw m a with
    | some (id, d) => if i.isNumber && x.isNumber then .inl (id, d, (decAsU32 F i.val).setWidth b.w, be, x) else .inr symTERROR
    | none => .inr symTERROR

/-- `data[i] = v`. -/
def put (d : List Byte) (i : BitVec b.w) (v : Byte) : Option (List Byte) :=
  if i.toNat < d.length then some (d.set i.toNat v) else none

/-- `(uint8_t)(value >> k)`. -/
def byteAt {w : Nat} (value : BitVec w) (k : Nat) : Byte := (value >>> k).setWidth 8

/-- `buffer_append_bytes` (array_extensions.c:131-174). The outer `none` is a write outside of the data, the inner one is the result false. Index arithmetic is modulo the word. -/
def appendBytes (d : List Byte) (be : Bool) (index : BitVec b.w) (nbytes : Nat) (value : BitVec b.w) : Option (Option (List Byte)) :=
  let last := index + BitVec.ofNat b.w (nbytes - 1)
  if last.toNat < d.length then
    match nbytes with
    | 1 => (put d index (byteAt value 0)).map some
    | 2 =>
      if be then ((put d (index + 1) (byteAt value 0)).bind fun d => put d index (byteAt value 8)).map some
      else ((put d index (byteAt value 0)).bind fun d => put d (index + 1) (byteAt value 8)).map some
    | 3 =>
      if be then
        ((put d (index + 2) (byteAt value 0)).bind fun d => (put d (index + 1) (byteAt value 8)).bind fun d => put d index (byteAt value 16)).map some
      else
        ((put d index (byteAt value 0)).bind fun d => (put d (index + 1) (byteAt value 8)).bind fun d => put d (index + 2) (byteAt value 16)).map some
    | _ =>
      if be then
        ((put d (index + 3) (byteAt value 0)).bind fun d => (put d (index + 2) (byteAt value 8)).bind fun d =>
          (put d (index + 1) (byteAt value 16)).bind fun d => put d index (byteAt value 24)).map some
      else
        ((put d index (byteAt value 0)).bind fun d => (put d (index + 1) (byteAt value 8)).bind fun d =>
          (put d (index + 2) (byteAt value 16)).bind fun d => put d (index + 3) (byteAt value 24)).map some
  else some none

/-- The element types. -/
inductive Elem where
  | i8 | i16 | i32 | u8 | u16 | u24 | u32
  deriving DecidableEq, Repr

/-- The number of bytes that the accessors pass. -/
def Elem.n : Elem → Nat
  | .i8 | .u8 => 1
  | .i16 | .u16 => 2
  | .u24 => 3
  | .i32 | .u32 => 4

/-- `(lbm_uint)lbm_dec_as_i32(x)` or `(lbm_uint)lbm_dec_as_u32(x)`. -/
def Elem.dec (e : Elem) (x : V b) : BitVec b.w :=
  match e with
  | .i8 | .i16 | .i32 => (decAsI32 F x).signExtend b.w
  | _ => (decAsU32 F x).setWidth b.w

/-- `array_extension_buffer_append_*` (array_extensions.c:176-292). -/
def bufset (e : Elem) (m : Mem) (args : List (Arg b)) : Out b :=
  match decodeAppend F le m args with
  | .inr err => .ret m (.sym err)
  | .inl (id, d, index, be, x) =>
    match appendBytes d be index e.n (e.dec F x.val) with
    | none => .ub
    | some none => .ret m (.sym symEERROR)
    | some (some d') => .ret (m.set id d') (.sym symTRUE)

/-- `decode_get_args` (array_extensions.c:354-379). -/
def decodeGet (m : Mem) (args : List (Arg b)) : (List Byte × BitVec b.w × Bool) ⊕ Nat :=
  match args with
  | [a, i] => go a i true
  | [a, i, e] => go a i (!isLE le e)
  | _ => .inr symEERROR
where
  go (a i : Arg b) (be : Bool) : (List Byte × BitVec b.w × Bool) ⊕ Nat :=
    match rd m a with
    | some d => if i.isNumber then .inl (d, (decAsU32 F i.val).setWidth b.w, be) else .inr symTERROR
    | none => .inr symTERROR

/-- `data[i]` as a word. -/
def get (d : List Byte) (i : BitVec b.w) : Option (BitVec b.w) := (d[i.toNat]?).map (·.setWidth b.w)

/-- `buffer_get_uint` (array_extensions.c:381-435). -/
def getUint (d : List Byte) (be : Bool) (index : BitVec b.w) (nbytes : Nat) : Option (Option (BitVec b.w)) :=
  let last := index + BitVec.ofNat b.w (nbytes - 1)
  if last.toNat < d.length then
    match nbytes with
    | 1 => (get d index).map some
    | 2 =>
      (get d index).bind fun x0 => (get d (index + 1)).bind fun x1 =>
        some (some (if be then x1 ||| x0 <<< 8 else x0 ||| x1 <<< 8))
    | 3 =>
      (get d index).bind fun x0 => (get d (index + 1)).bind fun x1 => (get d (index + 2)).bind fun x2 =>
        some (some (if be then x2 ||| x1 <<< 8 ||| x0 <<< 16 else x0 ||| x1 <<< 8 ||| x2 <<< 16))
    | 4 =>
      (get d index).bind fun x0 => (get d (index + 1)).bind fun x1 => (get d (index + 2)).bind fun x2 => (get d (index + 3)).bind fun x3 =>
        let c (x : BitVec b.w) : BitVec 32 := x.setWidth 32
        some (some (if be then (c x3 ||| c x2 <<< 8 ||| c x1 <<< 16 ||| c x0 <<< 24).setWidth b.w
          else (c x0 ||| c x1 <<< 8 ||| c x2 <<< 16 ||| c x3 <<< 24).setWidth b.w))
    | _ => some none
  else some none

/-- The conversions at the end of `array_extension_buffer_get_*` (array_extensions.c:439-553); `ok` says whether a cell is available for `lbm_enc_u32` on 32-bit builds. -/
def Elem.enc (ok : Bool) (e : Elem) (x : BitVec b.w) : V b :=
  match e with
  | .i8 => .num (encI ((x.setWidth 8).signExtend b.w))
  | .i16 => .num (encI ((x.setWidth 16).signExtend b.w))
  | .i32 => .num (encI ((x.setWidth 32).signExtend b.w))
  | .u8 => .num (encI ((x.setWidth 8).setWidth b.w))
  | .u16 => .num (encI ((x.setWidth 16).setWidth b.w))
  | .u24 => .num (encI ((x.setWidth 32).signExtend b.w))
  | .u32 => Arith.enc ok (.u32 (x.setWidth 32))

/-- `array_extension_buffer_get_*` (array_extensions.c:439-553). -/
def bufget (ok : Bool) (e : Elem) (m : Mem) (args : List (Arg b)) : Out b :=
  match decodeGet F le m args with
  | .inr err => .ret m (.sym err)
  | .inl (d, index, be) =>
    match getUint d be index e.n with
    | none => .ub
    | some none => .ret m (.sym symEERROR)
    | some (some x) => .ret m (e.enc ok x)

/-- `array_extension_buffer_length` (array_extensions.c:572-581). -/
def buflen (m : Mem) (args : List (Arg b)) : Out b :=
  match args with
  | [a] =>
    match rd m a with
    | some d => .ret m (.num (encI (BitVec.ofNat b.w d.length)))
    | none => .ret m (.sym symEERROR)
  | _ => .ret m (.sym symEERROR)

/-- `memset(data + start, v, len)`. -/
def memset (d : List Byte) (start : Nat) (v : Byte) (len : Nat) : Option (List Byte) :=
  if start + len ≤ d.length then some (d.take start ++ List.replicate len v ++ d.drop (start + len)) else none

/-- The value of an optional numeric argument; the outer `none` is a type error. -/
def optNum : List (Arg b) → Nat → Option (Option (BitVec 32))
  | args, i =>
    match args[i]? with
    | none => some none
    | some a => if a.isNumber then some (some (decAsU32 F a.val)) else none

/-- `array_extensions_bufclear` (array_extensions.c:584-627). -/
def bufclear (m : Mem) (args : List (Arg b)) : Out b :=
  if 1 ≤ args.length ∧ args.length ≤ 4 then
    match args[0]?.bind (rw m) with
    | none => .ret m (.sym symTERROR)
    | some (id, d) =>
      match optNum F args 1 with
      | none => .ret m (.sym symTERROR)
      | some c =>
        let byte : Byte := (c.getD 0).setWidth 8
        match optNum F args 2 with
        | none => .ret m (.sym symTERROR)
        | some st =>
          if st.all fun s => decide (s.toNat < d.length) then
            let start := st.getD 0
            let len : BitVec 32 := BitVec.ofNat 32 d.length - start
            match optNum F args 3 with
            | none => .ret m (.sym symTERROR)
            | some l =>
              let len := match l with
                | none => len
                | some l => if l.toNat ≤ len.toNat then l else len
              match memset d start.toNat byte len.toNat with
              | none => .ub
              | some d' => .ret (m.set id d') (.sym symTRUE)
          else .ret m (.sym symTERROR)
  else .ret m (.sym symEERROR)

/-- `memcpy(dst + i, src + j, len)`; the regions are in the same array if `same`. -/
def memcpy (dst : List Byte) (i : Nat) (src : List Byte) (j : Nat) (len : Nat) (same : Bool) : Option (List Byte) :=
  if i + len ≤ dst.length ∧ j + len ≤ src.length then
    if same && decide (i < j + len) && decide (j < i + len) then none
    else some (dst.take i ++ (src.drop j).take len ++ dst.drop (i + len))
  else none

/-- `array_extensions_bufcpy` (array_extensions.c:629-660). -/
def bufcpy (m : Mem) (args : List (Arg b)) : Out b :=
  match args with
  | [a1, s1, a2, s2, l] =>
    match rw m a1, rd m a2 with
    | some (id, d1), some d2 =>
      if s1.isNumber && s2.isNumber && l.isNumber then
        let start1 := decAsU32 F s1.val
        let start2 := decAsU32 F s2.val
        let len := decAsU32 F l.val
        if start1.toNat < d1.length ∧ start2.toNat < d2.length then
          let len := if d1.length - start1.toNat < len.toNat then BitVec.ofNat 32 d1.length - start1 else len
          let len := if d2.length - start2.toNat < len.toNat then BitVec.ofNat 32 d2.length - start2 else len
          let same := match a2 with
            | .arr id2 _ => decide (id2 = id)
            | _ => false
          match memcpy d1 start1.toNat d2 start2.toNat len.toNat same with
          | none => .ub
          | some d' => .ret (m.set id d') (.sym symTRUE)
        else .ret m (.sym symTRUE)
      else .ret m (.sym symTERROR)
    | _, _ => .ret m (.sym symTERROR)
  | _ => .ret m (.sym symEERROR)

/-- `array_extensions_bufset_bit` (array_extensions.c:662-686). -/
def bufsetBit (m : Mem) (args : List (Arg b)) : Out b :=
  match args with
  | [a, p, v] =>
    match rw m a with
    | some (id, d) =>
      if p.isNumber && v.isNumber then
        let pos := decAsU32 F p.val
        let bit : BitVec 32 := if decAsU32 F v.val ≠ 0 then 1 else 0
        let bytepos := pos.toNat / 8
        let bitpos := pos.toNat % 8
        match d[bytepos]? with
        | some x => .ret (m.set id (d.set bytepos ((x &&& (~~~ ((1 : BitVec 32) <<< bitpos)).setWidth 8) ||| (bit <<< bitpos).setWidth 8))) (.sym symTRUE)
        | none => .ret m (.sym symTRUE)
      else .ret m (.sym symTERROR)
    | none => .ret m (.sym symTERROR)
  | _ => .ret m (.sym symEERROR)

/-- `array_extension_unsafe_free_array` (array_extensions.c:86-101) and `lbm_heap_explicit_free_array` (heap.c), which succeeds for a valid array. -/
def free (m : Mem) (args : List (Arg b)) : Out b :=
  match args with
  | [a] =>
    match rw m a with
    | some (id, _) => .ret (fun i => if i = id then none else m i) (.sym symTRUE)
    | none => .ret m (.sym symTERROR)
  | _ => .ret m (.sym symEERROR)

end

end Verif.Buf
