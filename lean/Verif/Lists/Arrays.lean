import Verif.Lists.Props

/-
Model of the functions on arrays of values: `mkarray`, `ix`, `setix`, `array-to-list`, `list-to-array` (`src/fundamental.c`, `src/heap.c`), over the heap of
`Verif.Heap.Model`, where the elements of an array are part of its cell.

Simplifications:
* `lbm_malloc` is a parameter: the addresses of the two blocks, or failure (the allocator itself is treated in `Verif.Mem`).
* Indices are integers in the range of `int32_t`, so that decoding them as `uint32_t` is reduction modulo `2 ^ 32`.
* One attempt: the evaluator collects and repeats when the result is an out of memory error.
* `none` is undefined behaviour (or no more fuel).
-/

namespace Verif.Lists
open Verif.Heap Verif.Env

/-- `ENC_SYM_EERROR`. -/
def eerror : Val := .sym 0x22

/-- `lbm_heap_allocate_lisp_array`, `src/heap.c:1204-1256, 1262-1264`, in the build with `w` bit words. The size in bytes is a word. -/
def allocLispArray (w : Nat) (h : Heap) (hdr data : Option Nat) (n : Nat) : Heap × Val :=
  let size := w / 8 * n % 2 ^ w
  match hdr with
  | none => (h, merror)
  | some a =>
    if 0 < size then
      match data with
      | none => (h, merror)
      | some d => allocateCell h .lispArray (.lispArr a d (List.replicate (size / (w / 8)) nil))
    else allocateCell h .lispArray (.lispArr a 0 [])

/-- `fundamental_mkarray`, `src/fundamental.c:1331-1338`, for one number, given as the `uint32_t` it is decoded to. -/
def fMkArray (w : Nat) (h : Heap) (hdr data : Option Nat) (n : Nat) : Heap × Val := allocLispArray w h hdr data n

/-- The data of the array that a value of array type (`lbm_is_lisp_array_r`, `include/heap.h:869-872`) refers to. -/
def arrData (h : Heap) (v : Val) : Option (List Val) :=
  match contentOf h v with
  | some (.lispArr _ _ es) => some es
  | _ => none

/-- `fundamental_ix`, `src/fundamental.c:959-976`, for a number as index. -/
def fIx (f : Nat) (h : Heap) (v : Val) (n : Int) : Option Val :=
  if isList v then indexList f h v n
  else
    match v with
    | .ptr .lispArray _ _ =>
      match arrData h v with
      | none => none
      | some es => some (es.getD (n % 2 ^ 32).toNat eerror)
    | _ => some eerror

/-- `fundamental_set_ix`, `src/fundamental.c:848-886`, for a number as index. -/
def fSetIxAny (f : Nat) (h : Heap) (v : Val) (n : Int) (val : Val) : Option (Heap × Val) :=
  if isListRW v then fSetIx f h v n val
  else
    match v with
    | .ptr .lispArray false i =>
      match (h.cells i).content with
      | .lispArr a d es =>
        if (n % 2 ^ 32).toNat < es.length then
          some (h.setCell i { h.cells i with content := .lispArr a d (es.set (n % 2 ^ 32).toNat val) }, v)
        else some (h, terror)
      | _ => none
    | _ => some (h, terror)

/-- The loop of `fundamental_array_to_list`, `src/fundamental.c:1351-1355`. -/
def fillLoop (h : Heap) (curr : Val) : List Val → Option Heap
  | [] => if isCons curr then none else some h
  | e :: es => if isCons curr then fillLoop (setCar h curr e).1 (cdr h curr) es else some h

/-- `fundamental_array_to_list`, `src/fundamental.c:1340-1358`. -/
def fArrayToList (h : Heap) (v : Val) : Option (Heap × Val) :=
  match v with
  | .ptr .lispArray _ _ =>
    match arrData h v with
    | none => none
    | some es =>
      match allocateList h es.length with
      | none => none
      | some (h1, res) =>
        if isSymbol res then some (h1, res)
        else
          match fillLoop h1 res es with
          | none => none
          | some h2 => some (h2, res)
  | _ => some (h, terror)

/-- The loop of `fundamental_list_to_array`, `src/fundamental.c:1372-1376`, on the data of the array. -/
def storeLoop (h : Heap) : Nat → Val → Nat → List Val → Option (List Val)
  | 0, _, _, _ => none
  | f + 1, curr, ix, es =>
    if isCons curr then
      if ix < es.length then storeLoop h f (cdr h curr) (ix + 1) (es.set ix (car h curr)) else none
    else some es

/-- `fundamental_list_to_array`, `src/fundamental.c:1360-1382`. -/
def fListToArray (w f : Nat) (h : Heap) (hdr data : Option Nat) (l : Val) : Option (Heap × Val) :=
  if isList l then
    match listLength h f l with
    | none => none
    | some len =>
      if 0 < len then
        match allocLispArray w h hdr data len with
        | (h1, res) =>
          if isSymbol res then some (h1, res)
          else
            match res with
            | .ptr _ _ i =>
              match (h1.cells i).content with
              | .lispArr a d es =>
                match storeLoop h1 f l 0 es with
                | none => none
                | some es' => some (h1.setCell i { h1.cells i with content := .lispArr a d es' }, res)
              | _ => none
            | _ => none
      else some (h, nil)
  else some (h, terror)

end Verif.Lists
