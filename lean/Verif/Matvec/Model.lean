import Verif.Arith.Lemmas

/-
Model of the vectors and matrices of floats, `src/extensions/matvec_extensions.c`.

Simplifications:
* A vector or matrix is the block that holds its numbers, identified by its address; the custom value around it (three words
  and a cell) is the subject of `Verif.Custom`. What the allocators yield is a parameter (`Mem`).
* Of the heap only the number of free cells is kept. Lists are finite: a cyclic list makes `lbm_list_length_pred` run for ever.
* The floating point unit is a parameter, as in `Verif.Arith`; `sqrtf` is another one. The compiler does not contract
  `alpha * x + y` to one operation.
* An element that was never written cannot be read (`ub`), and nothing outside of the block can be written (`ub`).
-/

namespace Verif.Matvec

open Verif.Val (Build)
open Verif.Arith (Num FOps decAsFloat decAsU32)

/-- Values as the functions see them. `vec` and `mat` are custom values with the descriptor of a vector or matrix. -/
inductive V (b : Build) where
  | num (n : Num b)
  | sym (id : Nat)
  | cons (a d : V b)
  | vec (addr : Nat)
  | mat (addr : Nat)
  | other
deriving DecidableEq, Repr

def nil {b : Build} : V b := .sym 0
def terror {b : Build} : V b := .sym 0x21
def merror {b : Build} : V b := .sym 0x23

/-- The block of a vector or matrix, `src/extensions/matvec_extensions.c:27-30,58-62`: its size, or rows and columns, and the elements; `none` is an element that was not written. -/
structure Obj where
  rows : Nat
  cols : Nat
  data : List (Option (BitVec 32))
deriving DecidableEq, Repr

/-- The blocks, and the number of free cells of the heap. A vector of `n` elements has one row. -/
structure World where
  objs : Nat → Option Obj
  free : Nat

/-- What the allocators yield: the address that `lbm_malloc` gives for the numbers, and whether `lbm_memory_allocate(3)` in
`lbm_custom_type_create` succeeds. -/
structure Mem where
  data : Option Nat
  custom : Bool
deriving DecidableEq, Repr

inductive Out (α : Type)
  | ok (a : α)
  | ub
deriving DecidableEq, Repr

/-- The room for floats in a block of `bytes` bytes behind `hdr` header words; the number of bytes is computed in a machine word. -/
def room (b : Build) (hdr n : Nat) : Nat := ((hdr * (b.w / 8) + n * 4) % 2 ^ b.w - hdr * (b.w / 8)) / 4

/-- `vector_float_allocate`, `matrix_float_allocate`, `src/extensions/matvec_extensions.c:37-48,64-77`, for `n = rows * cols` elements
behind `hdr` header words. The address, `none` for nil (the result of `lbm_custom_type_create` is ignored and `res` starts as 0), or `merror`. -/
inductive Alloc
  | obj (addr : Nat)
  | nil
  | merror
deriving DecidableEq, Repr

def allocate (b : Build) (w : World) (m : Mem) (hdr rows cols n : Nat) : World × Alloc :=
  match m.data with
  | none => (w, .merror)
  | some a =>
    if m.custom then
      if w.free = 0 then (w, .merror)
      else ({ objs := fun k => if k = a then some ⟨rows, cols, List.replicate (room b hdr n) none⟩ else w.objs k, free := w.free - 1 }, .obj a)
    else (w, .nil)

/-- The loops that write `f i` to element `i` of a block, `i` counting up from `i`, `k` times. -/
def fill (f : Nat → Out (BitVec 32)) : Nat → Nat → List (Option (BitVec 32)) → Out (List (Option (BitVec 32)))
  | 0, _, d => .ok d
  | k + 1, i, d =>
    match f i with
    | .ub => .ub
    | .ok x => if i < d.length then fill f k (i + 1) (d.set i (some x)) else .ub

/-- The loops that go through a list, `src/extensions/matvec_extensions.c:119-125,289-295`. -/
def fillList {b : Build} (F : FOps) : V b → Nat → List (Option (BitVec 32)) → Out (List (Option (BitVec 32)))
  | .cons a d, i, xs =>
    if i < xs.length then fillList F d (i + 1) (xs.set i (some (decAsFloat F (toArith a)))) else .ub
  | _, _, xs => .ok xs
where
  /-- The same value in the vocabulary of `Verif.Arith`. -/
  toArith : V b → Arith.V b
    | .num n => .num n
    | .sym id => .sym id
    | _ => .other

/-- Reads element `i`. -/
def get (o : Obj) (i : Nat) : Out (BitVec 32) :=
  match o.data[i]? with
  | some (some x) => .ok x
  | _ => .ub

/-- Writes the elements of the block at `a`. -/
def World.put (w : World) (a : Nat) (o : Obj) : World := { w with objs := fun k => if k = a then some o else w.objs k }

/-- The block behind `lbm_get_custom_value`. -/
def World.at (w : World) (a : Nat) : Out Obj :=
  match w.objs a with
  | some o => .ok o
  | none => .ub

/-- Allocates, and writes the elements; the pattern of `ext_vector`, `ext_list_to_vector`, `ext_axpy`, `ext_vmult`, `ext_list_to_matrix`. -/
def build {b : Build} (w : World) (m : Mem) (hdr rows cols n : Nat) (wrap : Nat → V b)
    (write : List (Option (BitVec 32)) → Out (List (Option (BitVec 32)))) : Out (World × V b) :=
  match allocate b w m hdr rows cols n with
  | (w1, .merror) => .ok (w1, merror)
  | (_, .nil) => .ub
  | (w1, .obj a) =>
    match w1.at a with
    | .ub => .ub
    | .ok o =>
      match write o.data with
      | .ub => .ub
      | .ok d => .ok (w1.put a { o with data := d }, wrap a)

/-- `lbm_is_number`. -/
def isNum {b : Build} : V b → Bool
  | .num _ => true
  | _ => false

/-- `ext_vector`, `src/extensions/matvec_extensions.c:87-102`. -/
def extVector {b : Build} (F : FOps) (w : World) (m : Mem) (args : List (V b)) : Out (World × V b) :=
  if args.all isNum then
    if args.length < 1 then .ok (w, terror)
    else build w m 1 1 args.length args.length .vec
      (fill (fun i => match args[i]? with | some x => .ok (decAsFloat F (fillList.toArith x)) | none => .ub) args.length 0)
  else .ok (w, terror)

/-- `lbm_list_length_pred` with `lbm_is_number`, `src/heap.c:1074-1085`; the length and whether all are numbers. -/
def lengthPred {b : Build} : V b → Nat × Bool
  | .cons a d => ((lengthPred d).1 + 1, isNum a && (lengthPred d).2)
  | _ => (0, true)

/-- `lbm_is_list`, `include/heap.h:940-942`. -/
def isList {b : Build} : V b → Bool
  | .cons _ _ => true
  | .sym 0 => true
  | _ => false

/-- `ext_list_to_vector`, `src/extensions/matvec_extensions.c:104-130`. The length is kept in an `unsigned int`. -/
def extListToVector {b : Build} (F : FOps) (w : World) (m : Mem) (args : List (V b)) : Out (World × V b) :=
  match args with
  | [l] =>
    if isList l then
      let len := (lengthPred l).1 % 2 ^ 32
      if 0 < len ∧ (lengthPred l).2 = true then build w m 1 1 len len .vec (fillList F l 0)
      else .ok (w, terror)
    else .ok (w, terror)
  | _ => .ok (w, terror)

/-- The loop of `vector-to-list` and `matrix-to-list`: `k` elements from `i` on are boxed. On 32 bits a float takes a cell; `none`: there is none. -/
def encLoop {b : Build} (o : Obj) : Nat → Nat → Nat → Out (Nat × Option (V b))
  | 0, _, free => .ok (free, some nil)
  | k + 1, i, free =>
    match get o i with
    | .ub => .ub
    | .ok x =>
      if b = .b32 ∧ free = 0 then .ok (free, none)
      else
        match encLoop o k (i + 1) (if b = .b32 then free - 1 else free) with
        | .ok (f, some l) => .ok (f, some (.cons (.num (.float x)) l))
        | r => r

/-- `ext_vector_to_list`, `src/extensions/matvec_extensions.c:132-154`. -/
def extVectorToList {b : Build} (w : World) (args : List (V b)) : Out (World × V b) :=
  match args with
  | [.vec a] =>
    match w.at a with
    | .ub => .ub
    | .ok o =>
      if o.cols = 0 then .ok (w, terror)
      else if w.free < o.cols then .ok (w, terror)
      else
        match encLoop o o.cols 0 (w.free - o.cols) with
        | .ub => .ub
        | .ok (f, some l) => .ok ({ w with free := f }, l)
        | .ok (f, none) => .ok ({ w with free := f }, merror)
  | _ => .ok (w, terror)

/-- `lbm_enc_float`, `src/heap.c:114-126`. -/
def encFloat {b : Build} (w : World) (x : BitVec 32) : World × V b :=
  if b = .b32 then
    if w.free = 0 then (w, merror) else ({ w with free := w.free - 1 }, .num (.float x))
  else (w, .num (.float x))

/-- `ext_vproj`, `src/extensions/matvec_extensions.c:156-168`. -/
def extVproj {b : Build} (F : FOps) (w : World) (args : List (V b)) : Out (World × V b) :=
  match args with
  | [.vec a, .num n] =>
    match w.at a with
    | .ub => .ub
    | .ok o =>
      let i := (decAsU32 F (.num n)).toNat
      if i < o.cols then
        match get o i with
        | .ub => .ub
        | .ok x => .ok (encFloat w x)
      else .ok (w, terror)
  | _ => .ok (w, terror)

/-- `alpha * X->data[i] + Y->data[i]` -/
def axpyAt (F : FOps) (alpha : BitVec 32) (x y : Obj) (i : Nat) : Out (BitVec 32) :=
  match get x i, get y i with
  | .ok u, .ok v => .ok (F.add32 (F.mul32 alpha u) v)
  | _, _ => .ub

/-- `ext_axpy`, `src/extensions/matvec_extensions.c:170-201`. -/
def extAxpy {b : Build} (F : FOps) (w : World) (m : Mem) (args : List (V b)) : Out (World × V b) :=
  match args with
  | [.num n, .vec x, .vec y] =>
    match w.at x, w.at y with
    | .ok X, .ok Y =>
      if X.cols = Y.cols then
        build w m 1 1 X.cols X.cols .vec (fill (axpyAt F (decAsFloat F (.num n)) X Y) X.cols 0)
      else .ok (w, terror)
    | _, _ => .ub
  | _ => .ok (w, terror)

/-- The loop of `dot` and of `vector_float_mag`, `src/extensions/matvec_extensions.c:219-222,230-233`. -/
def dotLoop (F : FOps) (x y : Obj) : Nat → Nat → BitVec 32 → Out (BitVec 32)
  | 0, _, acc => .ok acc
  | k + 1, i, acc =>
    match get x i, get y i with
    | .ok u, .ok v => dotLoop F x y k (i + 1) (F.add32 acc (F.mul32 u v))
    | _, _ => .ub

/-- `ext_dot`, `src/extensions/matvec_extensions.c:203-227`. The pattern of `0.0f` is 0. -/
def extDot {b : Build} (F : FOps) (w : World) (args : List (V b)) : Out (World × V b) :=
  match args with
  | [.vec x, .vec y] =>
    match w.at x, w.at y with
    | .ok X, .ok Y =>
      if X.cols = Y.cols then
        match dotLoop F X Y X.cols 0 0 with
        | .ub => .ub
        | .ok r => .ok (encFloat w r)
      else .ok (w, terror)
    | _, _ => .ub
  | _ => .ok (w, terror)

/-- `vector_float_mag`, `ext_mag`, `src/extensions/matvec_extensions.c:229-248`. -/
def extMag {b : Build} (F : FOps) (sqrt32 : BitVec 32 → BitVec 32) (w : World) (args : List (V b)) : Out (World × V b) :=
  match args with
  | [.vec x] =>
    match w.at x with
    | .ub => .ub
    | .ok X =>
      match dotLoop F X X X.cols 0 0 with
      | .ub => .ub
      | .ok r => .ok (encFloat w (sqrt32 r))
  | _ => .ok (w, terror)

/-- `alpha * x->data[i]` -/
def multAt (F : FOps) (alpha : BitVec 32) (x : Obj) (i : Nat) : Out (BitVec 32) :=
  match get x i with
  | .ok u => .ok (F.mul32 alpha u)
  | .ub => .ub

/-- `ext_vmult`, `src/extensions/matvec_extensions.c:250-268`. -/
def extVmult {b : Build} (F : FOps) (w : World) (m : Mem) (args : List (V b)) : Out (World × V b) :=
  match args with
  | [.num n, .vec x] =>
    match w.at x with
    | .ub => .ub
    | .ok X => build w m 1 1 X.cols X.cols .vec (fill (multAt F (decAsFloat F (.num n)) X) X.cols 0)
  | _ => .ok (w, terror)

/-- `ext_list_to_matrix`, `src/extensions/matvec_extensions.c:270-301`. `len % 0` is undefined. -/
def extListToMatrix {b : Build} (F : FOps) (w : World) (m : Mem) (args : List (V b)) : Out (World × V b) :=
  match args with
  | [.num n, l] =>
    if isList l then
      let len := (lengthPred l).1 % 2 ^ 32
      if 0 < len ∧ (lengthPred l).2 = true then
        let cols := (decAsU32 F (.num n)).toNat
        if cols = 0 then .ub
        else if len % cols = 0 then
          build w m 2 (len / cols) cols (len / cols * cols % 2 ^ 32) .mat (fillList F l 0)
        else .ok (w, terror)
      else .ok (w, terror)
    else .ok (w, terror)
  | _ => .ok (w, terror)

/-- `ext_matrix_to_list`, `src/extensions/matvec_extensions.c:303-325`. -/
def extMatrixToList {b : Build} (w : World) (args : List (V b)) : Out (World × V b) :=
  match args with
  | [.mat a] =>
    match w.at a with
    | .ub => .ub
    | .ok o =>
      let size := o.rows * o.cols % 2 ^ b.w
      if size = 0 then .ok (w, nil)
      else if w.free < size then .ok (w, merror)
      else
        match encLoop o size 0 (w.free - size) with
        | .ub => .ub
        | .ok (f, some l) => .ok ({ w with free := f }, l)
        | .ok (f, none) => .ok ({ w with free := f }, merror)
  | _ => .ok (w, terror)

end Verif.Matvec
