import Verif.Matvec.Model

/-
Vocabulary of the properties of vectors and matrices (C111).
-/

namespace Verif.Matvec

open Verif.Val (Build)
open Verif.Arith (Num FOps decAsFloat)

/-- The cells that a float number takes: one on a 32-bit build, none on a 64-bit build. -/
def floatCells : Build → Nat
  | .b32 => 1
  | .b64 => 0

/-- `v` is a vector with the elements `xs`. -/
def IsVec {b : Build} (w : World) (v : V b) (xs : List (BitVec 32)) : Prop :=
  ∃ a, v = .vec a ∧ w.objs a = some ⟨1, xs.length, xs.map some⟩

/-- `v` is a matrix with so many rows and columns and the elements `xs`, row by row. -/
def IsMat {b : Build} (w : World) (v : V b) (rows cols : Nat) (xs : List (BitVec 32)) : Prop :=
  ∃ a, v = .mat a ∧ w.objs a = some ⟨rows, cols, xs.map some⟩ ∧ xs.length = rows * cols

/-- The list of the given elements. -/
def listOf {b : Build} : List (V b) → V b
  | [] => nil
  | x :: xs => .cons x (listOf xs)

/-- The list of floats. -/
def floatList {b : Build} (xs : List (BitVec 32)) : V b := listOf (xs.map fun x => .num (.float x))

/-- A number as a float. -/
def asFloat {b : Build} (F : FOps) (n : Num b) : BitVec 32 := decAsFloat F (.num n)

/-- How many cells the list of `n` floats takes. -/
def listCells (b : Build) (n : Nat) : Nat := if b = .b32 then 2 * n else n

/-- The result `r` is the new value `v`: it took one cell, all vectors and matrices from before are as they were. -/
def Fresh {b : Build} (w : World) (r : Out (World × V b)) (P : World → V b → Prop) : Prop :=
  ∃ w' v, r = .ok (w', v) ∧ P w' v ∧ w'.free + 1 = w.free ∧ ∀ a o, w.objs a = some o → w'.objs a = some o

/-- Memory is available: for the numbers at an address not in use, for the custom value, and a cell. -/
def Ample (w : World) (m : Mem) : Prop := (∃ a, m.data = some a ∧ w.objs a = none) ∧ m.custom = true ∧ 0 < w.free

/-- The products of the elements, summed up from the left. -/
def dotSpec (F : FOps) (xs ys : List (BitVec 32)) : BitVec 32 :=
  (List.zipWith F.mul32 xs ys).foldl F.add32 0

/-- All blocks are complete: as many elements as the size says, all of them written. -/
def Whole (w : World) : Prop :=
  ∀ a o, w.objs a = some o → 0 < o.rows * o.cols ∧ o.rows * o.cols + 2 < 2 ^ 30 ∧ ∃ xs : List (BitVec 32), o.data = xs.map some ∧ xs.length = o.rows * o.cols

/-- The vectors and matrices among the arguments exist (vectors have one row). -/
def LiveArg {b : Build} (w : World) (v : V b) : Prop :=
  (∀ a, v = .vec a → ∃ o, w.objs a = some o ∧ o.rows = 1) ∧ (∀ a, v = .mat a → ∃ o, w.objs a = some o)

/-- The functions of the library. -/
inductive Fn
  | vector | listToVector | vectorToList | vproj | axpy | dot | mag | vmult | listToMatrix | matrixToList
deriving DecidableEq, Repr

/-- A call. -/
def call {b : Build} (F : FOps) (sqrt32 : BitVec 32 → BitVec 32) (w : World) (m : Mem) (args : List (V b)) : Fn → Out (World × V b)
  | .vector => extVector F w m args
  | .listToVector => extListToVector F w m args
  | .vectorToList => extVectorToList w args
  | .vproj => extVproj F w args
  | .axpy => extAxpy F w m args
  | .dot => extDot F w args
  | .mag => extMag F sqrt32 w args
  | .vmult => extVmult F w m args
  | .listToMatrix => extListToMatrix F w m args
  | .matrixToList => extMatrixToList w args

end Verif.Matvec
