import Verif.Host.Model
import Verif.Heap.Spec

/-!
# What the host should get
-/

namespace Verif.Host

open Verif.Heap

/-- Code, as it is written down: symbols, the text that the host supplies, lists. -/
inductive Code where
  | sym (s : Nat)
  | text (chan : Nat × Nat)
  | pair (a d : Code)

/-- A list. -/
def Code.list : List Code → Code
  | [] => .sym 0
  | x :: xs => .pair x (.list xs)

/-- The value `v` is this code, made of cells with the property `P`. -/
def Is (h : Heap) (P : Nat → Prop) : Val → Code → Prop
  | v, .sym s => v = .sym s
  | v, .text chan => ∃ i, P i ∧ v = .ptr .channel false i ∧ (h.cells i).content = .channel (some chan) nil
  | v, .pair a d => ∃ i x y, P i ∧ v = .ptr .cons false i ∧ (h.cells i).content = .pair x y ∧ Is h P x a ∧ Is h P y d

/-- The program for a text that is to be evaluated: `((eval (read text)))`, `((eval-program (read-program text)))`, `((read-eval-program text))`. -/
def Mode.code (chan : Nat × Nat) : Mode → Code
  | .expression => .list [.list [.sym symEval, .list [.sym symRead, .text chan]]]
  | .program => .list [.list [.sym symEvalProgram, .list [.sym symReadProgram, .text chan]]]
  | .incremental => .list [.list [.sym symReadAndEval, .text chan]]

/-- `((define s (read text)))` or `((define s (read-program text)))`. -/
def defineCode (program : Bool) (s : Nat) (chan : Nat × Nat) : Code :=
  .list [.list [.sym symDefine, .sym s, .list [.sym (if program then symReadProgram else symRead), .text chan]]]

/-- `((eval s))` or `((eval-program s))`. -/
def evalCode (program : Bool) (s : Nat) : Code := .list [.list [.sym (if program then symEvalProgram else symEval), .sym s]]

/-- The number of cells. -/
def Code.cells : Code → Nat
  | .sym _ => 0
  | .text _ => 1
  | .pair a d => 1 + a.cells + d.cells

/-- The code has been built from the free cells `fl` of `h`, if there are enough of them; otherwise nothing is started. All other cells are as before. -/
structure Built (h : Heap) (fl : List Nat) (code : Code) (h' : Heap) (res : Option Val) : Prop where
  enough : code.cells ≤ fl.length → ∃ v, res = some v ∧ Is h' (· ∈ fl) v code ∧ FreeOK h' (fl.drop code.cells)
  short : fl.length < code.cells → res = none ∧ FreeOK h' []
  others : ∀ j, j ∉ fl → h'.cells j = h.cells j
  consts : h'.consts = h.consts
  size : h'.size = h.size

end Verif.Host
