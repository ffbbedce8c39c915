import Verif.Env.Model
import Verif.Sym.Model

/-!
# Loading programs from the host

Model of the functions of `src/lbm_c_interop.c` with which a host program starts Lisp code: `lbm_load_and_eval_expression`, `lbm_load_and_eval_program`, `lbm_load_and_eval_program_incremental`,
`lbm_load_and_define_expression`, `lbm_load_and_define_program`, `lbm_eval_defined_expression`, `lbm_eval_defined_program`. Each builds a short program in the heap and gives it to `lbm_create_ctx`. The
result here is the heap and that program, or `none` where the function returns -1 before. The creation of the process is the subject of `Verif.Proc`.
-/

namespace Verif.Host

open Verif.Heap

/-- `SYM_DEFINE` and the symbols of application functions (`include/lbm_defines.h:230,346-354`). -/
def symDefine : Nat := 0x101
def symRead : Nat := 0x30001
def symReadProgram : Nat := 0x30002
def symReadAndEval : Nat := 0x30003
def symEval : Nat := 0x30008
def symEvalProgram : Nat := 0x30009

/-- What the host wants to be done with the text. -/
inductive Mode where
  | expression
  | program
  | incremental
  deriving DecidableEq

/-- `lift_char_channel` (`src/eval_cps.c:875-882`): the cell holds the address of the channel. -/
def liftChannel (h : Heap) (chan : Nat × Nat) : Heap × Option Val :=
  let (h1, cell) := allocateCell h .channel (.channel (some chan) nil)
  if cell = merror then (h1, none) else (h1, some cell)

/-- The read mode of `eval_cps_load_and_eval` (`src/lbm_c_interop.c:37-44`). -/
def Mode.reader : Mode → Nat
  | .expression => symRead
  | .program => symReadProgram
  | .incremental => symReadAndEval

/-- `eval_cps_load_and_eval` (`src/lbm_c_interop.c:24-77`), and with it the three functions at 150-176 that call it. -/
def loadAndEval (h : Heap) (mode : Mode) (chan : Nat × Nat) : Heap × Option Val :=
  match liftChannel h chan with
  | (h0, none) => (h0, none)
  | (h0, some stream) =>
    if Env.isSymbol stream then (h0, none)
    else
      let (h1, launcher) := Env.cons h0 stream nil
      let (h2, launcher) := Env.cons h1 (.sym mode.reader) launcher
      let (h3, evaluator, start) :=
        match mode with
        | .expression =>
          let (h3, evaluator) := Env.cons h2 launcher nil
          let (h4, evaluator) := Env.cons h3 (.sym symEval) evaluator
          let (h5, start) := Env.cons h4 evaluator nil
          (h5, evaluator, start)
        | .program =>
          let (h3, evaluator) := Env.cons h2 launcher nil
          let (h4, evaluator) := Env.cons h3 (.sym symEvalProgram) evaluator
          let (h5, start) := Env.cons h4 evaluator nil
          (h5, evaluator, start)
        | .incremental =>
          let (h3, start) := Env.cons h2 launcher nil
          (h3, launcher, start)
      if Env.isConsRW launcher && Env.isConsRW evaluator && Env.isConsRW start then (h3, some start) else (h3, none)

/-- `eval_cps_load_and_define` (`src/lbm_c_interop.c:79-114`). `mem` tells whether there is memory for the name of a new symbol; the lookup
and `lbm_add_symbol_base` at 93-97 are together what `lbm_add_symbol` does. -/
def loadAndDefine (h : Heap) (tab : Sym.Tab) (program : Bool) (name : Sym.Name) (mem : Bool) (chan : Nat × Nat) : Heap × Sym.Tab × Option Val :=
  match liftChannel h chan with
  | (h0, none) => (h0, tab, none)
  | (h0, some stream) =>
    if Env.isSymbol stream then (h0, tab, none)
    else
      match Sym.addSymbol tab name mem with
      | (tab1, none) => (h0, tab1, none)
      | (tab1, some s) =>
        let (h1, launcher) := Env.cons h0 stream nil
        let (h2, launcher) := Env.cons h1 (.sym (if program then symReadProgram else symRead)) launcher
        let (h3, binding) := Env.cons h2 launcher nil
        let (h4, binding) := Env.cons h3 (.sym s) binding
        let (h5, definer) := Env.cons h4 (.sym symDefine) binding
        let (h6, definer) := Env.cons h5 definer nil
        if Env.isConsRW launcher && Env.isConsRW binding && Env.isConsRW definer then (h6, tab1, some definer) else (h6, tab1, none)

/-- `lbm_eval_defined` (`src/lbm_c_interop.c:116-147`). The outer `none`: the list of global bindings is longer than the fuel. -/
def evalDefined (f : Nat) (st : Env.GState) (tab : Sym.Tab) (program : Bool) (name : Sym.Name) : Option (Heap × Option Val) :=
  match Sym.getByName tab name with
  | none => some (st.heap, none)
  | some s =>
    match Env.globalLookup f st.heap st.glob s with
    | none => none
    | some none => some (st.heap, none)
    | some (some _) =>
      let (h1, launcher) := Env.cons st.heap (.sym s) nil
      let (h2, evaluator) := Env.cons h1 (.sym (if program then symEvalProgram else symEval)) launcher
      let (h3, start) := Env.cons h2 evaluator nil
      if Env.isConsRW launcher && Env.isConsRW evaluator && Env.isConsRW start then some (h3, some start) else some (h3, none)

end Verif.Host
