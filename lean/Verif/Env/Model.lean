import Verif.Heap.Model

/-
Model of environments (`src/env.c`) and of the operations that change the global
environment: `define`, `setq`/`setvar`, `undefine` and the C functions `lbm_define` and
`lbm_undefine`.

An environment is an association list in the cons heap of `Verif.Heap.Model`: key/value pairs are
cells that can be shared and are updated in place.

Loops that follow pointers take fuel; `none` means that the fuel ran out (a cyclic list).
The theorems show that enough fuel exists and that more fuel makes no difference.
-/

namespace Verif.Env
open Verif.Heap

/-- `SYM_TERROR`, `SYM_NOT_FOUND`, `SYM_PLACEHOLDER` (`include/lbm_defines.h`). -/
def terror : Val := .sym 0x21
def notFound : Val := .sym 0x24
def placeholder : Val := .sym 0x2A

/-- `RUNTIME_SYMBOLS_START`, `include/lbm_defines.h`. -/
def runtimeStart : Nat := 0x40000

/-- `lbm_car`, `src/heap.c:956-968`. Simplification: the raw `car` word of a cell that is not a
pair is not modelled and replaced by the type error symbol. -/
def car (h : Heap) : Val → Val
  | .ptr t k i =>
    match contentOf h (.ptr t k i) with
    | some (.pair a _) => a
    | _ => terror
  | .sym s => if s = 0 then nil else terror
  | _ => terror

/-- `lbm_cdr`, `src/heap.c:1003-1012`, with the same simplification. -/
def cdr (h : Heap) : Val → Val
  | .ptr t k i =>
    match contentOf h (.ptr t k i) with
    | some (.pair _ d) => d
    | _ => terror
  | .sym s => if s = 0 then nil else terror
  | _ => terror

/-- `lbm_type_of(v) == LBM_TYPE_CONS` (`include/heap.h:801-803`): a cons in RAM. -/
def isConsRW : Val → Bool
  | .ptr .cons false _ => true
  | _ => false

/-- `lbm_is_cons`, `include/heap.h:816-819`: a cons in RAM or in the constant heap. -/
def isCons : Val → Bool
  | .ptr .cons _ _ => true
  | _ => false

/-- `lbm_cons`, `src/heap.c:950-952`. -/
def cons (h : Heap) (a d : Val) : Heap × Val := allocateCell h .cons (.pair a d)

/-- `lbm_list_length`, `src/heap.c:1062-1070`. -/
def listLength (h : Heap) : Nat → Val → Option Nat
  | 0, _ => none
  | f + 1, c => if isCons c then (listLength h f (cdr h c)).map (· + 1) else some 0

/-- The copying loop of `lbm_env_copy_spine`, `src/env.c:50-54`. -/
def copyLoop : Nat → Heap → Val → Val → Option Heap
  | 0, _, _, _ => none
  | f + 1, h, tgt, src =>
    if isConsRW tgt then
      let h1 := (setCar h tgt (car h src)).1
      copyLoop f h1 (cdr h1 tgt) (cdr h1 src)
    else some h

/-- `lbm_env_copy_spine`, `src/env.c:41-58`. -/
def copySpine (f : Nat) (h : Heap) (env : Val) : Option (Heap × Val) :=
  match listLength h f env with
  | none => none
  | some len =>
    match allocateList h len with
    | none => none
    | some (h1, v) =>
      if v = merror then some (h1, merror)
      else (copyLoop f h1 v env).map fun h2 => (h2, v)

/-- `lbm_env_lookup_b`, `src/env.c:61-74`. The inner result is `none` for `false`. -/
def lookupB (h : Heap) (key : Val) : Nat → Val → Option (Option Val)
  | 0, _ => none
  | f + 1, curr =>
    if curr.isPtr then
      let pair := car h curr
      if car h pair = key ∧ cdr h pair ≠ placeholder then some (some (cdr h pair))
      else lookupB h key f (cdr h curr)
    else some none

/-- The index of the bucket of a symbol: `dec_sym & GLOBAL_ENV_MASK` (`include/env.h:28-29`). -/
def bucket (s : Nat) : Nat := s &&& 0x1F

/-- The loop of `lbm_global_env_lookup`, `src/env.c:81-88`: unlike `lbm_env_lookup_b`, it does not
skip placeholders. -/
def globalLoop (h : Heap) (key : Val) : Nat → Val → Option (Option Val)
  | 0, _ => none
  | f + 1, curr =>
    if curr.isPtr then
      let c := car h curr
      if car h c = key then some (some (cdr h c))
      else globalLoop h key f (cdr h curr)
    else some none

/-- The global environment `env_global`, `src/env.c:27`: bucket number to environment. -/
abbrev Glob := Nat → Val

/-- `lbm_init_env`, `src/env.c:29-34`. -/
def initEnv : Glob := fun _ => nil

/-- Store a bucket. -/
def Glob.set (g : Glob) (k : Nat) (v : Val) : Glob := fun j => if j = k then v else g j

/-- `lbm_global_env_lookup`, `src/env.c:76-90`, for the symbol `s`. -/
def globalLookup (f : Nat) (h : Heap) (g : Glob) (s : Nat) : Option (Option Val) :=
  globalLoop h (.sym s) f (g (bucket s))

/-- The loop shared by `lbm_env_set` (`src/env.c:101-108`) and `lbm_env_modify_binding`
(`src/env.c:144-152`): find the first binding of the key and update it in place. The inner result
is `none` when there is no binding. -/
def modifyLoop (h : Heap) (key val : Val) : Nat → Val → Option (Option Heap)
  | 0, _ => none
  | f + 1, curr =>
    if isConsRW curr then
      let carVal := car h curr
      if car h carVal = key then some (some (setCdr h carVal val).1)
      else modifyLoop h key val f (cdr h curr)
    else some none

/-- `lbm_type_of(v) == LBM_TYPE_SYMBOL`. -/
def isSymbol : Val → Bool
  | .sym _ => true
  | _ => false

/-- `lbm_env_set`, `src/env.c:95-117`. -/
def envSet (f : Nat) (h : Heap) (env key val : Val) : Option (Heap × Val) :=
  match modifyLoop h key val f env with
  | none => none
  | some (some h1) => some (h1, env)
  | some none =>
    let (h1, keyval) := cons h key val
    if isSymbol keyval then some (h1, keyval)
    else some (cons h1 keyval env)

/-- The loop of `lbm_env_set_functional`, `src/env.c:129-135`. `lbm_caar` (`src/heap.c:974-987`) of a
cons in RAM is `lbm_car` of its `car`. -/
def setFunLoop (h : Heap) (key keyval : Val) : Nat → Val → Option (Option Heap)
  | 0, _ => none
  | f + 1, curr =>
    if isConsRW curr then
      if car h (car h curr) = key then some (some (setCar h curr keyval).1)
      else setFunLoop h key keyval f (cdr h curr)
    else some none

/-- `lbm_env_set_functional`, `src/env.c:120-139`. -/
def envSetFunctional (f : Nat) (h : Heap) (env key val : Val) : Option (Heap × Val) :=
  let (h0, keyval) := cons h key val
  if isSymbol keyval then some (h0, keyval)
  else
    match setFunLoop h0 key keyval f env with
    | none => none
    | some (some h1) => some (h1, env)
    | some none => some (cons h0 keyval env)

/-- `lbm_env_modify_binding`, `src/env.c:140-154`. -/
def modifyBinding (f : Nat) (h : Heap) (env key val : Val) : Option (Heap × Val) :=
  match modifyLoop h key val f env with
  | none => none
  | some (some h1) => some (h1, env)
  | some none => some (h, notFound)

/-- The loop of `lbm_env_drop_binding`, `src/env.c:167-175`. -/
def dropLoop (h : Heap) (key : Val) : Nat → Val → Val → Option (Option Heap)
  | 0, _, _ => none
  | f + 1, prev, curr =>
    if isConsRW curr then
      if car h (car h curr) = key then some (some (setCdr h prev (cdr h curr)).1)
      else dropLoop h key f curr (cdr h curr)
    else some none

/-- `lbm_env_drop_binding`, `src/env.c:156-177`. -/
def dropBinding (f : Nat) (h : Heap) (env key : Val) : Option (Heap × Val) :=
  if car h (car h env) = key then some (h, cdr h env)
  else
    match dropLoop h key f env (cdr h env) with
    | none => none
    | some (some h1) => some (h1, env)
    | some none => some (h, notFound)

/-- The state the global operations work on. -/
structure GState where
  heap : Heap
  glob : Glob

/-- `cont_set_global_env` (`src/eval_cps.c:2228-2248`) and `handle_event_define`
(`src/eval_cps.c:5268-5278`), the end of `(define s val)`: `WITH_GC` (`src/eval_cps.c:150-159`) runs the
collector `collect` and tries again when the first attempt ran out of memory. `false` is the
out of memory error. -/
def define (f : Nat) (collect : Heap → Heap) (st : GState) (s : Nat) (val : Val) : Option (GState × Bool) :=
  let k := bucket s
  match envSet f st.heap (st.glob k) (.sym s) val with
  | none => none
  | some (h1, v1) =>
    if v1 = merror then
      match envSet f (collect h1) (st.glob k) (.sym s) val with
      | none => none
      | some (h2, v2) =>
        if v2 = merror then some (⟨h2, st.glob⟩, false)
        else some (⟨h2, st.glob.set k v2⟩, true)
    else some (⟨h1, st.glob.set k v1⟩, true)

/-- `lbm_define`, `src/lbm_c_interop.c:190-206`, for a symbol that already has an id: there is no test
of the result of `lbm_env_set`. -/
def cDefine (f : Nat) (st : GState) (s : Nat) (val : Val) : Option GState :=
  let k := bucket s
  match envSet f st.heap (st.glob k) (.sym s) val with
  | none => none
  | some (h1, v1) => some ⟨h1, st.glob.set k v1⟩

/-- How an assignment ends: `error_at_ctx(ENC_SYM_NOT_FOUND, key)`, or
`error_at_ctx(ENC_SYM_EERROR, ENC_SYM_SETVAR)`. -/
inductive SetRes
  | ok
  | notBound
  | evalError
deriving DecidableEq, Repr

/-- `perform_setvar`, `src/eval_cps.c:2315-2333`; `env` is the local environment of the caller. -/
def performSetvar (f : Nat) (st : GState) (env : Val) (s : Nat) (val : Val) : Option (GState × SetRes) :=
  if runtimeStart ≤ s then
    match modifyBinding f st.heap env (.sym s) val with
    | none => none
    | some (h1, r1) =>
      if r1 = notFound then
        let k := bucket s
        match modifyBinding f h1 (st.glob k) (.sym s) val with
        | none => none
        | some (h2, r2) =>
          some (⟨h2, st.glob.set k r2⟩, if r2 = notFound then .notBound else .ok)
      else some (⟨h1, st.glob⟩, .ok)
  else some (st, .evalError)

/-- `fundamental_undefine` for one symbol, `src/fundamental.c:729-739`, and `lbm_undefine`,
`src/lbm_c_interop.c:208-220`. The result tells whether the key is reported as removed. -/
def undefine (f : Nat) (st : GState) (s : Nat) : Option (GState × Bool) :=
  let k := bucket s
  match dropBinding f st.heap (st.glob k) (.sym s) with
  | none => none
  | some (h1, r) => if r = notFound then some (⟨h1, st.glob⟩, false) else some (⟨h1, st.glob.set k r⟩, true)

/-- The loop of `fundamental_undefine` for a list of symbols, `src/fundamental.c:740-751`. Simplification: the argument
list is given by its elements. -/
def undefineList (f : Nat) (st : GState) : List Nat → Option GState
  | [] => some st
  | s :: ss =>
    match undefine f st s with
    | none => none
    | some (st', _) => undefineList f st' ss

/-- An argument of an extension, as far as the extensions for environments look at it: the result of
`lbm_dec_as_u32` if `lbm_is_number` holds, and the value itself. -/
structure Arg where
  num : Option Nat
  val : Val

/-- `ext_env_get`, `src/extensions/runtime_extensions.c:119-125`. -/
def extEnvGet (st : GState) : List Arg → Val
  | [a] =>
    match a.num with
    | some n => st.glob (n &&& 0x1F)
    | none => terror
  | _ => terror

/-- `ext_env_set`, `src/extensions/runtime_extensions.c:134-142`: anything at all is stored. The result tells
`true` (the symbol) from `nil`. -/
def extEnvSet (st : GState) : List Arg → GState × Bool
  | [a, b] =>
    match a.num with
    | some n => (⟨st.heap, st.glob.set (n &&& 0x1F) b.val⟩, true)
    | none => (st, false)
  | _ => (st, false)

end Verif.Env
