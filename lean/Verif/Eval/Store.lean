/-!
# Values, the store and the operations on environments

The store of the evaluator model: cons cells addressed by numbers, the global environment and the
flag for atomic blocks. Cells are never collected and allocation always succeeds: the collector is
modelled and proved to keep what is reachable in `Verif.Heap`; that the evaluator marks everything it
uses, and what happens when memory is exhausted, is not part of this model.
-/

namespace Verif.Eval

/-- Values (`include/lbm_defines.h`). `u` are unboxed unsigned numbers, `atom`
are all other values that evaluate to themselves and have no parts that the evaluator looks at
(numbers, characters, strings, ...; simplification: `car` and `cdr` of a boxed one are type errors,
where the code reads the raw words of the cell), `arr` is the array that holds a captured stack. -/
inductive V where
  | sym (n : Nat)
  | u (n : Nat)
  | atom (n : Nat)
  | cons (a : Nat)
  | arr (n : Nat)
  deriving DecidableEq, Repr, Inhabited

/-- Words on the stack: values, continuation codes (`src/eval_cps.c:50-99`; their type tag
`LBM_CONTINUATION_INTERNAL` is that of no value), the saved flags of `trap`, and slots that have been reserved but not written. -/
inductive W where
  | v (x : V)
  | k (n : Nat)
  | raw (n : Nat)
  | junk
  deriving DecidableEq, Repr, Inhabited

instance : Coe V W := ⟨.v⟩

namespace V
abbrev nil : V := .sym 0
abbrev tru : V := .sym 2
abbrev dontcare : V := .sym 9
abbrev rerror : V := .sym 0x20
abbrev terror : V := .sym 0x21
abbrev eerror : V := .sym 0x22
abbrev notFound : V := .sym 0x24
abbrev fatal : V := .sym 0x26
abbrev stackError : V := .sym 0x27
abbrev placeholder : V := .sym 0x2A
abbrev noMatch : V := .sym 0x40
abbrev matchAny : V := .sym 0x41
abbrev comma : V := .sym 0x73
abbrev commaAt : V := .sym 0x74
abbrev quote : V := .sym 0x100
abbrev lambda : V := .sym 0x103
abbrev cond : V := .sym 0x110
abbrev macroSym : V := .sym 0x10D
abbrev cont : V := .sym 0x10E
abbrev closure : V := .sym 0x10F
abbrev list : V := .sym 0x20014
abbrev append : V := .sym 0x20015
abbrev exitOk : V := .sym 0x3000B
abbrev exitError : V := .sym 0x3000C
abbrev restArgs : V := .sym 0x30015

/-- `lbm_is_cons`. -/
def isCons : V → Bool
  | .cons _ => true
  | _ => false

/-- `lbm_is_symbol`. -/
def isSym : V → Bool
  | .sym _ => true
  | _ => false

/-- `lbm_is_error`, `include/heap.h`: the symbols 0x20 to 0x2F. -/
def isErr : V → Bool
  | .sym n => decide (n / 16 = 2)
  | _ => false
end V

/-- `RUNTIME_SYMBOLS_START`, `include/lbm_defines.h`. -/
def runtimeStart : Nat := 0x40000

/-- The cells of the heap, the global environment (`env_global`, `src/env.c:26`), the flag
`is_atomic` (`src/eval_cps.c`), and the stacks captured by `call-cc`. -/
structure St where
  car : Nat → V
  cdr : Nat → V
  next : Nat
  globals : Nat → V
  atomic : Bool
  konts : Nat → List W
  nk : Nat

namespace St

/-- `lbm_cons`, `cons_with_gc` (`src/eval_cps.c:444-468`): a fresh cell. -/
def cons (s : St) (a d : V) : St × V :=
  ({ s with car := fun i => if i = s.next then a else s.car i, cdr := fun i => if i = s.next then d else s.cdr i,
            next := s.next + 1 }, .cons s.next)

/-- `lbm_set_car`: nothing happens if the value is not a cons cell. -/
def setCar (s : St) (v x : V) : St :=
  match v with
  | .cons a => { s with car := fun i => if i = a then x else s.car i }
  | _ => s

/-- `lbm_set_cdr`. -/
def setCdr (s : St) (v x : V) : St :=
  match v with
  | .cons a => { s with cdr := fun i => if i = a then x else s.cdr i }
  | _ => s

/-- `get_car`, `src/eval_cps.c:533-541`; `none` is a type error. -/
def gcar (s : St) : V → Option V
  | .cons a => some (s.car a)
  | .sym 0 => some .nil
  | _ => none

/-- `get_cdr`, `src/eval_cps.c:543-551`. -/
def gcdr (s : St) : V → Option V
  | .cons a => some (s.cdr a)
  | .sym 0 => some .nil
  | _ => none

/-- `get_cadr`, `src/eval_cps.c:553-567`. -/
def gcadr (s : St) : V → Option V
  | .cons a =>
    match s.cdr a with
    | .cons b => some (s.car b)
    | .sym 0 => some .nil
    | _ => none
  | .sym 0 => some .nil
  | _ => none

/-- `lbm_car`: a type error is a value here. -/
def lcar (s : St) : V → V
  | .cons a => s.car a
  | .sym 0 => .nil
  | _ => .terror

/-- One step of `extract_n`, `src/eval_cps.c:654-665`: the element. -/
def hd (s : St) : V → V
  | .cons a => s.car a
  | _ => .nil

/-- One step of `extract_n`: the rest, which stays the same if there is no more. -/
def tl (s : St) : V → V
  | .cons a => s.cdr a
  | v => v

/-- `lbm_list_length`, `src/heap.c`: the number of cells; `none` if there is no end. -/
def len (s : St) : Nat → V → Option Nat
  | 0, _ => none
  | f + 1, .cons a => (len s f (s.cdr a)).map (· + 1)
  | _ + 1, _ => some 0

/-- `lbm_env_lookup_b`, `src/env.c:61-74`. `none`: the environment is not a list of pairs that ends
(the code reads a wild pointer or loops). -/
def lookup (s : St) (key : V) : Nat → V → Option (Option V)
  | 0, _ => none
  | f + 1, .cons a =>
    match s.car a with
    | .cons p => if s.car p = key ∧ s.cdr p ≠ .placeholder then some (some (s.cdr p)) else lookup s key f (s.cdr a)
    | _ => none
  | _ + 1, _ => some none

/-- The loop of `lbm_global_env_lookup`, `src/env.c:76-91`. -/
def glookupLoop (s : St) (key : V) : Nat → V → Option (Option V)
  | 0, _ => none
  | f + 1, .cons a =>
    match s.car a with
    | .cons p => if s.car p = key then some (some (s.cdr p)) else glookupLoop s key f (s.cdr a)
    | _ => none
  | _ + 1, _ => some none

/-- `lbm_global_env_lookup`; `GLOBAL_ENV_MASK` is 0x1F. -/
def glookup (s : St) (n : Nat) : Option (Option V) := glookupLoop s (.sym n) (s.next + 1) (s.globals (n % 32))

/-- The pair found by the loop of `lbm_env_set` and `lbm_env_modify_binding`, `src/env.c:96-141`. -/
def findPair (s : St) (key : V) : Nat → V → Option (Option V)
  | 0, _ => none
  | f + 1, .cons a => if s.lcar (s.car a) = key then some (some (s.car a)) else findPair s key f (s.cdr a)
  | _ + 1, _ => some none

/-- `lbm_env_modify_binding`, `src/env.c:128-141`; inner `none` is `ENC_SYM_NOT_FOUND`. -/
def modify (s : St) (env key val : V) : Option (Option St) :=
  match s.findPair key (s.next + 1) env with
  | none => none
  | some none => some none
  | some (some p) => some (some (s.setCdr p val))

/-- `lbm_env_set`, `src/env.c:96-117`, with the store and the new environment. -/
def envSet (s : St) (env key val : V) : Option (St × V) :=
  match s.findPair key (s.next + 1) env with
  | none => none
  | some (some p) => some (s.setCdr p val, env)
  | some none =>
    let (s1, p) := s.cons key val
    some (s1.cons p env)

/-- `cont_set_global_env`, `src/eval_cps.c:2228-2248`. -/
def define (s : St) (n : Nat) (val : V) : Option St :=
  match s.envSet (s.globals (n % 32)) (.sym n) val with
  | none => none
  | some (s1, e) => some { s1 with globals := fun i => if i = n % 32 then e else s1.globals i }

/-- `perform_setvar`, `src/eval_cps.c:2315-2334`; inner `none` is the error that the variable is not bound. When there is neither a local nor a global binding the global environment slot is
overwritten with the symbol `not_found` before the error is raised (`glob_env[ix_key] = new_env`). -/
def setvar (s : St) (n : Nat) (val env : V) : Option (St × Bool) :=
  match s.modify env (.sym n) val with
  | none => none
  | some (some s1) => some (s1, true)
  | some none =>
    match s.modify (s.globals (n % 32)) (.sym n) val with
    | none => none
    | some (some s1) => some (s1, true)
    | some none => some ({ s with globals := fun i => if i = n % 32 then .notFound else s.globals i }, false)

/-- The cells of `lbm_env_copy_spine`, `src/env.c:40-58`: a new spine with the same elements, that
ends with nil. -/
def copySpine (s : St) : Nat → V → Option (St × V)
  | 0, _ => none
  | f + 1, .cons a =>
    match copySpine s f (s.cdr a) with
    | none => none
    | some (s1, t) => some (s1.cons (s.car a) t)
  | _ + 1, _ => some (s, .nil)

/-- `create_binding_location_internal`, `src/eval_cps.c:1896-1917`. -/
def createLoc : Nat → St → V → V → Option (St × V)
  | 0, _, _, _ => none
  | f + 1, s, key, env =>
    match key with
    | .sym n =>
      if n = 0 ∨ n = 9 then some (s, env)
      else
        let (s1, b) := s.cons key .placeholder
        some (s1.cons b env)
    | .cons a =>
      match createLoc f s (s.car a) env with
      | none => none
      | some (s1, env1) => createLoc f s1 (s1.cdr a) env1
    | _ => some (s, env)

/-- `fill_binding_location`, `src/eval_cps.c:3257-3272`; inner `none` is `FB_TYPE_ERROR`. -/
def fillLoc : Nat → St → V → V → V → Option (St × Bool)
  | 0, _, _, _, _ => none
  | f + 1, s, key, val, env =>
    match key with
    | .sym n =>
      if n = 9 then some (s, true)
      else
        match s.modify env key val with
        | none => none
        | some none => some (s, true)
        | some (some s1) => some (s1, true)
    | .cons a =>
      match val with
      | .cons b =>
        match fillLoc f s (s.car a) (s.car b) env with
        | none => none
        | some (s1, false) => some (s1, false)
        | some (s1, true) => fillLoc f s1 (s1.cdr a) (s1.cdr b) env
      | _ => some (s, false)
    | _ => some (s, false)

/-- `get_match_binder_variable`, `src/eval_cps.c:1517-1528`; nil if the pattern is not a binder. -/
def binderVar (s : St) : V → V
  | .cons a =>
    if s.car a = .matchAny then
      match s.cdr a with
      | .cons b => s.car b
      | _ => .nil
    else .nil
  | _ => .nil

/-- `match`, `src/eval_cps.c:1533-1563`: whether the pattern matches, the store and the environment
with the bindings made so far. `struct_eq` is a parameter. -/
def matchP (eq : St → V → V → Bool) : Nat → St → V → V → V → Option (Bool × St × V)
  | 0, _, _, _, _ => none
  | f + 1, s, p, e, env =>
    if s.binderVar p ≠ .nil then
      let (s1, b) := s.cons (s.binderVar p) e
      let (s2, env1) := s1.cons b env
      some (true, s2, env1)
    else
      match p with
      | .sym n => some (decide (n = 9 ∨ p = e), s, env)
      | .cons a =>
        match e with
        | .cons b =>
          match matchP eq f s (s.car a) (s.car b) env with
          | none => none
          | some (false, s1, env1) => some (false, s1, env1)
          | some (true, s1, env1) => matchP eq f s1 (s.cdr a) (s.cdr b) env1
        | _ => some (eq s p e, s, env)
      | _ => some (eq s p e, s, env)

/-- The environment in which a macro is expanded, `src/eval_cps.c:4475-4492`. -/
def macroEnv : Nat → St → V → V → V → Option (St × V)
  | 0, _, _, _, _ => none
  | f + 1, s, params, args, env =>
    match params, args with
    | .cons p, .cons a =>
      let (s1, b) := s.cons (s.car p) (s.car a)
      let (s2, env1) := s1.cons b env
      macroEnv f s2 (s.cdr p) (s.cdr a) env1
    | _, _ => some (s, env)

end St

end Verif.Eval
