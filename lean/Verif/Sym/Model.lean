import Verif.Sym.Table

/-
Model of the symbol table (`src/symrepr.c`) and of the extension table (`src/extensions.c`).

* The linked list `symlist` is a list of entries, newest first. An entry's name is the characters it points
  to, which the runtime never changes: for `lbm_add_symbol_const` and `lbm_add_extension` the caller owns them and is
  assumed not to change them either.
* Success of a memory allocation or of a flash write is an argument.
* Ids are natural numbers. `next_symbol_id` starts at 0x40000 and each entry takes at least twelve bytes, so
  it cannot wrap around in a 32-bit address space.
* Extension functions are numbers; 0 is `lbm_extensions_default`.
-/

namespace Verif.Sym

/-- `str_eq`, `include/lbm_utils.h:50-59`, on strings that end where the list ends (a zero is read there). -/
def strEq : Name → Name → Bool
  | [], [] => true
  | [], b :: _ => if 0 ≠ b then false else true
  | a :: _, [] => if a ≠ 0 then false else true
  | a :: as, b :: bs => if a ≠ b then false else if a = 0 then true else strEq as bs

/-- An extension table slot, `lbm_extension_t`, `include/extensions.h:40-43`. -/
structure Slot where
  name : Option Name
  fptr : Nat
deriving DecidableEq

/-- The state: `extension_table` (its length is `ext_max`), `next_extension_ix`, `symlist`, `next_symbol_id`. -/
structure Tab where
  exts : List Slot
  nextExt : Nat
  syms : List (Name × Nat)
  next : Nat

/-- `EXTENSION_SYMBOLS_START`, `include/lbm_defines.h:379`. -/
def extStart : Nat := 0x10000

/-- `RUNTIME_SYMBOLS_START`, `include/lbm_defines.h:385`. -/
def runtimeStart : Nat := 0x40000

/-- The loop over `special_symbols` in `lbm_get_symbol_by_name`, `src/symrepr.c:338-343`, and the loop over `symlist`,
`src/symrepr.c:353-361`. -/
def listFind (name : Name) : List (Name × Nat) → Option Nat
  | [] => none
  | e :: es => if strEq name e.1 then some e.2 else listFind name es

/-- The loop over the extension table, `src/symrepr.c:346-351` and `lbm_lookup_extension_id`, `src/extensions.c:84-94`. -/
def extFind (name : Name) : List Slot → Nat → Option Nat
  | [], _ => none
  | s :: ss, i =>
    match s.name with
    | some n => if strEq name n then some (extStart + i) else extFind name ss (i + 1)
    | none => extFind name ss (i + 1)

/-- `lbm_get_symbol_by_name`, `src/symrepr.c:335-363`. -/
def getByName (t : Tab) (name : Name) : Option Nat :=
  match listFind name specialTable with
  | some i => some i
  | none =>
    match extFind name t.exts 0 with
    | some i => some i
    | none => listFind name t.syms

/-- Search by id in a table, `src/symrepr.c:286-296` and 305-309. -/
def idFind (id : Nat) : List (Name × Nat) → Option Name
  | [] => none
  | e :: es => if id = e.2 then some e.1 else idFind id es

/-- `lbm_get_name_by_symbol`, `src/symrepr.c:299-321`. -/
def getName (t : Tab) (id : Nat) : Option Name :=
  let kind := id >>> 16
  if kind = 0 ∨ kind = 2 ∨ kind = 3 then idFind id specialTable
  else if kind = 1 then
    match t.exts[id - extStart]? with
    | some s => s.name
    | none => none
  else idFind id t.syms

/-- `lbm_add_symbol_base` into RAM, `src/symrepr.c:442-454` with `add_symbol_to_symtab`, `src/symrepr.c:403-424`: names of 1 to 256
characters. -/
def addBaseRam (t : Tab) (name : Name) (mem : Bool) : Tab × Option Nat :=
  if 1 < name.length + 1 ∧ name.length + 1 ≤ 257 ∧ mem then
    ({ t with syms := (name, t.next) :: t.syms, next := t.next + 1 }, some t.next)
  else (t, none)

/-- `lbm_add_symbol_base` into flash, `src/symrepr.c:442-454` with `store_symbol_name_flash`, `src/symrepr.c:368-387` and
`add_symbol_to_symtab_flash`, `src/symrepr.c:426-440`. `w1`, `w2`: the two flash writes. -/
def addBaseFlash (t : Tab) (name : Name) (w1 w2 : Bool) : Tab × Option Nat :=
  if name.length + 1 = 1 then (t, none)
  else if !w1 then (t, none)
  else if !w2 then (t, none)
  else ({ t with syms := (name, t.next) :: t.syms, next := t.next + 1 }, some t.next)

/-- `lbm_add_symbol_const_base`, `src/symrepr.c:478-488`. -/
def addBaseConst (t : Tab) (name : Name) (mem : Bool) : Tab × Option Nat :=
  if mem then ({ t with syms := (name, t.next) :: t.syms, next := t.next + 1 }, some t.next) else (t, none)

/-- `lbm_add_symbol`, `src/symrepr.c:456-465`, and `lbm_str_to_symbol`, `src/symrepr.c:501-507`. -/
def addSymbol (t : Tab) (name : Name) (mem : Bool) : Tab × Option Nat :=
  match getByName t name with
  | none => addBaseRam t name mem
  | some i => (t, some i)

/-- `lbm_add_symbol_flash`, `src/symrepr.c:467-476`. -/
def addSymbolFlash (t : Tab) (name : Name) (w1 w2 : Bool) : Tab × Option Nat :=
  match getByName t name with
  | none => addBaseFlash t name w1 w2
  | some i => (t, some i)

/-- `lbm_add_symbol_const`, `src/symrepr.c:490-499`. -/
def addSymbolConst (t : Tab) (name : Name) (mem : Bool) : Tab × Option Nat :=
  match getByName t name with
  | none => addBaseConst t name mem
  | some i => (t, some i)

/-- `lbm_get_extension`, `src/extensions.c:66-72`: unsigned subtraction, so ids below the start are out of range. -/
def getExtension (t : Tab) (id : Nat) : Option Nat :=
  if id < extStart then none else (t.exts[id - extStart]?).map (·.fptr)

/-- `lbm_add_extension`, `src/extensions.c:96-121`. -/
def addExtension (t : Tab) (name : Name) (f : Nat) : Tab × Bool :=
  match getByName t name with
  | some id =>
    if (getExtension t id).isSome then
      let ix := id % 0x10000
      match t.exts[ix]? with
      | some s =>
        match s.name with
        | some n => if strEq n name then ({ t with exts := t.exts.set ix { s with fptr := f } }, true) else (t, false)
        | none => (t, false)
      | none => (t, false)
    else (t, false)
  | none =>
    if t.nextExt < t.exts.length then
      ({ t with exts := t.exts.set t.nextExt ⟨some name, f⟩, nextExt := t.nextExt + 1 }, true)
    else (t, false)

/-- `lbm_clr_extension`, `src/extensions.c:74-82`. -/
def clrExtension (t : Tab) (id : Nat) : Tab × Bool :=
  let ix := id % 0x10000
  if ix < t.exts.length then ({ t with exts := t.exts.set ix ⟨none, 0⟩ }, true) else (t, false)

/-- What the reader does with a symbol token, `src/eval_cps.c:3984-4040`: the id, or `none` for an error. `mem1`, `mem2`: the
allocation before and after a garbage collection. `flash`: a program that is read incrementally into flash
(`@const-start`). -/
def readSymbol (t : Tab) (name : Name) (flash mem1 mem2 : Bool) : Tab × Option Nat :=
  match getByName t name with
  | some i => (t, some i)
  | none =>
    if 4 < name.length ∧ name.take 4 = str "ext-" then
      if mem1 || mem2 then
        let r := addExtension t name 0
        match extFind name r.1.exts 0 with
        | none => (r.1, none)
        | some i => if r.2 then (r.1, some i) else (r.1, none)
      else (t, none)
    else if flash then addBaseFlash t name mem1 mem2
    else
      let r := addBaseRam t name mem1
      match r.2 with
      | some i => (r.1, some i)
      | none => addBaseRam r.1 name mem2

/-- `lbm_extensions_init`, `src/extensions.c:40-56`, and `lbm_symrepr_init`, `src/symrepr.c:260-276`, before the symbols x and y
are added. -/
def init0 (extMax : Nat) : Tab :=
  { exts := List.replicate extMax ⟨none, 0⟩, nextExt := 0, syms := [], next := runtimeStart }

/-- `lbm_symrepr_init`, `src/symrepr.c:260-276`. `m1`, `m2`: the allocations for x and y succeed. -/
def init (extMax : Nat) (m1 m2 : Bool) : Tab := (addSymbol (addSymbol (init0 extMax) (str "x") m1).1 (str "y") m2).1

/-- What applying a symbol does. -/
inductive Call
  | extension (f : Nat)
  | fundamental (f : String)
  | appfun (f : String)
  /-- A function pointer is taken from outside the table. -/
  | outside
  | notAFunction
deriving DecidableEq

/-- `application`, `src/eval_cps.c:3053-3105`: which function runs. -/
def dispatch (t : Tab) (id : Nat) : Call :=
  let kind := id >>> 16
  let ix := id % 0x10000
  if kind = 1 then
    match t.exts[ix]? with
    | some s => .extension s.fptr
    | none => .outside
  else if kind = 2 then
    match fundamentalTable[ix]? with
    | some f => .fundamental f
    | none => .outside
  else if kind = 3 then
    match funTable[ix]? with
    | some f => .appfun f
    | none => .outside
  else .notAFunction

/-- `fundamental_uint_to_symbol`, `src/fundamental.c:819-828` (`u2sym`): any number becomes a symbol (of the 28 bits of a `u`
value on a 32-bit machine; the upper bits of a wider value are lost, which is not modelled). -/
def u2sym (n : Nat) : Nat := n

end Verif.Sym
