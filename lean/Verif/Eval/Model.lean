import Verif.Eval.Store

/-!
# The evaluator

`evaluation_step` (`src/eval_cps.c:5162-5205`), the special forms (`eval_*`) and the continuations
(`cont_*`) of one context. The stack is a list of words, top first.

Parameters: the fundamental operations, the extensions, `struct_eq`, and the size of the stack (`none`
for a stack without limit).

Not modelled: dynamic loading of code for unbound symbols (the callback is taken to return false, its default),
message passing, blocking, the reader, moves to flash, `sort` and `merge` (modelled in `Verif.Sort`), garbage collection.
-/

namespace Verif.Eval

/-- The result of a fundamental operation or an extension: a value or an error, and the store. -/
inductive PRes where
  | ok (s : St) (v : V)
  | err (s : St) (v : V)

/-- Operations that take their arguments and return a value: `fundamental_table` and the extensions,
by the id of the symbol, with the local environment; and `struct_eq`. The second attempt after a memory
error (`call_fundamental`, `WITH_GC`) is part of the operation here. -/
structure Prims where
  run : Nat → List V → V → St → PRes
  eq : St → V → V → Bool

/-- The registers and the stack of a context (`eval_context_t`, `include/eval_cps.h`). -/
structure M where
  K : List W
  r : V
  exp : V
  env : V
  app : Bool
  flags : Nat
  program : V
  st : St

/-- What a step does: go on, end the context (with a value or an error), or leave the model: undefined
behaviour (`ub`), or a feature that is not modelled (`out`). -/
inductive Out where
  | next (m : M)
  | fin (st : St) (v : V) (ok : Bool)
  | ub
  | out

/-- `EVAL_CPS_CONTEXT_FLAG_TRAP`, `include/eval_cps.h:41`. -/
def flagTrap (f : Nat) : Bool := decide (f % 2 = 1)

/-- `EVAL_CPS_CONTEXT_FLAG_CONST`, `include/eval_cps.h:42`. -/
def flagConst (f : Nat) : Bool := decide (f / 2 % 2 = 1)

/-- `EVAL_CPS_CONTEXT_FLAG_TRAP_UNROLL_RETURN`, `include/eval_cps.h:45`. -/
def flagUnroll (f : Nat) : Bool := decide (f / 16 % 2 = 1)

/-- `flags |= EVAL_CPS_CONTEXT_FLAG_TRAP_UNROLL_RETURN`. -/
def setUnroll (f : Nat) : Nat := if flagUnroll f then f else f + 16

/-- The loop of `error_ctx_base`, `src/eval_cps.c:1047-1060`: drop words until the code of an exception
handler is found. A slot that was reserved but not written holds whatever was there before: `ub`. -/
def unwind (m : M) (e : V) : List W → Out
  | [] => .fin m.st .fatal false
  | .k 45 :: .raw f :: .v rv :: K => .next { m with K := .k 45 :: .raw f :: .v rv :: K, app := true, r := e, st := m.st.setCar rv .exitError }
  | .k 45 :: _ => .ub
  | .junk :: _ => .ub
  | _ :: K => unwind m e K

/-- `error_ctx_base`, `src/eval_cps.c:1027-1075`. With the flag of `spawn-trap` the context ends and a
message is sent to the parent (the message is not modelled). -/
def raise (m : M) (e : V) : Out :=
  if flagTrap m.flags then .fin m.st e false
  else if flagUnroll m.flags && e ≠ .fatal then unwind m e m.K
  else .fin m.st e false

/-- `stack_reserve`, `src/eval_cps.c:490-498`, followed by writing the words (top first). -/
def reserve (sz : Option Nat) (m : M) (ws : List W) (c : M → Out) : Out :=
  if sz.all (fun n => decide (m.K.length + ws.length < n)) then c { m with K := ws ++ m.K } else raise m .stackError

/-- Continue with a value. -/
def M.ret (m : M) (v : V) : Out := .next { m with r := v, app := true }

/-- Continue with the evaluation of an expression. -/
def M.go (m : M) (e env : V) : Out := .next { m with exp := e, env := env, app := false }

section Step
variable (sz : Option Nat) (P : Prims)

/-- `eval_symbol`, `src/eval_cps.c:1656-1706`. -/
def evalSymbol (m : M) (n : Nat) : Out :=
  if runtimeStart ≤ n then
    match m.st.lookup (.sym n) (m.st.next + 1) m.env with
    | none => .ub
    | some (some v) => m.ret v
    | some none =>
      match m.st.glookup n with
      | none => .ub
      | some (some v) => m.ret v
      | some none => raise m .notFound
  else m.ret (.sym n)

/-- `eval_quote`, `src/eval_cps.c:1709-1712`. -/
def evalQuote (m : M) : Out :=
  match m.st.gcadr m.exp with
  | none => raise m .terror
  | some v => m.ret v

/-- `eval_progn`, `src/eval_cps.c:1721-1740`. -/
def evalProgn (m : M) : Out :=
  match m.st.gcdr m.exp with
  | none => raise m .terror
  | some (.cons a) =>
    if (m.st.cdr a).isCons then reserve sz m [.k 4, m.st.cdr a, .v (.u 0), m.env] fun m => m.go (m.st.car a) m.env
    else m.go (m.st.car a) m.env
  | some (.sym 0) => m.ret .nil
  | some _ => raise m .eerror

/-- `eval_atomic`, `src/eval_cps.c:1743-1748`, and `atomic_error`, `src/eval_cps.c:689-693`. -/
def evalAtomic (m : M) : Out :=
  if m.st.atomic then raise { m with st := { m.st with atomic := false } } .eerror
  else reserve sz m [.k 14] fun m => evalProgn sz { m with st := { m.st with atomic := true } }

/-- `eval_callcc`, `src/eval_cps.c:1751-1779`. -/
def evalCallcc (m : M) : Out :=
  reserve sz m [.v (if m.st.atomic then .tru else .nil)] fun m1 =>
    let s1 : St := { m1.st with konts := fun i => if i = m1.st.nk then m1.K else m1.st.konts i, nk := m1.st.nk + 1 }
    let (s2, acont) := s1.cons .cont (.arr m1.st.nk)
    let (s3, args) := s2.cons acont .nil
    reserve sz { m1 with K := m1.env :: m1.K.tail, st := s3 } [.k 10, args] fun m2 =>
      match m2.st.gcadr m2.exp with
      | none => raise m2 .terror
      | some f => m2.go f m2.env

/-- `eval_define`, `src/eval_cps.c:1785-1803`. Two words are reserved before the form is checked. -/
def evalDefine (m : M) : Out :=
  let args := m.st.tl m.exp
  let key := m.st.hd args
  let val := m.st.hd (m.st.tl args)
  let rest := m.st.tl (m.st.tl args)
  reserve sz m [.junk, .junk] fun m1 =>
    match key with
    | .sym n =>
      if rest = .nil then
        if runtimeStart ≤ n then
          if flagConst m.flags then .out
          else { m1 with K := .k 1 :: key :: m.K }.go val m1.env
        else raise { m1 with K := .junk :: key :: m.K } .eerror
      else raise m1 .eerror
    | _ => raise m1 .eerror

/-- `allocate_closure`, `src/eval_cps.c:569-606`. -/
def allocClosure (s : St) (params body env : V) : St × V :=
  let (s1, c1) := s.cons env .nil
  let (s2, c2) := s1.cons body c1
  let (s3, c3) := s2.cons params c2
  s3.cons .closure c3

/-- `eval_lambda`, `src/eval_cps.c:1823-1844`, without `CLEAN_UP_CLOSURES`. -/
def evalLambda (m : M) : Out :=
  let args := m.st.tl m.exp
  let (s, c) := allocClosure m.st (m.st.hd args) (m.st.hd (m.st.tl args)) m.env
  { m with st := s }.ret c

/-- `eval_if`, `src/eval_cps.c:1847-1854`. -/
def evalIf (m : M) : Out :=
  match m.st.gcdr m.exp with
  | none => raise m .terror
  | some d =>
    reserve sz m [.junk, .junk, .junk] fun m1 =>
      match m1.st.gcdr d, m1.st.gcar d with
      | some br, some c => { m1 with K := .k 3 :: m.env :: br :: m.K }.go c m.env
      | _, _ => raise m1 .terror

/-- `eval_cond`, `src/eval_cps.c:1859-1886`. -/
def evalCond (m : M) : Out :=
  let c1 := m.st.hd (m.st.tl m.exp)
  let rest := m.st.tl (m.st.tl m.exp)
  if c1 = .nil then m.ret .nil
  else
    match m.st.len (m.st.next + 1) c1 with
    | none => .ub
    | some n =>
      if n ≠ 2 then raise m .eerror
      else
        let (s1, other) := m.st.cons .cond rest
        let (s2, t) := s1.cons other .nil
        let (s3, br) := s2.cons (m.st.hd (m.st.tl c1)) t
        reserve sz { m with st := s3 } [.k 3, m.env, br] fun m1 => m1.go (m.st.hd c1) m.env

/-- `eval_app_cont`, `src/eval_cps.c:1889-1892`. -/
def evalAppCont (m : M) : Out :=
  match m.K with
  | [] => .ub
  | _ :: K => .next { m with K := K, app := true }

/-- The loop of `let_bind_values_eval` that makes the binding locations, `src/eval_cps.c:1950-1960`;
inner `none` is a type error. -/
def letLocs (s : St) : Nat → V → V → Option (Option (St × V))
  | 0, _, _ => none
  | f + 1, binds, env =>
    match binds with
    | .cons a =>
      match s.gcar (s.car a) with
      | none => some none
      | some key =>
        match s.createLoc (s.next + 1) key env with
        | none => none
        | some (s1, env1) => letLocs s1 f (s.cdr a) env1
    | _ => some (some (s, env))

/-- `let_bind_values_eval`, `src/eval_cps.c:1947-1979`. -/
def letBind (m : M) (binds body : V) : Out :=
  match binds with
  | .cons _ =>
    match letLocs m.st (m.st.next + 1) binds m.env with
    | none => .ub
    | some none => raise m .terror
    | some (some (s, env)) =>
      let b := s.hd binds
      reserve sz { m with st := s } [.k 2, s.hd b, env, s.tl binds, body] fun m1 => m1.go (s.hd (s.tl b)) env
  | _ => m.go body m.env

/-- `eval_let`, `src/eval_cps.c:2085-2090`. -/
def evalLet (m : M) : Out :=
  let args := m.st.tl m.exp
  letBind sz m (m.st.hd args) (m.st.hd (m.st.tl args))

/-- `eval_var`, `src/eval_cps.c:1989-2026`. -/
def evalVar (m : M) : Out :=
  match m.K with
  | .k 4 :: rest :: .v (.u c) :: .v penv :: K =>
    let copied : Option (St × V) := if c = 0 then m.st.copySpine (m.st.next + 1) penv else some (m.st, penv)
    match copied with
    | none => .ub
    | some (s1, penv1) =>
      let m1 := { m with st := s1, K := .k 4 :: rest :: .v (.u (if c = 0 then 1 else c)) :: .v penv1 :: K }
      match s1.gcdr m.exp with
      | none => raise m1 .terror
      | some args =>
        match s1.gcar args with
        | none => raise m1 .terror
        | some key =>
          match s1.createLoc (s1.next + 1) key penv1 with
          | none => .ub
          | some (s2, penv2) =>
            let m2 := { m1 with st := s2, K := .k 4 :: rest :: .v (.u (if c = 0 then 1 else c)) :: .v penv2 :: K }
            match s2.gcadr args with
            | none => raise m2 .terror
            | some e => reserve sz m2 [.k 26, key, penv2] fun m3 => m3.go e penv2
  | _ => raise m .eerror

/-- `eval_setq`, `src/eval_cps.c:2030-2038`. -/
def evalSetq (m : M) : Out :=
  let args := m.st.tl m.exp
  reserve sz m [.k 27, m.st.hd args, m.env] fun m1 => m1.go (m.st.hd (m.st.tl args)) m.env

/-- `eval_loop`, `src/eval_cps.c:2051-2060`. -/
def evalLoop (m : M) : Out :=
  match m.st.gcdr m.exp with
  | none => raise m .terror
  | some parts =>
    let cond := m.st.hd (m.st.tl parts)
    let body := m.st.hd (m.st.tl (m.st.tl parts))
    reserve sz m [.k 39, cond, body] fun m1 => letBind sz m1 (m.st.hd parts) cond

/-- `eval_trap`, `src/eval_cps.c:2069-2081`. -/
def evalTrap (m : M) : Out :=
  match m.st.gcadr m.exp with
  | none => raise m .terror
  | some e =>
    let (s1, c1) := m.st.cons .nil .nil
    let (s2, rv) := s1.cons .exitOk c1
    reserve sz { m with st := s2 } [.k 45, .raw m.flags, rv] fun m1 => { m1 with flags := setUnroll m.flags }.go e m.env

/-- `eval_and`, `src/eval_cps.c:2093-2105`, and `eval_or`, `src/eval_cps.c:2108-2120`. -/
def evalJunct (code : Nat) (unit : V) (m : M) : Out :=
  match m.st.gcdr m.exp with
  | none => raise m .terror
  | some rest =>
    if rest = .nil then m.ret unit
    else
      reserve sz m [.junk, .junk, .junk] fun m1 =>
        match m1.st.gcdr rest, m1.st.gcar rest with
        | some d, some e => { m1 with K := .k code :: d :: m.env :: m.K }.go e m.env
        | _, _ => raise m1 .terror

/-- `eval_match`, `src/eval_cps.c:2135-2150`. -/
def evalMatch (m : M) : Out :=
  match m.st.gcdr m.exp with
  | none => raise m .terror
  | some (.cons a) => reserve sz m [.k 9, m.env, m.st.cdr a] fun m1 => m1.go (m.st.car a) m.env
  | some _ => raise m .eerror

/-- The table `evaluators`, `src/eval_cps.c:5131-5157`. -/
def evalSpecial (i : Nat) (m : M) : Out :=
  match i with
  | 0 => evalQuote m
  | 1 => evalDefine sz m
  | 2 => evalProgn sz m
  | 3 => evalLambda m
  | 4 => evalIf sz m
  | 5 => evalLet sz m
  | 6 => evalJunct sz 6 .tru m
  | 7 => evalJunct sz 7 .nil m
  | 8 => evalMatch sz m
  | 11 => evalCallcc sz m
  | 12 => evalAtomic sz m
  | 13 => m.ret m.exp
  | 14 => m.ret m.exp
  | 15 => m.ret m.exp
  | 16 => evalCond sz m
  | 17 => evalAppCont m
  | 18 => evalVar sz m
  | 19 => evalSetq sz m
  | 21 => evalLoop sz m
  | 22 => evalTrap sz m
  | _ => .out

/-- `SPECIAL_FORMS_MASK`, `include/lbm_defines.h:255`: the index of a special form. -/
def special : V → Option Nat
  | .sym n => if n / 256 = 1 then some (n % 256) else none
  | _ => none

/-- `apply_setvar`, `src/eval_cps.c:2336-2349`. -/
def applySetvar (m : M) (args : List V) (K : List W) : Out :=
  match args with
  | [.sym n, v] =>
    if runtimeStart ≤ n then
      match m.st.setvar n v m.env with
      | none => .ub
      | some (s, true) => { m with st := s, K := K }.ret v
      | some (s, false) => raise { m with st := s } .notFound
    else raise m .eerror
  | _ => raise m .eerror

/-- `apply_eval`, `src/eval_cps.c:2554-2565`. -/
def applyEval (m : M) (args : List V) (K : List W) : Out :=
  match args with
  | [e] => { m with K := K }.go e m.env
  | [env, e] => { m with K := K }.go e env
  | _ => raise m .eerror

/-- `apply_error`, `src/eval_cps.c:2629-2636`. -/
def applyError (m : M) (args : List V) : Out := raise m (args.headD .eerror)

/-- `apply_map`, `src/eval_cps.c:2639-2679`. -/
def applyMap (m : M) (args : List V) (K : List W) : Out :=
  match args with
  | [f, .cons a] =>
    let (s1, appli0) := m.st.cons (m.st.car a) .nil
    let (s2, appli1) := s1.cons .quote appli0
    let (s3, t) := s2.cons appli1 .nil
    let (s4, appli) := s3.cons f t
    let (s5, elt) := s4.cons m.r .nil
    reserve sz { m with st := s5, K := elt :: m.env :: m.st.cdr a :: K } [.k 23, appli0, appli, elt] fun m1 => m1.go appli m.env
  | [_, .sym 0] => { m with K := K }.ret .nil
  | _ => raise m .eerror

/-- `apply_rest_args`, `src/eval_cps.c:2958-2972`, without an index (with an index: `out`). -/
def applyRestArgs (m : M) (args : List V) (K : List W) : Out :=
  match args with
  | [] =>
    match m.st.lookup .restArgs (m.st.next + 1) m.env with
    | none => .ub
    | some (some v) => { m with K := K }.ret v
    | some none => { m with K := K }.ret .nil
  | _ => .out

/-- Words that are values. -/
def popVals : List W → Option (List V)
  | [] => some []
  | .v x :: K => (popVals K).map (x :: ·)
  | _ :: _ => none

/-- `application`, `src/eval_cps.c:3051-3105`, and `call_fundamental`, `src/eval_cps.c:667-687`. The
function and the `c` arguments are on the top of the stack. -/
def application (m : M) (c : Nat) : Out :=
  let K := m.K.drop (c + 1)
  match (popVals (m.K.take (c + 1))).map List.reverse with
  | some (.sym n :: args) =>
    if args.length ≠ c then .ub
    else if n / 0x10000 = 1 ∨ n / 0x10000 = 2 then
      match P.run n args m.env m.st with
      | .ok s v => { m with st := s, K := K }.ret v
      | .err s e => raise { m with st := s } e
    else if n = 0x30000 then applySetvar m args K
    else if n = 0x30008 then applyEval m args K
    else if n = 0x3000C then applyError m args
    else if n = 0x3000D then applyMap sz m args K
    else if n = 0x30015 then applyRestArgs m args K
    else if n / 0x10000 = 3 then .out
    else raise m .eerror
  | _ => .ub

/-- `cont_application_args`, `src/eval_cps.c:3192-3216`. -/
def contArgs (m : M) : Out :=
  match m.K with
  | .v (.u c) :: .v rest :: .v env :: K =>
    match rest with
    | .cons a =>
      reserve sz { m with K := m.st.cdr a :: env :: m.r :: K } [.k 5, .v (.u (c + 1))] fun m1 => m1.go (m.st.car a) env
    | _ => application sz P { m with K := m.r :: K, env := env } c
  | _ => .ub

/-- `allocate_binding`, `src/eval_cps.c:608-641`. -/
def allocBinding (s : St) (key val rest : V) : St × V :=
  let (s1, b) := s.cons key val
  s1.cons b rest

/-- `cont_application_start`, `src/eval_cps.c:4375-4504`. -/
def contStart (m : M) : Out :=
  match m.r with
  | .sym _ => reserve sz m [.v (.u 0)] fun m1 => contArgs sz P m1
  | .cons fa =>
    match m.K with
    | .v args :: .v aenv :: K =>
      let head := m.st.car fa
      if head = .closure then
        let cl := m.st.cdr fa
        let params := m.st.hd cl
        let body := m.st.hd (m.st.tl cl)
        let cenv := m.st.hd (m.st.tl (m.st.tl cl))
        match m.st.gcar args, m.st.gcdr args with
        | some a0, some arest =>
          reserve sz { m with K := body :: aenv :: K } [.junk, .junk, .junk, .junk] fun m1 =>
            if args ≠ .nil ∧ params ≠ .nil then
              { m1 with K := .k 13 :: arest :: params :: cenv :: body :: aenv :: K }.go a0 aenv
            else if args = .nil ∧ params = .nil then { m1 with K := K }.go body cenv
            else if params = .nil then
              let (s, rb) := allocBinding m1.st .restArgs .nil cenv
              { m1 with st := s, K := .k 42 :: s.hd rb :: arest :: rb :: body :: aenv :: K }.go a0 aenv
            else raise m1 .eerror
        | _, _ => raise m .terror
      else if head = .cont then
        match m.st.cdr fa with
        | .arr c =>
          match m.st.len (m.st.next + 1) args with
          | none => .ub
          | some n =>
            if 1 < n then raise m .eerror
            else
              match m.st.konts c with
              | [] => .ub
              | at_ :: K' =>
                if sz.all (fun b => decide (K'.length + 1 ≤ b)) then
                  { m with K := K', st := { m.st with atomic := decide (at_ ≠ W.v .nil) } }.go (m.st.hd args) m.env
                else .ub
        | _ => raise m .fatal
      else if head = .macroSym then
        match m.st.gcadr m.r, m.st.gcdr m.r with
        | some params, some d =>
          match m.st.macroEnv (m.st.next + 1) params args aenv with
          | none => .ub
          | some (s, eenv) =>
            match s.gcadr d with
            | none => raise { m with st := s, K := .k 11 :: aenv :: K } .terror
            | some e => { m with st := s, K := .k 11 :: aenv :: K }.go e eenv
        | _, _ => raise m .terror
      else raise m .eerror
    | _ => .ub
  | _ => raise m .eerror

/-- `cont_closure_application_args`, `src/eval_cps.c:3107-3150`. -/
def contCloArgs (m : M) : Out :=
  match m.K with
  | .v args :: .v params :: .v cenv :: .v body :: .v aenv :: K =>
    match m.st.gcar params, m.st.gcdr params with
    | some p, some ps =>
      let (s, env) := allocBinding m.st p m.r cenv
      let m1 := { m with st := s }
      if args ≠ .nil ∧ ps ≠ .nil then
        match s.gcar args, s.gcdr args with
        | some a, some as =>
          reserve sz { m1 with K := as :: ps :: env :: body :: aenv :: K } [.k 13] fun m2 => m2.go a aenv
        | _, _ => raise m1 .terror
      else if args = .nil ∧ ps = .nil then { m1 with K := K }.go body env
      else if ps = .nil then
        let (s2, rb) := allocBinding s .restArgs .nil env
        match s2.gcdr args, s2.gcar args with
        | some as, some a =>
          reserve sz { m1 with st := s2, K := s2.hd rb :: as :: rb :: body :: aenv :: K } [.k 42] fun m2 => m2.go a aenv
        | _, _ => raise { m1 with st := s2 } .terror
      else raise m1 .eerror
    | _, _ => raise m .terror
  | _ => .ub

/-- `cont_closure_args_rest`, `src/eval_cps.c:3153-3190`. -/
def contCloRest (m : M) : Out :=
  match m.K with
  | .v last :: .v args :: .v cenv :: .v body :: .v aenv :: K =>
    let (s, b) := m.st.cons m.r .nil
    let s1 := s.setCdr last b
    if args = .nil then { m with st := s1, K := K }.go body cenv
    else
      reserve sz { m with st := s1, K := b :: args :: cenv :: body :: aenv :: K } [.k 42] fun m1 =>
        match s1.gcdr args, s1.gcar args with
        | some as, some a => { m1 with K := .k 42 :: b :: as :: cenv :: body :: aenv :: K }.go a aenv
        | _, _ => raise m1 .terror
  | _ => .ub

/-- `cont_and`, `src/eval_cps.c:3218-3236`. -/
def contAnd (m : M) : Out :=
  match m.K with
  | .v rest :: .v env :: K =>
    let m1 := { m with K := K }
    if m.r = .nil then m1.ret .nil
    else if rest = .nil then m1.ret m.r
    else
      reserve sz m1 [.junk, .junk, .junk] fun m2 =>
        match m.st.gcdr rest, m.st.gcar rest with
        | some d, some e => { m2 with K := .k 6 :: d :: env :: K }.go e env
        | _, _ => raise m2 .terror
  | _ => .ub

/-- `cont_or`, `src/eval_cps.c:3238-3255`. -/
def contOr (m : M) : Out :=
  match m.K with
  | .v rest :: .v env :: K =>
    let m1 := { m with K := K }
    if m.r ≠ .nil then m1.ret m.r
    else if rest = .nil then m1.ret .nil
    else
      reserve sz m1 [.junk, .junk, .junk] fun m2 =>
        match m.st.gcdr rest, m.st.gcar rest with
        | some d, some e => { m2 with K := .k 7 :: d :: env :: K }.go e env
        | _, _ => raise m2 .terror
  | _ => .ub

/-- `cont_bind_to_key_rest`, `src/eval_cps.c:3274-3303`. -/
def contBind (m : M) : Out :=
  match m.K with
  | .v key :: .v env :: .v rest :: .v body :: K =>
    match m.st.fillLoc (m.st.next + 1) key m.r env with
    | none => .ub
    | some (s, false) => raise { m with st := s } .terror
    | some (s, true) =>
      match rest with
      | .cons a =>
        let b := s.car a
        reserve sz { m with st := s, K := s.hd b :: env :: s.cdr a :: body :: K } [.k 2] fun m1 => m1.go (s.hd (s.tl b)) env
      | _ => { m with st := s, K := K }.go body env
  | _ => .ub

/-- `cont_if`, `src/eval_cps.c:3305-3317`. -/
def contIf (m : M) : Out :=
  match m.K with
  | .v env :: .v br :: K =>
    let m1 := { m with K := K, env := env }
    if m.r = .nil then
      match m.st.gcadr br with
      | none => raise m1 .terror
      | some e => m1.go e env
    else
      match m.st.gcar br with
      | none => raise m1 .terror
      | some e => m1.go e env
  | _ => .ub

/-- `cont_match`, `src/eval_cps.c:3319-3387`. -/
def contMatch (m : M) : Out :=
  match m.K with
  | .v oenv :: .v pats :: K =>
    match pats with
    | .sym 0 => { m with K := K }.ret .noMatch
    | .cons a =>
      let mc := m.st.car a
      match m.st.gcar mc, m.st.gcadr mc, (m.st.gcdr mc).bind m.st.gcadr with
      | some p, some n1, some n2 =>
        match m.st.matchP P.eq (m.st.next + 1) p m.r oenv with
        | none => .ub
        | some (true, s, env) =>
          if n2 = .nil then { m with st := s, K := K }.go n1 env
          else
            reserve sz { m with st := s, K := m.env :: s.cdr a :: K } [.k 24, m.r, n2, env, .k 9] fun m1 => m1.go n1 env
        | some (false, s, _) =>
          reserve sz { m with st := s, K := oenv :: s.cdr a :: K } [.k 9] fun m1 => m1.ret m.r
      | _, _, _ => raise m .terror
    | _ => raise m .terror
  | _ => .ub

/-- `cont_map`, `src/eval_cps.c:3404-3430`. -/
def contMap (m : M) : Out :=
  match m.K with
  | .v arg :: .v appli :: .v t :: .v res :: .v env :: .v ls :: K =>
    let s := m.st.setCar t m.r
    match ls with
    | .cons a =>
      let x := s.car a
      let rest := s.cdr a
      reserve sz { m with st := s, K := arg :: appli :: t :: res :: env :: rest :: K } [.k 23] fun m1 =>
        let s1 := s.setCar arg x
        let (s2, elt) := s1.cons .nil .nil
        let s3 := s2.setCdr t elt
        { m1 with st := s3, K := .k 23 :: arg :: appli :: elt :: res :: env :: rest :: K }.go appli env
    | _ => { m with st := s, K := K, env := env }.ret res
  | _ => .ub

/-- `cont_match_guard`, `src/eval_cps.c:3432-3448`. -/
def contGuard (m : M) : Out :=
  match m.K with
  | .v e :: .v body :: .v env :: K =>
    if m.r = .nil then { m with K := K }.ret e
    else
      match K with
      | _ :: _ :: _ :: K' => { m with K := K' }.go body env
      | _ => .ub
  | _ => .ub

/-- `cont_loop`, `src/eval_cps.c:3454-3458`. The local environment is not restored. -/
def contLoop (m : M) : Out :=
  match m.K with
  | .v cond :: _ :: _ => reserve sz m [.k 39] fun m1 => m1.go cond m.env
  | _ => .ub

/-- `cont_loop_condition`, `src/eval_cps.c:3460-3469`. The local environment is not restored. -/
def contLoopCond (m : M) : Out :=
  match m.K with
  | _ :: .v body :: K =>
    if m.r = .nil then { m with K := K }.ret m.r
    else reserve sz m [.k 38] fun m1 => m1.go body m.env
  | _ => .ub

/-- `cont_progn_rest`, `src/eval_cps.c:2267-2285`. -/
def contProgn (m : M) : Out :=
  match m.K with
  | .v (.cons a) :: c :: .v env :: K =>
    if (m.st.cdr a).isCons then
      reserve sz { m with K := m.st.cdr a :: c :: env :: K } [.k 4] fun m1 => m1.go (m.st.car a) env
    else { m with K := K }.go (m.st.car a) env
  | _ => .ub

/-- `cont_progn_var`, `src/eval_cps.c:4513-4526`. -/
def contVar (m : M) : Out :=
  match m.K with
  | .v key :: .v env :: K =>
    match m.st.fillLoc (m.st.next + 1) key m.r env with
    | none => .ub
    | some (s, false) => raise { m with st := s, K := K } .terror
    | some (s, true) => { m with st := s, K := K }.ret m.r
  | _ => .ub

/-- `cont_setq`, `src/eval_cps.c:4528-4536`; `lbm_dec_sym` of something that is not a symbol is taken
to be below `RUNTIME_SYMBOLS_START` (simplification). -/
def contSetq (m : M) : Out :=
  match m.K with
  | .v key :: .v env :: K =>
    let m1 := { m with K := K }
    match key with
    | .sym n =>
      if runtimeStart ≤ n then
        match m.st.setvar n m.r env with
        | none => .ub
        | some (s, true) => { m1 with st := s }.ret m.r
        | some (s, false) => raise { m1 with st := s } .notFound
      else raise m1 .eerror
    | _ => raise m1 .eerror
  | _ => .ub

/-- `cont_set_global_env`, `src/eval_cps.c:2228-2248`. -/
def contDefine (m : M) : Out :=
  match m.K with
  | .v (.sym n) :: K =>
    match m.st.define n m.r with
    | none => .ub
    | some s => { m with st := s, K := K }.ret m.r
  | _ => .ub

/-- `cont_exception_handler`, `src/eval_cps.c:4969-4978`. -/
def contHandler (m : M) : Out :=
  match m.K with
  | .raw f :: .v rv :: K =>
    match m.st.gcdr rv with
    | none => raise { m with K := K } .terror
    | some c => { m with K := K, flags := f, st := m.st.setCar c m.r }.ret rv
  | _ => .ub

/-- `cont_eval_r`, `src/eval_cps.c:4506-4511`. -/
def contEvalR (m : M) : Out :=
  match m.K with
  | .v env :: K => { m with K := K }.go m.r env
  | _ => .ub

/-- `advance_ctx`, `src/eval_cps.c:1383-1395`, and `ok_ctx`. -/
def contDone (m : M) : Out :=
  match m.program with
  | .sym 0 => .fin m.st m.r true
  | .cons a => reserve sz { m with program := m.st.cdr a } [.k 0] fun m1 => m1.go (m.st.car a) .nil
  | _ => .ub

/-- The table `continuations`, `src/eval_cps.c:5074-5125`. -/
def runCont (c : Nat) (m : M) : Out :=
  match c with
  | 0 => contDone sz m
  | 1 => contDefine m
  | 2 => contBind sz m
  | 3 => contIf m
  | 4 => contProgn sz m
  | 5 => contArgs sz P m
  | 6 => contAnd sz m
  | 7 => contOr sz m
  | 9 => contMatch sz P m
  | 10 => contStart sz P m
  | 11 => contEvalR m
  | 13 => contCloArgs sz m
  | 14 => { m with st := { m.st with atomic := false } }.ret m.r
  | 23 => contMap sz m
  | 24 => contGuard m
  | 25 => raise m m.r
  | 26 => contVar m
  | 27 => contSetq m
  | 38 => contLoop sz m
  | 39 => contLoopCond sz m
  | 42 => contCloRest sz m
  | 45 => contHandler m
  | _ => .out

/-- `evaluation_step`, `src/eval_cps.c:5162-5205`. -/
def step (m : M) : Out :=
  if m.app then
    match m.K with
    | .k c :: K => runCont sz P c { m with K := K, app := false }
    | _ => .ub
  else
    match m.exp with
    | .sym n => evalSymbol m n
    | .cons a =>
      match special (m.st.car a) with
      | some i => evalSpecial sz i m
      | none => reserve sz m [.k 10, m.st.cdr a, m.env] fun m1 => m1.go (m.st.car a) m.env
    | v => m.ret v

/-- `n` steps. -/
def steps : Nat → Out → Out
  | 0, o => o
  | n + 1, .next m => steps n (step sz P m)
  | _ + 1, o => o

end Step

end Verif.Eval
