import Verif.Eval.Model

/-!
# The evaluator with garbage collection

The evaluator of `Verif.Eval.Model` never frees a cell. Here the same functions are given with the
collector: at every allocation the collector may run, with the roots that the code marks at that
place, and the new cell may be any cell that is not in use. What the collector does to the cells that it
frees, when it runs and which free cell is taken is decided by a parameter, `Gc`.

Only the functions that allocate are repeated. Simplifications: the second attempt after a collection is
the only one (the cells of a first attempt that ran out of memory are garbage); cells taken together
(`lbm_heap_allocate_list`, the two cells of a binding) are taken one by one, with the cells already taken as roots;
the local environment is marked like a value (`lbm_gc_mark_env` does not mark the keys, which are symbols);
other contexts, whose roots are marked as well, are not present; memory is never exhausted.
-/

namespace Verif.Gc

open Verif.Eval

/-- The collector (`gc`, `src/eval_cps.c:1608-1646`) and the allocators: what is left of the store when it has been collected
with the given roots, and the cell and the array that are taken from the free ones. -/
structure Gc where
  collect : List V → St → St
  pick : List V → St → Nat
  pickArr : List V → St → Nat

/-- The values among the words of a stack (`lbm_gc_mark_aux`, `src/heap.c:864-876`). -/
def vals : List W → List V
  | [] => []
  | .v x :: K => x :: vals K
  | _ :: K => vals K

/-- What `mark_context` marks, `src/eval_cps.c:1597-1606`; the mailbox is not part of the model. -/
def roots (m : M) : List V := m.exp :: m.program :: m.r :: m.env :: vals m.K

namespace Gc

/-- `lbm_cons`, `cons_with_gc` (`src/eval_cps.c:444-468`), `lbm_heap_allocate_cell`: collect, with the roots `R`, and take a cell. -/
def cons (g : Gc) (R : List V) (s : St) (a d : V) : St × V :=
  let s1 := g.collect R s
  let b := g.pick R s1
  ({ s1 with car := fun i => if i = b then a else s1.car i, cdr := fun i => if i = b then d else s1.cdr i, next := s1.next + 1 }, .cons b)

/-- `lbm_heap_allocate_lisp_array` and the copy of the stack, `src/eval_cps.c:1758-1764`. -/
def newArr (g : Gc) (R : List V) (s : St) (K : List W) : St × V :=
  let s1 := g.collect R s
  let b := g.pickArr R s1
  ({ s1 with konts := fun i => if i = b then K else s1.konts i, nk := s1.nk + 1 }, .arr b)

end Gc

/-- Fundamental operations and extensions that allocate from a heap with a collector: the additional parameters are the collector and the
roots of the context that calls them (`call_fundamental`, `src/eval_cps.c:667-687`; `WITH_GC`, `src/eval_cps.c:3065`). -/
structure PrimsG where
  run : Gc → List V → Nat → List V → V → St → PRes
  eq : St → V → V → Bool

section Step
variable (sz : Option Nat) (g : Gc) (P : PrimsG)

/-- `lbm_env_set`, `src/env.c:96-117`. -/
def envSet (R : List V) (s : St) (env key val : V) : Option (St × V) :=
  match s.findPair key (s.next + 1) env with
  | none => none
  | some (some p) => some (s.setCdr p val, env)
  | some none =>
    let (s1, p) := g.cons R s key val
    some (g.cons (p :: R) s1 p env)

/-- `cont_set_global_env`, `src/eval_cps.c:2228-2248`. -/
def define (R : List V) (s : St) (n : Nat) (val : V) : Option St :=
  match envSet g R s (s.globals (n % 32)) (.sym n) val with
  | none => none
  | some (s1, e) => some { s1 with globals := fun i => if i = n % 32 then e else s1.globals i }

/-- `lbm_env_copy_spine`, `src/env.c:40-58`: the list is allocated before it is filled. -/
def copySpine (R : List V) (s : St) : Nat → V → Option (St × V)
  | 0, _ => none
  | f + 1, .cons a =>
    match copySpine R s f (s.cdr a) with
    | none => none
    | some (s1, t) => some (g.cons (t :: R) s1 (s1.car a) t)
  | _ + 1, _ => some (s, .nil)

/-- `create_binding_location_internal`, `src/eval_cps.c:1896-1917`; `R` are the roots of `create_binding_location`, `src/eval_cps.c:1919-1945`. -/
def createLoc (R : List V) : Nat → St → V → V → Option (St × V)
  | 0, _, _, _ => none
  | f + 1, s, key, env =>
    match key with
    | .sym n =>
      if n = 0 ∨ n = 9 then some (s, env)
      else
        let (s1, b) := g.cons (env :: R) s key .placeholder
        some (g.cons (b :: env :: R) s1 b env)
    | .cons a =>
      match createLoc R f s (s.car a) env with
      | none => none
      | some (s1, env1) => createLoc R f s1 (s1.cdr a) env1
    | _ => some (s, env)

/-- `match`, `src/eval_cps.c:1533-1563`, within `cont_match`: the bindings made so far are not among the roots, but
after a collection the match is made again from the start. -/
def matchP (R : List V) : Nat → St → V → V → V → Option (Bool × St × V)
  | 0, _, _, _, _ => none
  | f + 1, s, p, e, env =>
    if s.binderVar p ≠ .nil then
      let (s1, b) := g.cons (env :: R) s (s.binderVar p) e
      let (s2, env1) := g.cons (b :: env :: R) s1 b env
      some (true, s2, env1)
    else
      match p with
      | .sym n => some (decide (n = 9 ∨ p = e), s, env)
      | .cons a =>
        match e with
        | .cons b =>
          match matchP R f s (s.car a) (s.car b) env with
          | none => none
          | some (false, s1, env1) => some (false, s1, env1)
          | some (true, s1, env1) => matchP R f s1 (s1.cdr a) (s1.cdr b) env1
        | _ => some (P.eq s p e, s, env)
      | _ => some (P.eq s p e, s, env)

/-- The environment in which a macro is expanded, `src/eval_cps.c:4475-4492`. -/
def macroEnv (R : List V) : Nat → St → V → V → V → Option (St × V)
  | 0, _, _, _, _ => none
  | f + 1, s, params, args, env =>
    match params, args with
    | .cons p, .cons a =>
      let p1 := s.cdr p
      let a1 := s.cdr a
      let (s1, b) := g.cons ([s.car p, s.car a, env] ++ R) s (s.car p) (s.car a)
      let (s2, env1) := g.cons ([b, env, .nil] ++ R) s1 b env
      macroEnv R f s2 p1 a1 env1
    | _, _ => some (s, env)

/-- `eval_callcc`, `src/eval_cps.c:1751-1779`. -/
def evalCallcc (m : M) : Out :=
  reserve sz m [.v (if m.st.atomic then .tru else .nil)] fun m1 =>
    let (s1, arr) := g.newArr (roots m1) m1.st m1.K
    let (s2, acont) := g.cons ([.cont, arr, .nil] ++ roots m1) s1 .cont arr
    let (s3, args) := g.cons ([acont, .nil, .nil] ++ roots m1) s2 acont .nil
    reserve sz { m1 with K := m1.env :: m1.K.tail, st := s3 } [.k 10, args] fun m2 =>
      match m2.st.gcadr m2.exp with
      | none => raise m2 .terror
      | some f => m2.go f m2.env

/-- `allocate_closure`, `src/eval_cps.c:577-606`. -/
def allocClosure (R : List V) (s : St) (params body env : V) : St × V :=
  let (s1, c1) := g.cons R s env .nil
  let (s2, c2) := g.cons (c1 :: R) s1 body c1
  let (s3, c3) := g.cons (c2 :: R) s2 params c2
  g.cons (c3 :: R) s3 .closure c3

/-- `eval_lambda`, `src/eval_cps.c:1823-1844`, without `CLEAN_UP_CLOSURES`. -/
def evalLambda (m : M) : Out :=
  let args := m.st.tl m.exp
  let (s, c) := allocClosure g (roots m) m.st (m.st.hd args) (m.st.hd (m.st.tl args)) m.env
  { m with st := s }.ret c

/-- `eval_cond`, `src/eval_cps.c:1859-1886`. -/
def evalCond (m : M) : Out :=
  let c1 := m.st.hd (m.st.tl m.exp)
  let rest := m.st.tl (m.st.tl m.exp)
  if c1 = .nil then m.ret .nil
  else
    match m.st.len (m.st.next + 1) c1 with
    | none => .ub
    | some n =>
      if n ≠ 2 then raise m .eerror
      else
        let c := m.st.hd c1
        let thn := m.st.hd (m.st.tl c1)
        let (s1, other) := g.cons ([.cond, rest, .nil] ++ roots m) m.st .cond rest
        let (s2, t) := g.cons (other :: roots m) s1 other .nil
        let (s3, br) := g.cons (t :: roots m) s2 thn t
        reserve sz { m with st := s3 } [.k 3, m.env, br] fun m1 => m1.go c m.env

/-- The loop of `let_bind_values_eval` that makes the binding locations, `src/eval_cps.c:1950-1960`. -/
def letLocs (R : List V) (s : St) : Nat → V → V → Option (Option (St × V))
  | 0, _, _ => none
  | f + 1, binds, env =>
    match binds with
    | .cons a =>
      match s.gcar (s.car a) with
      | none => some none
      | some key =>
        match createLoc g (env :: R) (s.next + 1) s key env with
        | none => none
        | some (s1, env1) => letLocs R s1 f (s.cdr a) env1
    | _ => some (some (s, env))

/-- `let_bind_values_eval`, `src/eval_cps.c:1947-1979`. -/
def letBind (m : M) (binds body : V) : Out :=
  match binds with
  | .cons _ =>
    match letLocs g (roots m) m.st (m.st.next + 1) binds m.env with
    | none => .ub
    | some none => raise m .terror
    | some (some (s, env)) =>
      let b := s.hd binds
      reserve sz { m with st := s } [.k 2, s.hd b, env, s.tl binds, body] fun m1 => m1.go (s.hd (s.tl b)) env
  | _ => m.go body m.env

/-- `eval_let`, `src/eval_cps.c:2085-2090`. -/
def evalLet (m : M) : Out :=
  let args := m.st.tl m.exp
  letBind sz g m (m.st.hd args) (m.st.hd (m.st.tl args))

/-- `eval_var`, `src/eval_cps.c:1989-2026`. -/
def evalVar (m : M) : Out :=
  match m.K with
  | .k 4 :: rest :: .v (.u c) :: .v penv :: K =>
    let copied : Option (St × V) := if c = 0 then copySpine g (roots m) m.st (m.st.next + 1) penv else some (m.st, penv)
    match copied with
    | none => .ub
    | some (s1, penv1) =>
      let m1 := { m with st := s1, K := .k 4 :: rest :: .v (.u (if c = 0 then 1 else c)) :: .v penv1 :: K }
      match s1.gcdr m.exp with
      | none => raise m1 .terror
      | some args =>
        match s1.gcar args with
        | none => raise m1 .terror
        | some key =>
          match createLoc g (penv1 :: roots m1) (s1.next + 1) s1 key penv1 with
          | none => .ub
          | some (s2, penv2) =>
            let m2 := { m1 with st := s2, K := .k 4 :: rest :: .v (.u (if c = 0 then 1 else c)) :: .v penv2 :: K }
            match s2.gcadr args with
            | none => raise m2 .terror
            | some e => reserve sz m2 [.k 26, key, penv2] fun m3 => m3.go e penv2
  | _ => raise m .eerror

/-- `eval_loop`, `src/eval_cps.c:2051-2060`. -/
def evalLoop (m : M) : Out :=
  match m.st.gcdr m.exp with
  | none => raise m .terror
  | some parts =>
    let binds := m.st.hd parts
    let cond := m.st.hd (m.st.tl parts)
    let body := m.st.hd (m.st.tl (m.st.tl parts))
    reserve sz m [.k 39, cond, body] fun m1 => letBind sz g m1 binds cond

/-- `eval_trap`, `src/eval_cps.c:2069-2081`: the list is allocated before its first element is written. -/
def evalTrap (m : M) : Out :=
  match m.st.gcadr m.exp with
  | none => raise m .terror
  | some e =>
    let (s1, c1) := g.cons (roots m) m.st .nil .nil
    let (s2, rv) := g.cons (c1 :: roots m) s1 .nil c1
    let s3 := s2.setCar rv .exitOk
    reserve sz { m with st := s3 } [.k 45, .raw m.flags, rv] fun m1 => { m1 with flags := setUnroll m.flags }.go e m.env

/-- The table `evaluators`, `src/eval_cps.c:5131-5157`. -/
def evalSpecial (i : Nat) (m : M) : Out :=
  match i with
  | 3 => evalLambda g m
  | 5 => evalLet sz g m
  | 11 => evalCallcc sz g m
  | 16 => evalCond sz g m
  | 18 => evalVar sz g m
  | 21 => evalLoop sz g m
  | 22 => evalTrap sz g m
  | i => Eval.evalSpecial sz i m

/-- `apply_map`, `src/eval_cps.c:2639-2679`: two lists of two cells are allocated, then filled, then the first cell of the result is
allocated. The arguments are on the stack of `m`; `K` is the stack without them. -/
def applyMap (m : M) (args : List V) (K : List W) : Out :=
  match args with
  | [f, .cons a] =>
    let h := m.st.car a
    let t := m.st.cdr a
    let (s1, appli0) := g.cons (roots m) m.st .nil .nil
    let (s2, appli1) := g.cons (appli0 :: roots m) s1 .nil appli0
    let (s3, c) := g.cons (appli1 :: roots m) s2 .nil .nil
    let (s4, appli) := g.cons (c :: appli1 :: roots m) s3 .nil c
    let s5 := (((s4.setCar appli0 h).setCar appli1 .quote).setCar c appli1).setCar appli f
    let (s6, elt) := g.cons ([m.r, .nil, appli] ++ roots m) s5 m.r .nil
    reserve sz { m with st := s6, K := elt :: m.env :: t :: K } [.k 23, appli0, appli, elt] fun m1 => m1.go appli m.env
  | [_, .sym 0] => { m with K := K }.ret .nil
  | _ => raise m .eerror

/-- `application`, `src/eval_cps.c:3051-3105`, and `call_fundamental`, `src/eval_cps.c:667-687`. -/
def application (m : M) (c : Nat) : Out :=
  let K := m.K.drop (c + 1)
  match (popVals (m.K.take (c + 1))).map List.reverse with
  | some (.sym n :: args) =>
    if args.length ≠ c then .ub
    else if n / 0x10000 = 1 ∨ n / 0x10000 = 2 then
      match P.run g (roots m) n args m.env m.st with
      | .ok s v => { m with st := s, K := K }.ret v
      | .err s e => raise { m with st := s } e
    else if n = 0x30000 then applySetvar m args K
    else if n = 0x30008 then applyEval m args K
    else if n = 0x3000C then applyError m args
    else if n = 0x3000D then applyMap sz g m args K
    else if n = 0x30015 then applyRestArgs m args K
    else if n / 0x10000 = 3 then .out
    else raise m .eerror
  | _ => .ub

/-- `cont_application_args`, `src/eval_cps.c:3192-3216`. -/
def contArgs (m : M) : Out :=
  match m.K with
  | .v (.u c) :: .v rest :: .v env :: K =>
    match rest with
    | .cons a =>
      reserve sz { m with K := m.st.cdr a :: env :: m.r :: K } [.k 5, .v (.u (c + 1))] fun m1 => m1.go (m.st.car a) env
    | _ => application sz g P { m with K := m.r :: K, env := env } c
  | _ => .ub

/-- `allocate_binding`, `src/eval_cps.c:609-641`. -/
def allocBinding (R : List V) (s : St) (key val rest : V) : St × V :=
  let (s1, b) := g.cons ([key, val, rest] ++ R) s key val
  g.cons (b :: [key, val, rest] ++ R) s1 b rest

/-- `cont_application_start`, `src/eval_cps.c:4375-4504`. When the arguments are collected in a rest list, their stack slot has
been overwritten with the body, and they are protected in a reserved slot and in `curr_exp`. -/
def contStart (m : M) : Out :=
  match m.r with
  | .sym _ => reserve sz m [.v (.u 0)] fun m1 => contArgs sz g P m1
  | .cons fa =>
    match m.K with
    | .v args :: .v aenv :: K =>
      let head := m.st.car fa
      if head = .closure then
        let cl := m.st.cdr fa
        let params := m.st.hd cl
        let body := m.st.hd (m.st.tl cl)
        let cenv := m.st.hd (m.st.tl (m.st.tl cl))
        match m.st.gcar args, m.st.gcdr args with
        | some a0, some arest =>
          reserve sz { m with K := body :: aenv :: K } [.junk, .junk, .junk, .junk] fun m1 =>
            if args ≠ .nil ∧ params ≠ .nil then
              { m1 with K := .k 13 :: arest :: params :: cenv :: body :: aenv :: K }.go a0 aenv
            else if args = .nil ∧ params = .nil then { m1 with K := K }.go body cenv
            else if params = .nil then
              let m2 := { m1 with K := .junk :: .junk :: arest :: .junk :: body :: aenv :: K, exp := a0, env := aenv }
              let (s, rb) := allocBinding g (roots m2) m2.st .restArgs .nil cenv
              { m1 with st := s, K := .k 42 :: s.hd rb :: arest :: rb :: body :: aenv :: K }.go a0 aenv
            else raise m1 .eerror
        | _, _ => raise m .terror
      else if head = .cont then
        match m.st.cdr fa with
        | .arr c =>
          match m.st.len (m.st.next + 1) args with
          | none => .ub
          | some n =>
            if 1 < n then raise m .eerror
            else
              match m.st.konts c with
              | [] => .ub
              | at_ :: K' =>
                if sz.all (fun b => decide (K'.length + 1 ≤ b)) then
                  { m with K := K', st := { m.st with atomic := decide (at_ ≠ W.v .nil) } }.go (m.st.hd args) m.env
                else .ub
        | _ => raise m .fatal
      else if head = .macroSym then
        match m.st.gcadr m.r, m.st.gcdr m.r with
        | some params, some d =>
          match macroEnv g (roots m) (m.st.next + 1) m.st params args aenv with
          | none => .ub
          | some (s, eenv) =>
            match s.gcadr d with
            | none => raise { m with st := s, K := .k 11 :: aenv :: K } .terror
            | some e => { m with st := s, K := .k 11 :: aenv :: K }.go e eenv
        | _, _ => raise m .terror
      else raise m .eerror
    | _ => .ub
  | _ => raise m .eerror

/-- `cont_closure_application_args`, `src/eval_cps.c:3107-3150`. -/
def contCloArgs (m : M) : Out :=
  match m.K with
  | .v args :: .v params :: .v cenv :: .v body :: .v aenv :: K =>
    match m.st.gcar params, m.st.gcdr params with
    | some p, some ps =>
      let (s, env) := allocBinding g (roots m) m.st p m.r cenv
      let m1 := { m with st := s }
      if args ≠ .nil ∧ ps ≠ .nil then
        match s.gcar args, s.gcdr args with
        | some a, some as =>
          reserve sz { m1 with K := as :: ps :: env :: body :: aenv :: K } [.k 13] fun m2 => m2.go a aenv
        | _, _ => raise m1 .terror
      else if args = .nil ∧ ps = .nil then { m1 with K := K }.go body env
      else if ps = .nil then
        let (s2, rb) := allocBinding g (roots m1) s .restArgs .nil env
        match s2.gcdr args, s2.gcar args with
        | some as, some a =>
          reserve sz { m1 with st := s2, K := s2.hd rb :: as :: rb :: body :: aenv :: K } [.k 42] fun m2 => m2.go a aenv
        | _, _ => raise { m1 with st := s2 } .terror
      else raise m1 .eerror
    | _, _ => raise m .terror
  | _ => .ub

/-- `cont_closure_args_rest`, `src/eval_cps.c:3153-3190`. -/
def contCloRest (m : M) : Out :=
  match m.K with
  | .v last :: .v args :: .v cenv :: .v body :: .v aenv :: K =>
    let (s, b) := g.cons (roots m) m.st m.r .nil
    let s1 := s.setCdr last b
    if args = .nil then { m with st := s1, K := K }.go body cenv
    else
      reserve sz { m with st := s1, K := b :: args :: cenv :: body :: aenv :: K } [.k 42] fun m1 =>
        match s1.gcdr args, s1.gcar args with
        | some as, some a => { m1 with K := .k 42 :: b :: as :: cenv :: body :: aenv :: K }.go a aenv
        | _, _ => raise m1 .terror
  | _ => .ub

/-- `cont_match`, `src/eval_cps.c:3319-3387`. -/
def contMatch (m : M) : Out :=
  match m.K with
  | .v oenv :: .v pats :: K =>
    match pats with
    | .sym 0 => { m with K := K }.ret .noMatch
    | .cons a =>
      let mc := m.st.car a
      match m.st.gcar mc, m.st.gcadr mc, (m.st.gcdr mc).bind m.st.gcadr with
      | some p, some n1, some n2 =>
        match matchP g P (roots m) (m.st.next + 1) m.st p m.r oenv with
        | none => .ub
        | some (true, s, env) =>
          if n2 = .nil then { m with st := s, K := K }.go n1 env
          else
            reserve sz { m with st := s, K := m.env :: s.cdr a :: K } [.k 24, m.r, n2, env, .k 9] fun m1 => m1.go n1 env
        | some (false, s, _) =>
          reserve sz { m with st := s, K := oenv :: s.cdr a :: K } [.k 9] fun m1 => m1.ret m.r
      | _, _, _ => raise m .terror
    | _ => raise m .terror
  | _ => .ub

/-- `cont_map`, `src/eval_cps.c:3404-3430`. -/
def contMap (m : M) : Out :=
  match m.K with
  | .v arg :: .v appli :: .v t :: .v res :: .v env :: .v ls :: K =>
    let s := m.st.setCar t m.r
    match ls with
    | .cons a =>
      let x := s.car a
      let rest := s.cdr a
      reserve sz { m with st := s, K := arg :: appli :: t :: res :: env :: rest :: K } [.k 23] fun m1 =>
        let s1 := s.setCar arg x
        let (s2, elt) := g.cons ([.nil, .nil, .nil] ++ roots m1) s1 .nil .nil
        let s3 := s2.setCdr t elt
        { m1 with st := s3, K := .k 23 :: arg :: appli :: elt :: res :: env :: rest :: K }.go appli env
    | _ => { m with st := s, K := K, env := env }.ret res
  | _ => .ub

/-- `cont_set_global_env`, `src/eval_cps.c:2228-2248`. The key has been popped when the collector may run. -/
def contDefine (m : M) : Out :=
  match m.K with
  | .v (.sym n) :: K =>
    match define g (roots { m with K := K }) m.st n m.r with
    | none => .ub
    | some s => { m with st := s, K := K }.ret m.r
  | _ => .ub

/-- The table `continuations`, `src/eval_cps.c:5074-5125`. -/
def runCont (c : Nat) (m : M) : Out :=
  match c with
  | 1 => contDefine g m
  | 5 => contArgs sz g P m
  | 9 => contMatch sz g P m
  | 10 => contStart sz g P m
  | 13 => contCloArgs sz g m
  | 23 => contMap sz g m
  | 42 => contCloRest sz g m
  | c => Eval.runCont sz ⟨fun n a e s => P.run g [] n a e s, P.eq⟩ c m

/-- `evaluation_step`, `src/eval_cps.c:5162-5205`. -/
def step (m : M) : Out :=
  if m.app then
    match m.K with
    | .k c :: K => runCont sz g P c { m with K := K, app := false }
    | _ => .ub
  else
    match m.exp with
    | .sym n => evalSymbol m n
    | .cons a =>
      match special (m.st.car a) with
      | some i => evalSpecial sz g i m
      | none => reserve sz m [.k 10, m.st.cdr a, m.env] fun m1 => m1.go (m.st.car a) m.env
    | v => m.ret v

end Step

/-- `n` steps. Before each of them the collector may run (`gc_requested`, `src/eval_cps.c:5390-5392`). The
collector is given for every step, so that what it does can depend on everything that happened before. -/
def steps (sz : Option Nat) (g : Nat → Gc) (P : PrimsG) : Nat → Out → Out
  | 0, o => o
  | n + 1, .next m => steps sz (fun k => g (k + 1)) P n (step sz (g 0) P { m with st := (g 0).collect (roots m) m.st })
  | _ + 1, o => o

end Verif.Gc
