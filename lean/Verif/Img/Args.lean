import Verif.Img.Model

/-! # The arguments of the drawing functions

`decode_args`, `src/extensions/display_extensions.c:1834-1962`. A write outside of the arrays of the result and an access through a null pointer are the outcome `ub`. -/

namespace Verif.Img.Args

/-- The attributes, `src/extensions/display_extensions.c:1847-1853`. -/
inductive Kind where
  | thickness | filled | rounded | dotted | scale | rotate | resolution
  deriving DecidableEq, Repr

/-- The numbers of an attribute, `src/extensions/display_extensions.c:1902-1922`. -/
def Kind.arity : Kind → Nat
  | .filled => 0
  | .thickness | .rounded | .scale | .resolution => 1
  | .dotted => 2
  | .rotate => 3

/-- An element of the list of an attribute: a number, the name of an attribute, or something else. Numbers are told apart by what they are, nothing is computed with them. -/
inductive Item where
  | num (v : Nat)
  | key (k : Kind)
  | other
  deriving DecidableEq, Repr

/-- An argument after the image: a number, a list that is not empty, or something else. What follows the elements of an improper list does not matter to the code. -/
inductive Arg where
  | num (v : Nat)
  | cons (a : Item) (l : List Item)
  | other
  deriving DecidableEq, Repr

/-- `attr_t`, `src/extensions/display_extensions.c:1837-1841`. `args` has three elements. -/
structure At where
  valid : Bool
  n : Nat
  args : List Nat

/-- `img_args_t`, `src/extensions/display_extensions.c:1843-1854`. `args` has eight elements. -/
structure Res where
  valid : Bool
  img : Option Img
  args : List Nat
  attr : Kind → At

/-- The result of a step: undefined behaviour, the function returns, or it goes on. -/
inductive Out (α : Type) where
  | ub
  | stop (r : Res)
  | go (a : α)

/-- Changes an attribute. -/
def Res.upd (r : Res) (k : Kind) (a : At) : Res := { r with attr := fun k' => if k' = k then a else r.attr k' }

/-- The body of the loop over the elements of an attribute up to the increment, `src/extensions/display_extensions.c:1895-1932`. -/
def attrStep (a : Item) (ind : Nat) (now : Option Kind) (r : Res) : Out (Res × Option Kind) :=
  if ind = 0 then
    match a with
    | .key k => .go (r.upd k { r.attr k with n := k.arity }, some k)
    | _ => .stop r
  else
    match a with
    | .num v =>
      match now with
      | some k => if ind - 1 < (r.attr k).args.length then .go (r.upd k { r.attr k with args := (r.attr k).args.set (ind - 1) v }, now) else .ub
      | none => .ub
    | _ => .stop r

/-- The loop over the elements of an attribute, `src/extensions/display_extensions.c:1894-1940`. -/
def attrLoop : List Item → Nat → Option Kind → Res → Out (Res × Nat × Option Kind)
  | [], ind, now, r => .go (r, ind, now)
  | a :: l, ind, now, r =>
    match attrStep a ind now r with
    | .ub => .ub
    | .stop r => .stop r
    | .go (r, now) => if ind + 1 > 3 + 1 then .stop r else attrLoop l (ind + 1) now r

/-- An attribute, `src/extensions/display_extensions.c:1891-1952`. -/
def attrRun (a : Item) (l : List Item) (r : Res) : Out Res :=
  match attrLoop (a :: l) 0 none r with
  | .ub => .ub
  | .stop r => .stop r
  | .go (_, _, none) => .ub
  | .go (r, ind, some k) =>
    let r := if k = .rounded ∧ ind = 1 then r.upd k { r.attr k with n := 0 } else r
    if ind - 1 = (r.attr k).n then .go (r.upd k { r.attr k with valid := true }) else .stop r

/-- The loop over the arguments, `src/extensions/display_extensions.c:1877-1953`; `nd` is `num_dec`. -/
def argsLoop : List Arg → Nat → Res → Out (Res × Nat)
  | [], nd, r => .go (r, nd)
  | .other :: _, _, r => .stop r
  | .num v :: l, nd, r =>
    if nd < r.args.length then
      if nd + 1 > 8 then .stop { r with args := r.args.set nd v } else argsLoop l (nd + 1) { r with args := r.args.set nd v }
    else .ub
  | .cons a t :: l, nd, r =>
    match attrRun a t r with
    | .ub => .ub
    | .stop r => .stop r
    | .go r => argsLoop l nd r

/-- The result after `memset`, `src/extensions/display_extensions.c:1857-1858`. -/
def Res.empty : Res := ⟨false, none, List.replicate 8 0, fun _ => ⟨false, 0, List.replicate 3 0⟩⟩

/-- `decode_args`, `src/extensions/display_extensions.c:1856-1962`. The first argument is an array of bytes or something else (`none`); `l` are the other ones. `none` is undefined behaviour. The first argument must exist. -/
def decode (first : Option (List Byte)) (l : List Arg) (expected : Nat) : Option Res :=
  match first.bind decodeImg with
  | none => some Res.empty
  | some m =>
    match argsLoop l 0 { Res.empty with img := some m } with
    | .ub => none
    | .stop r => some r
    | .go (r, nd) => if nd ≠ expected then some r else some { r with valid := true }

end Verif.Img.Args
