import Verif.Eval.Store

/-!
# Templates and what they build

Data and code are trees. How expressions are evaluated is a parameter with laws for the four things that quasiquotation uses: `quote`, symbols that evaluate to themselves, `list` and `append`.
-/

namespace Verif.QQ

open Verif.Eval (V St)

/-- Trees; a leaf is a value that is not a cons cell. -/
inductive T where
  | leaf (v : V)
  | cons (a d : T)
  deriving DecidableEq, Repr

/-- The value `v` in the store `s` is the tree, and its cells are those of the list. -/
inductive Rep (s : St) : V → T → List Nat → Prop
  | leaf {v} : (∀ a, v ≠ .cons a) → Rep s v (.leaf v) []
  | cons {a t1 t2 F1 F2} : Rep s (s.car a) t1 F1 → Rep s (s.cdr a) t2 F2 → Rep s (.cons a) (.cons t1 t2) (a :: (F1 ++ F2))

namespace T
abbrev sym (n : Nat) : T := .leaf (.sym n)
abbrev nil : T := .leaf .nil
abbrev quote : T := .leaf .quote
abbrev list : T := .leaf .list
abbrev append : T := .leaf .append
abbrev comma : T := .leaf .comma
abbrev commaAt : T := .leaf .commaAt

/-- The elements in front of a tree. -/
def onto : List T → T → T
  | [], t => t
  | x :: xs, t => .cons x (onto xs t)

/-- The proper list with these elements. -/
def ofList (xs : List T) : T := onto xs nil

/-- Not one of the error symbols 0x20 to 0x2F: a function that returns one has failed (`call_fundamental`, eval_cps.c:667-687). -/
def fine (t : T) : Prop := ∀ n, t = .sym n → n / 16 ≠ 2

/-- `,e` -/
def unquote (e : T) : T := ofList [comma, e]
/-- `,@e` -/
def splice (e : T) : T := ofList [commaAt, e]
end T

section
variable {σ : Type}

/-- Expressions evaluated from left to right. -/
inductive Args (J : σ → T → σ → T → Prop) : σ → List T → σ → List T → Prop
  | nil {s} : Args J s [] s []
  | cons {s s1 s2 e es v vs} : J s e s1 v → Args J s1 es s2 vs → Args J s (e :: es) s2 (v :: vs)

/-- `x` is a list with the elements `xs`. A list that does not end with nil is accepted, its elements are those in its cells. -/
def Elems (x : T) (xs : List T) : Prop := (xs = [] ∧ x = .nil) ∨ (xs ≠ [] ∧ ∃ e, x = T.onto xs (.leaf e))

/-- The elements of all trees but the last one, in front of the last one. -/
inductive Joined : List T → T → Prop
  | last {y} : Joined [y] y
  | more {x xs y ys v} : Elems x xs → Joined (y :: ys) v → Joined (x :: y :: ys) (T.onto xs v)

/-- What `(append ...)` returns (`fundamental_append`, fundamental.c:699-724): the arguments joined, of which all but the last must be lists. A single argument must be a list too. -/
def Appended (vs : List T) (v : T) : Prop :=
  (vs = [] ∧ v = .nil) ∨ (∃ xs, vs = [v] ∧ Elems v xs) ∨ (2 ≤ vs.length ∧ Joined vs v)

/-- `J s e s' v`: in the state `s` the expression `e` evaluates to `v` and the state is `s'` afterwards. -/
structure Laws (J : σ → T → σ → T → Prop) : Prop where
  quote : ∀ {s x rest s' v}, J s (.cons .quote (.cons x rest)) s' v ↔ s' = s ∧ v = x
  self : ∀ {s n s' v}, n < 0xFFFF → (J s (.sym n) s' v ↔ s' = s ∧ v = .sym n)
  list : ∀ {s es s' vs}, Args J s es s' vs → J s (.cons .list (T.ofList es)) s' (T.ofList vs)
  append : ∀ {s x s' v}, J s (.cons .append x) s' v ↔ ∃ es vs, x = T.ofList es ∧ Args J s es s' vs ∧ Appended vs v ∧ v.fine

variable (J : σ → T → σ → T → Prop)

mutual
/-- What a template builds. -/
inductive Build : σ → T → σ → T → Prop
  /-- `,e` is the value of `e` -/
  | unquote {s e s' v} : J s e s' v → Build s (T.unquote e) s' v
  /-- data that is not a list is itself -/
  | atom {s v} : Build s (.leaf v) s (.leaf v)
  /-- a list: what its first element contributes, followed by the rest; if that is an error symbol (nothing followed by one) building it fails -/
  | pair {s a d s1 xs s2 v} : a ≠ .comma → a ≠ .commaAt → Elem s a s1 xs → Build s1 d s2 v → (T.onto xs v).fine → Build s (.cons a d) s2 (T.onto xs v)
  /-- `,@e` at the end of a list is the value of `e`, which need not be a list -/
  | last {s e s' v} : J s e s' v → Build s (.cons (T.splice e) .nil) s' v
/-- What an element of a list contributes to the list. -/
inductive Elem : σ → T → σ → List T → Prop
  /-- `,e` is one element, the value of `e` -/
  | unquote {s e s' v} : J s e s' v → Elem s (T.unquote e) s' [v]
  /-- `,@e` are the elements of the list that is the value of `e` -/
  | splice {s e s' xs} : J s e s' (T.ofList xs) → Elem s (T.splice e) s' xs
  /-- data that is not a list is itself -/
  | atom {s v} : Elem s (.leaf v) s [.leaf v]
  /-- a nested list is one element -/
  | pair {s a d s' v} : a ≠ .comma → a ≠ .commaAt → Build s (.cons a d) s' v → Elem s (.cons a d) s' [v]
end

end

end Verif.QQ
