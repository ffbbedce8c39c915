import Verif.Img.Args

/-! # What arguments a drawing function takes -/

namespace Verif.Img.Args

/-- The numbers among the arguments, in order. -/
def nums : List Arg → List Nat
  | [] => []
  | .num v :: l => v :: nums l
  | _ :: l => nums l

/-- The numbers that follow the name of an attribute, as the examples of the documentation show (`doc/displayref.md`): none for `filled`, one for a thickness, a
radius, a scale and a resolution, two for `dotted`, the length of a dash and that of a gap, and three for `rotate`, a centre and an angle. -/
def wants : Kind → Nat
  | .filled => 0
  | .thickness => 1
  | .rounded => 1
  | .scale => 1
  | .resolution => 1
  | .dotted => 2
  | .rotate => 3

/-- A list that is an attribute: a name and as many numbers as the attribute takes; `rounded` may stand alone. -/
def GoodAttr (k : Kind) (vs : List Nat) : Prop := vs.length = wants k ∨ (k = .rounded ∧ vs = [])

/-- An argument is a number or an attribute. -/
def GoodArg : Arg → Prop
  | .num _ => True
  | .other => False
  | .cons a t => ∃ k vs, a = .key k ∧ t = vs.map .num ∧ GoodAttr k vs

/-- The arguments are as many numbers as the function needs, and attributes, in any order. -/
def Good (l : List Arg) (n : Nat) : Prop := (∀ a ∈ l, GoodArg a) ∧ (nums l).length = n

/-- No attribute has more than three numbers, and there are at most eight numbers. -/
def Short (l : List Arg) : Prop := (∀ a t, .cons a t ∈ l → t.length ≤ 3) ∧ (nums l).length ≤ 8

/-- An attribute is among the arguments. -/
def Has (l : List Arg) (k : Kind) : Prop := ∃ t, .cons (.key k) t ∈ l

end Verif.Img.Args
