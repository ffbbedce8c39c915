import Verif.Stack.Model

/-!
# What stacks should do

A stack is a list, the top is its first element, of at most `size` words; `most` is the largest length that it has had.
-/

namespace Verif.Stack

/-- An ideal stack. -/
structure Ideal where
  words : List Nat
  most : Nat
  deriving DecidableEq

/-- With new contents. -/
def Ideal.now (t : Ideal) (l : List Nat) : Ideal := ⟨l, max t.most l.length⟩

/-- An operation on an ideal stack of the given size: the caller gets words in the order from the top for `pop`, and in the order in which they were pushed for areas. `none`: the operation is not
allowed, because the stack is too small for what is popped. `reserve` keeps one word free. -/
def Op.ideal (size : Nat) (t : Ideal) : Op → Option (Ideal × Ans)
  | .push v => if t.words.length < size then some (t.now (v :: t.words), true, []) else some (t, false, [])
  | .pop => if 1 ≤ t.words.length then some (t.now (t.words.drop 1), true, t.words.take 1) else none
  | .pop2 => if 2 ≤ t.words.length then some (t.now (t.words.drop 2), true, t.words.take 2) else none
  | .pop3 => if 3 ≤ t.words.length then some (t.now (t.words.drop 3), true, t.words.take 3) else none
  | .drop n => if n ≤ t.words.length then some (t.now (t.words.drop n), true, []) else some (t, false, [])
  | .clear => some (t.now [], true, [])
  | .reserve vs => if t.words.length + vs.length < size then some (t.now (vs.reverse ++ t.words), true, []) else some (t, false, [])
  | .peek n => if n ≤ t.words.length then some (t, true, (t.words.take n).reverse) else some (t, false, [])
  | .poke n i v => if n ≤ t.words.length then (if i < n then some (t.now (t.words.set (n - 1 - i) v), true, []) else none) else some (t, false, [])
  | .popPtr n => if n ≤ t.words.length then some (t.now (t.words.drop n), true, (t.words.take n).reverse) else some (t, false, [])

/-- Operations on an ideal stack. -/
def idealAll (size : Nat) (t : Ideal) : List Op → Option (Ideal × List Ans)
  | [] => some (t, [])
  | o :: os => (o.ideal size t).bind fun x => (idealAll size x.1 os).map fun y => (y.1, x.2 :: y.2)

/-- The words that the operation writes. -/
def Op.written : Op → List Nat
  | .push v => [v]
  | .reserve vs => vs
  | .poke _ _ v => [v]
  | _ => []

end Verif.Stack
