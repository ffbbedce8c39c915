import Verif.Eq.Model

/-
What a value stands for: a finite tree.  `same` is equality of trees, with C's `==` for floating
point numbers, and never true of opaque objects (channels, custom types, …).
-/

namespace Verif.Eq

/-- Finite values. -/
inductive T where
  | sym (id : Nat)
  | num (t : NTy) (z : Int)
  | cons (a d : T)
  | bytes (l : List (BitVec 8))
  | arr (l : List T)
  | obj (n : Nat)

mutual
/-- The value `v` in the heap `H` is the tree `t`. -/
inductive Rep (H : Heap) : Val → T → Prop
  | sym {id : Nat} : Rep H (.sym id) (.sym id)
  | imm {t : NTy} {z : Int} : Rep H (.imm t z) (.num t z)
  | boxed {t : NTy} {k : Bool} {ix : Nat} {z : Int} : H k ix = .num z →
      Rep H (.ptr (.num t) k ix) (.num t z)
  | cons {k : Bool} {ix : Nat} {a d : Val} {ta td : T} : H k ix = .pair a d → Rep H a ta → Rep H d td →
      Rep H (.ptr .cons k ix) (.cons ta td)
  | bytes {k : Bool} {ix : Nat} {l : List (BitVec 8)} : H k ix = .bytes l →
      Rep H (.ptr .array k ix) (.bytes l)
  | arr {k : Bool} {ix : Nat} {l : List Val} {ts : List T} : H k ix = .arr l → Reps H l ts →
      Rep H (.ptr .lispArray k ix) (.arr ts)
  | obj {n : Nat} {k : Bool} {ix : Nat} : Rep H (.ptr (.other n) k ix) (.obj n)
/-- Likewise for lists of values. -/
inductive Reps (H : Heap) : List Val → List T → Prop
  | nil : Reps H [] []
  | cons {v : Val} {t : T} {vs : List Val} {ts : List T} : Rep H v t → Reps H vs ts →
      Reps H (v :: vs) (t :: ts)
end

mutual
/-- Equality of trees. -/
def same (F : Flt) : T → T → Bool
  | .sym x, .sym y => x == y
  | .num t x, .num s y => t = s && numEq F t x y
  | .cons a d, .cons c e => same F a c && same F d e
  | .bytes l, .bytes m => l == m
  | .arr l, .arr m => sames F l m
  | _, _ => false
def sames (F : Flt) : List T → List T → Bool
  | [], [] => true
  | x :: xs, y :: ys => same F x y && sames F xs ys
  | _, _ => false
end

mutual
/-- No opaque objects, and every floating point number satisfies `p`. -/
def Plain (p : NTy → Int → Prop) : T → Prop
  | .num t z => (t = .float ∨ t = .double) → p t z
  | .cons a d => Plain p a ∧ Plain p d
  | .arr l => Plains p l
  | .obj _ => False
  | _ => True
def Plains (p : NTy → Int → Prop) : List T → Prop
  | [] => True
  | x :: xs => Plain p x ∧ Plains p xs
end

/-- `v` is an association list whose pairs are `l`: keys and values (as heap values, and the
trees they stand for).  It ends in `tail`. -/
inductive Alist (H : Heap) (tail : Val) : Val → List ((Val × T) × (Val × T)) → Prop
  | nil : Alist H tail tail []
  | cons {k k' : Bool} {ix ix' : Nat} {d x y : Val} {tx ty : T} {l : List ((Val × T) × (Val × T))} :
      H k ix = .pair (.ptr .cons k' ix') d → H k' ix' = .pair x y → Rep H x tx → Rep H y ty →
      Alist H tail d l → Alist H tail (.ptr .cons k ix) (((x, tx), (y, ty)) :: l)

end Verif.Eq
