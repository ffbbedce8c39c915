import Verif.Flash.Model

/-!
# What a value in memory denotes
-/

namespace Verif.Flash

/-- Data: a value that is not a pointer; a pair; a boxed number; a number of two words; a byte array; an array. Two values are structurally equal if they denote the same data. -/
inductive D where
  | imm (n : Nat)
  | cons (a d : D)
  | raw (ty tag w : Nat)
  | ind (ty tag w0 w1 : Nat)
  | bytes (ty : Nat) (bs : List (BitVec 8))
  | arr (ty : Nat) (xs : List D)

/-- The bytes stored in `n` words from index `i` on. -/
inductive Bytes (fl : Nat → Option W) : Nat → Nat → List (BitVec 8) → Prop
  | nil {i} : Bytes fl i 0 []
  | cons {i n b bs} : fl i = some (.b b) → Bytes fl (i + 1) n bs → Bytes fl i (n + 1) (b ++ bs)

/-- `Rep R fl wb c v d`: with the contents `R` of RAM and `fl` of flash, the value `v` denotes the data `d`. If `c` is true then all of it is in flash. What is in flash only
refers to flash. -/
inductive Rep (R : Ram) (fl : Nat → Option W) (wb : Nat) : Bool → V → D → Prop
  | imm {c n} : Rep R fl wb c (.imm n) (.imm n)
  | pair {a x y d e} : R a = .pair x y → Rep R fl wb false x d → Rep R fl wb false y e → Rep R fl wb false (.cons (.ram a)) (.cons d e)
  | raw {a ty tag w} : R a = .raw tag w → Rep R fl wb false (.ptr ty (.ram a)) (.raw ty tag w)
  | ind {a ty tag w0 w1} : R a = .ind tag w0 w1 → Rep R fl wb false (.ptr ty (.ram a)) (.ind ty tag w0 w1)
  | bytes {a ty bs} : R a = .bytes bs → Rep R fl wb false (.ptr ty (.ram a)) (.bytes ty bs)
  | arr {a ty ds} {xs : List V} : R a = .arr xs → xs.length = ds.length → (∀ (k : Nat) x d, xs[k]? = some x → ds[k]? = some d → Rep R fl wb false x d) →
      Rep R fl wb false (.ptr ty (.ram a)) (.arr ty ds)
  | fpair {c i x y d e} : fl i = some (.v x) → fl (i + 1) = some (.v y) → Rep R fl wb true x d → Rep R fl wb true y e → Rep R fl wb c (.cons (.flash i)) (.cons d e)
  | fraw {c i ty tag w} : fl i = some (.n w) → fl (i + 1) = some (.v (.sym tag)) → Rep R fl wb c (.ptr ty (.flash i)) (.raw ty tag w)
  | find {c i ty tag w0 w1 p} : fl i = some (.a p) → fl (i + 1) = some (.v (.sym tag)) → fl p = some (.n w0) → fl (p + 1) = some (.n w1) →
      Rep R fl wb c (.ptr ty (.flash i)) (.ind ty tag w0 w1)
  | fbytes {c i ty bs hd p n all} : fl i = some (.a hd) → fl (i + 1) = some (.v (.sym 0x30)) → fl hd = some (.n bs.length) → fl (hd + 1) = some (.a p) →
      Bytes fl p n all → bs = all.take bs.length → Rep R fl wb c (.ptr ty (.flash i)) (.bytes ty bs)
  | farr {c i ty ds hd p} {xs : List V} : fl i = some (.a hd) → fl (i + 1) = some (.v (.sym 0x39)) → fl hd = some (.n (ds.length * wb)) → fl (hd + 1) = some (.a p) →
      xs.length = ds.length → (∀ (k : Nat) x, xs[k]? = some x → fl (p + k) = some (.v x)) →
      (∀ (k : Nat) x d, xs[k]? = some x → ds[k]? = some d → Rep R fl wb true x d) → Rep R fl wb c (.ptr ty (.flash i)) (.arr ty ds)

/-- No array in it is empty, and none has more than `lim` words. -/
inductive Fits (wb lim : Nat) : D → Prop
  | imm {n} : Fits wb lim (.imm n)
  | cons {a d} : Fits wb lim a → Fits wb lim d → Fits wb lim (.cons a d)
  | raw {ty tag w} : Fits wb lim (.raw ty tag w)
  | ind {ty tag w0 w1} : Fits wb lim (.ind ty tag w0 w1)
  | bytes {ty bs} : bs.length / wb ≤ lim → Fits wb lim (.bytes ty bs)
  | arr {ty xs} : xs ≠ [] → xs.length ≤ lim → (∀ d, d ∈ xs → Fits wb lim d) → Fits wb lim (.arr ty xs)

mutual
/-- How many words moving data can take at most: cells may need one more word to be aligned. -/
def need (wb : Nat) : D → Nat
  | .imm _ => 0
  | .cons a d => need wb a + need wb d + 3
  | .raw _ _ _ => 3
  | .ind _ _ _ _ => 5
  | .bytes _ bs => bs.length / wb + 6
  | .arr _ xs => xs.length + 5 + needs wb xs
/-- The same for several data. -/
def needs (wb : Nat) : List D → Nat
  | [] => 0
  | d :: ds => need wb d + needs wb ds
end

end Verif.Flash
