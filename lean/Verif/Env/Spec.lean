import Verif.Env.Model
import Verif.Heap.Spec

/-
Specification vocabulary for environments: what association list a heap value stands for,
which cells make it up, and what the histories of the global environment are, described by
a finite map from symbols to values. The environment operations of `src/env.c` are not used in the map.
-/

namespace Verif.Env
open Verif.Heap

/-- One binding of an environment: the cell of the list, the cell of the (key . value) pair, and
what the pair holds. -/
structure Bind where
  spine : Nat
  pair : Nat
  key : Val
  val : Val
deriving DecidableEq, Repr

/-- The heap value `v` is an association list with the bindings `l`, ending in `tail`. -/
def EnvAt (h : Heap) : Val → List Bind → Val → Prop
  | v, [], tail => v = tail
  | v, b :: l, tail => v = .ptr .cons false b.spine ∧ (h.cells b.pair).content = .pair b.key b.val ∧
      ∃ d, (h.cells b.spine).content = .pair (.ptr .cons false b.pair) d ∧ EnvAt h d l tail

/-- The value of the innermost (first) binding of a key. -/
def value (l : List Bind) (key : Val) : Option Val := (l.find? (fun b => b.key = key)).map (·.val)

/-- The value of the innermost binding of a key that is not a placeholder. -/
def visible (l : List Bind) (key : Val) : Option Val :=
  (l.find? (fun b => b.key = key ∧ b.val ≠ placeholder)).map (·.val)

/-- The cells an environment is made of. -/
def cellsOf (l : List Bind) : List Nat := l.flatMap fun b => [b.spine, b.pair]

/-- Cell `c` belongs to the environment `v`: to its list or to one of its pairs. -/
inductive EnvCell (h : Heap) : Val → Nat → Prop
  | spine {i : Nat} : EnvCell h (.ptr .cons false i) i
  | pair {i b : Nat} {d : Val} : (h.cells i).content = .pair (.ptr .cons false b) d →
      EnvCell h (.ptr .cons false i) b
  | next {i c : Nat} {a d : Val} : (h.cells i).content = .pair a d → EnvCell h d c →
      EnvCell h (.ptr .cons false i) c

/-- What other activity (allocation, writes to lists and arrays, garbage collection) may do: anything
that leaves the cells of the global environment alone and off the free list. -/
def Outside (st st' : GState) : Prop :=
  st'.glob = st.glob ∧
  (∀ k c, EnvCell st.heap (st.glob k) c → (st'.heap.cells c).content = (st.heap.cells c).content) ∧
  ∃ fl, FreeOK st'.heap fl ∧ ∀ k c, EnvCell st.heap (st.glob k) c → c ∉ fl

/-- `m` with `s` mapped to `v`. -/
def upd (m : Nat → Option Val) (s : Nat) (v : Option Val) : Nat → Option Val :=
  fun s' => if s' = s then v else m s'

/-- A local environment of some context: it shares no cell with the global environment. -/
def Local (st : GState) (env : Val) (l : List Bind) : Prop :=
  EnvAt st.heap env l nil ∧ (cellsOf l).Nodup ∧ (∀ c ∈ cellsOf l, ∀ k, ¬ EnvCell st.heap (st.glob k) c) ∧
  ∃ fl, FreeOK st.heap fl ∧ ∀ c ∈ cellsOf l, c ∉ fl

/-- `v` is an environment with the bindings `l` that can take the place of bucket `k` of the global environment: a
proper association list with each key once, whose keys are symbols that belong to the bucket, and that is
not made of free cells or of cells of the other buckets (it may share cells with bucket `k`). -/
structure Fits (st : GState) (k : Nat) (v : Val) (l : List Bind) : Prop where
  env : EnvAt st.heap v l nil
  nodup : (cellsOf l).Nodup
  keys : ∀ b ∈ l, ∃ s, b.key = .sym s ∧ s % 32 = k
  once : (l.map (·.key)).Nodup
  others : ∀ c ∈ cellsOf l, ∀ j, j ≠ k → ¬ EnvCell st.heap (st.glob j) c
  used : ∃ fl, FreeOK st.heap fl ∧ ∀ c ∈ cellsOf l, c ∉ fl

/-- Histories of the global environment, with the map from symbols to values that a user expects.
Assignments to variables that are bound nowhere are excluded (see C21), and `env-set` with values that are not
environments of the bucket (see `Fits`). -/
inductive GHist : GState → (Nat → Option Val) → Prop
  | init {h : Heap} {fl : List Nat} : FreeOK h fl → GHist ⟨h, initEnv⟩ (fun _ => none)
  | define {st st' : GState} {m : Nat → Option Val} {f : Nat} {collect : Heap → Heap} {s : Nat} {v : Val} : GHist st m →
      (∀ h1, envSet f st.heap (st.glob (bucket s)) (.sym s) v = some (h1, merror) →
        Outside ⟨h1, st.glob⟩ ⟨collect h1, st.glob⟩) →
      define f collect st s v = some (st', true) → GHist st' (upd m s (some v))
  | defineFails {st st' : GState} {m : Nat → Option Val} {f : Nat} {collect : Heap → Heap} {s : Nat} {v : Val} : GHist st m →
      (∀ h1, envSet f st.heap (st.glob (bucket s)) (.sym s) v = some (h1, merror) →
        Outside ⟨h1, st.glob⟩ ⟨collect h1, st.glob⟩) →
      define f collect st s v = some (st', false) → GHist st' m
  | cDefine {st st' : GState} {m : Nat → Option Val} {f s : Nat} {v : Val} : GHist st m → 2 ≤ numFree st.heap →
      cDefine f st s v = some st' → GHist st' (upd m s (some v))
  | setGlobal {st st' : GState} {m : Nat → Option Val} {f s : Nat} {v env : Val} {l : List Bind} : GHist st m →
      Local st env l → value l (.sym s) = none → m s ≠ none →
      performSetvar f st env s v = some (st', .ok) → GHist st' (upd m s (some v))
  | setLocal {st st' : GState} {m : Nat → Option Val} {f s : Nat} {v env : Val} {l : List Bind} : GHist st m →
      Local st env l → value l (.sym s) ≠ none →
      performSetvar f st env s v = some (st', .ok) → GHist st' m
  | undefine {st st' : GState} {m : Nat → Option Val} {f s : Nat} {r : Bool} : GHist st m →
      undefine f st s = some (st', r) → GHist st' (upd m s none)
  | envSet {st st' : GState} {m : Nat → Option Val} {a b : Arg} {n : Nat} {l : List Bind} : GHist st m →
      a.num = some n → Fits st (n % 32) b.val l → extEnvSet st [a, b] = (st', true) →
      GHist st' (fun s => if s % 32 = n % 32 then value l (.sym s) else m s)
  | outside {st st' : GState} {m : Nat → Option Val} : GHist st m → Outside st st' → GHist st' m

end Verif.Env
