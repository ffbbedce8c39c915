import Verif.QQ.Lemmas

/-!
# Quasiquotation builds the template: C44

`Verif.QQ.Spec` says what a template builds (`Build`), given how expressions are evaluated.
-/

namespace Verif.QQ

open Verif.Eval (V W St)

/-- The reader has read the template `t` after a backquote: the tree is in the register (as it has just been read no cell is used twice), and `QQ_EXPAND_START` is on the stack. If `t` builds `v` then, after some
steps, the register holds code that evaluates to `v`, with the same effects in the same order. Only the cells of the template have been reused; all other data is unchanged. -/
theorem C44_template {σ : Type} {J : σ → T → σ → T → Prop} (L : Laws J) {t v : T} {a b : σ} (hb : Build J a t b v) {s : St} {x : V} {F : List Nat} (hx : Rep s x t F) (hn : F.Nodup)
    (hl : ∀ i, i ∈ F → i < s.next) (K : List W) :
    ∃ n s' r c F', steps n (.next ⟨.k 32 :: K, x, s⟩) = .next ⟨K, r, s'⟩ ∧ Rep s' r c F' ∧ (∀ i, i ∈ F' → i < s'.next) ∧ J a c b v ∧
      s.next ≤ s'.next ∧ (∀ i, i < s.next → i ∉ F → s'.car i = s.car i ∧ s'.cdr i = s.cdr i) := by
  obtain ⟨c, hc, jc⟩ := (qq_eval L t).1 hb
  have hnil : Own s .nil .nil [] := own_leaf (fun _ h => by cases h)
  obtain ⟨n, s', r, F', h1, h2, _, h4⟩ := (expand_sim t).1 hc (K := K) ⟨hx, hn, hl⟩ hnil (fun _ h => by cases h) (c' := c) (by simp [tAppend])
  refine ⟨1 + n, s', r, c, F', ?_, h2.1, h2.2.2, jc, h4⟩
  rw [steps_add]
  exact h1

/-- `,@e` that is not an element of a list is an error. -/
theorem C44_splice_error {s : St} {x : V} {e : T} {F : List Nat} (hx : Rep s x (T.splice e) F) (K : List W) :
    steps 2 (.next ⟨.k 32 :: K, x, s⟩) = .err .rerror := by
  obtain ⟨p, F1, F2, rfl, rfl, r1, _⟩ := rep_cons.1 hx
  have h1 := (rep_leaf.1 r1).1
  have : (V.commaAt : V) ≠ .comma := by decide
  simp only [steps, step, expandStart, expand, h1, this, if_false, if_true]

/-- The same for `(a . ,@e)`. -/
theorem C44_splice_tail_error {s : St} {x : V} {a e : T} {F : List Nat} (ha : ∃ v, a = .leaf v ∧ v ≠ .comma ∧ v ≠ .commaAt) (hx : Rep s x (.cons a (T.splice e)) F)
    (hn : F.Nodup) (hl : ∀ i, i ∈ F → i < s.next) (K : List W) : steps 4 (.next ⟨.k 32 :: K, x, s⟩) = .err .rerror := by
  obtain ⟨v, rfl, n1, n2⟩ := ha
  obtain ⟨p, F1, F2, rfl, rfl, r1, r2⟩ := rep_cons.1 hx
  obtain ⟨h1, _, h1'⟩ := rep_leaf.1 r1
  obtain ⟨q, F3, F4, h3, rfl, r3, _⟩ := rep_cons.1 r2
  have h4 := (rep_leaf.1 r3).1
  have : (V.commaAt : V) ≠ .comma := by decide
  have hq : q < s.next := hl q (by simp)
  rw [h1] at h1'
  simp only [steps, step, expandStart, expand, h1, n1, n2, if_false, h3, expandList]
  cases v with
  | cons a => exact absurd rfl (h1' a)
  | _ => simp [append, AOut.go, steps, step, expand, St.cons, h4, this, Nat.ne_of_lt hq, show q ≠ s.next + 1 by omega, show q ≠ s.next + 1 + 1 by omega]

/-! ## A small language that satisfies the laws, and an example -/

/-- Expressions without effects: `quote`, symbols (from 0xFFFF on they are variables), `list` and `append`. -/
inductive J0 (env : Nat → T) : Unit → T → Unit → T → Prop
  | quote {x r} : J0 env () (.cons .quote (.cons x r)) () x
  | self {n} : n < 0xFFFF → J0 env () (.sym n) () (.sym n)
  | var {n} : ¬ n < 0xFFFF → J0 env () (.sym n) () (env n)
  | list {es vs} : Args (J0 env) () es () vs → J0 env () (.cons .list (T.ofList es)) () (T.ofList vs)
  | append {x es vs v} : x = T.ofList es → Args (J0 env) () es () vs → Appended vs v → v.fine → J0 env () (.cons .append x) () v

theorem J0_laws (env : Nat → T) : Laws (J0 env) where
  quote := by
    intro s x rest s' v
    constructor
    · intro h; cases h with
      | quote => exact ⟨rfl, rfl⟩
    · rintro ⟨rfl, rfl⟩; exact .quote
  self := by
    intro s n s' v hn
    constructor
    · intro h; cases h with
      | self => exact ⟨rfl, rfl⟩
      | var h => exact absurd hn h
    · rintro ⟨rfl, rfl⟩; exact .self hn
  list := fun h => .list h
  append := by
    intro s x s' v
    constructor
    · intro h; cases h with
      | append h1 h2 h3 h4 => exact ⟨_, _, h1, h2, h3, h4⟩
    · rintro ⟨es, vs, h1, h2, h3, h4⟩; exact .append h1 h2 h3 h4

/-- The template `(7 ,x 8 ,@x . 9)` in the cells 0 to 7. -/
def demoTemplate : St where
  car i := if i = 0 then .atom 7 else if i = 1 then .cons 4 else if i = 2 then .atom 8 else if i = 3 then .cons 6
    else if i = 4 then .comma else if i = 6 then .commaAt else .sym 0x40000
  cdr i := if i = 0 then .cons 1 else if i = 1 then .cons 2 else if i = 2 then .cons 3 else if i = 3 then .atom 9
    else if i = 4 then .cons 5 else if i = 6 then .cons 7 else .nil
  next := 8
  globals _ := .nil
  atomic := false
  konts _ := []
  nk := 0

def demoTree : T :=
  .cons (.leaf (.atom 7)) (.cons (T.unquote (.sym 0x40000)) (.cons (.leaf (.atom 8)) (.cons (T.splice (.sym 0x40000)) (.leaf (.atom 9)))))

theorem demo_rep : Rep demoTemplate (.cons 0) demoTree [0, 1, 4, 5, 2, 3, 6, 7] :=
  .cons (F1 := []) (F2 := [1, 4, 5, 2, 3, 6, 7]) (.leaf (fun _ h => by cases h)) <|
    .cons (a := 1) (F1 := [4, 5]) (F2 := [2, 3, 6, 7])
      (.cons (a := 4) (F1 := []) (F2 := [5]) (.leaf (fun _ h => by cases h)) (.cons (a := 5) (F1 := []) (F2 := []) (.leaf (fun _ h => by cases h)) (.leaf (fun _ h => by cases h)))) <|
    .cons (a := 2) (F1 := []) (F2 := [3, 6, 7]) (.leaf (fun _ h => by cases h)) <|
    .cons (a := 3) (F1 := [6, 7]) (F2 := [])
      (.cons (a := 6) (F1 := []) (F2 := [7]) (.leaf (fun _ h => by cases h)) (.cons (a := 7) (F1 := []) (F2 := []) (.leaf (fun _ h => by cases h)) (.leaf (fun _ h => by cases h))))
      (.leaf (fun _ h => by cases h))

/-- With `x` bound to `(1 2)` the template builds `(7 (1 2) 8 1 2 . 9)`. -/
example : ∃ n s' r c F', steps n (.next ⟨[.k 32], .cons 0, demoTemplate⟩) = .next ⟨[], r, s'⟩ ∧ Rep s' r c F' ∧
    J0 (fun _ => T.ofList [.leaf (.atom 1), .leaf (.atom 2)]) () c ()
      (T.onto [.leaf (.atom 7), T.ofList [.leaf (.atom 1), .leaf (.atom 2)], .leaf (.atom 8), .leaf (.atom 1), .leaf (.atom 2)] (.leaf (.atom 9))) := by
  have hx : J0 (fun _ => T.ofList [.leaf (.atom 1), .leaf (.atom 2)]) () (.sym 0x40000) () (T.ofList [.leaf (.atom 1), .leaf (.atom 2)]) := .var (by decide)
  obtain ⟨n, s', r, c, F', h1, h2, _, h3, _⟩ := C44_template (J0_laws _) (t := demoTree)
    (.pair (by decide) (by decide) .atom (.pair (by decide) (by decide) (.unquote hx) (.pair (by decide) (by decide) .atom (.pair (by decide) (by decide) (.splice hx) .atom (fun _ h => by cases h)) (fun _ h => by cases h))
      (fun _ h => by cases h)) (fun _ h => by cases h))
    demo_rep (by decide) (by decide) []
  exact ⟨n, s', r, c, F', h1, h2, h3⟩

end Verif.QQ
