import Verif.Print.Incr

/-!
# What evaluating a text expression by expression should do
-/

namespace Verif.Print

open Verif.Tok (Byte Token)
open Verif.Eq (Val)

/-- The evaluations of a text that begins with the tokens `ps`, one list for each of the expressions `xs`: each expression is read in the world that the evaluation of the one before has left, which only
adds data and symbols, and is evaluated before the next one is read. `cs` are the worlds and values that were given to the evaluator, `v` is the value before the first and `v'` the value of the last. -/
inductive Evals {G : Type} (D : Dev) (ev : Evaluator G) : World G → Val → List (List Token) → List X → List (World G × Val) → World G → Val → Prop
  | nil {w v} : Evals D ev w v [] [] [] w v
  | cons {w v p x w1 a w2 v2 ps xs cs w' v'} : Item D true [tCloseArray] p x → w1.rest = w.rest → w.nxt ≤ w1.nxt → Old w.nxt w.h w1.h → Later w.tab w1.tab → Means w1.tab w1.h a x →
      ev w1 a = some (w2, v2) → Evals D ev w2 v2 ps xs cs w' v' → Evals D ev w v (p :: ps) (x :: xs) ((w1, a) :: cs) w' v'

/-- Evaluation keeps the symbol table in order. -/
def Evaluator.Orderly {G : Type} (ev : Evaluator G) : Prop := ∀ w a w' v, ev w a = some (w', v) → Sym.Inv w.tab → Sym.Inv w'.tab

/-- How it ends after the evaluations `cs`, which have left the world `w` and the value `v`, with the tokens `rest` not evaluated and the text ending in `o`. -/
inductive Outcome {G : Type} (D : Dev) (ev : Evaluator G) (rest : List Token) (o : Tok.Out) (cs : List (World G × Val)) (w : World G) (v : Val) : IRes G → Prop
  /-- All has been evaluated, and the result is the last value. -/
  | done {s} : rest = [] → o = .finished → isTokSym v = false → s.world = w → s.m.r = v → s.calls = cs → Outcome D ev rest o cs w v (.done s)
  /-- All has been evaluated, and the last value is a symbol that the reader uses for itself. -/
  | mark : rest = [] → o = .finished → isTokSym v = true → Outcome D ev rest o cs w v (.stop .error cs)
  /-- The next expression has been read and its evaluation has no result. -/
  | failed {p x w1 a rest'} : rest = p ++ rest' → Item D true [tCloseArray] p x → w1.rest = w.rest → w.nxt ≤ w1.nxt → Old w.nxt w.h w1.h → Later w.tab w1.tab → Means w1.tab w1.h a x →
      ev w1 a = none → Outcome D ev rest o cs w v (.stop .failed (cs ++ [(w1, a)]))
  /-- What comes next is not an expression, or there is no room for its symbols. -/
  | stopped {y} : y ≠ .failed → ¬ (rest = [] ∧ o = .finished) → (∀ p x rest' tab', rest = p ++ rest' → Item D true [tCloseArray] p x → ¬ Enters w.tab p tab') → Outcome D ev rest o cs w v (.stop y cs)

end Verif.Print
