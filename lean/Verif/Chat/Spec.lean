import Verif.Chat.Model

/-! # What is said about messages -/

namespace Verif.Chat
open Verif.Sched Verif.Mbox Verif.Eq

/-- The running context is not in the middle of a `recv`. -/
def Idle (x : W) : Prop := ∀ c, x.s.running = some c → x.pend c = none

/-- The running context has enough free cells to look through its messages. -/
def Room (x : W) (c : Cid) (cs : List Clause) (free : Nat) : Prop := (x.box c).mail.length * cost cs ≤ free

/-- The operation can be performed now and is none of those that are actions of their own. The running context performs it only if it is not in the middle of a `recv`. -/
def OpOk (x : W) (op : Op) : Prop :=
  Allowed x.s x.live op ∧
  match op with
  | .send _ => False
  | .block t _ _ _ => t.isRecv = false ∧ Idle x
  | .finish | .kill _ | .enterAtomic _ | .exitAtomic => Idle x
  | _ => True

/-- The action can happen now. -/
def Ok (x : W) : Act → Prop
  | .sched op => OpOk x op
  | .send _ _ => True
  | .recv cs _ _ _ _ free _ _ => Idle x ∧ ∃ c, x.s.running = some c ∧ Room x c cs free
  | .retry _ _ _ free _ _ _ => ∃ c cs to, x.s.running = some c ∧ x.pend c = some (cs, to) ∧ Room x c cs free
  | .resize n _ => Idle x ∧ ∃ c, x.s.running = some c ∧ (x.box c).mail.length ≤ n ∧ 0 < n

/-- The action ends in `y` with the result `r`. -/
def Acts (F : Flt) (w : Nat) (x : W) (a : Act) (y : W) (r : Res) : Prop := ∃ n, ∀ f ≥ n, wstep F w f x a = some (y, r)

/-- Executions. -/
inductive Run (F : Flt) (w : Nat) : W → List Act → W → Prop
  | nil {x : W} : Run F w x [] x
  | cons {x y z : W} {a : Act} {r : Res} {as : List Act} : Ok x a → Acts F w x a y r → Run F w y as z → Run F w x (a :: as) z

/-- The start: no contexts. -/
def start (k : Links) (info : Cid → Info) (box : Cid → Mbox T) : W := ⟨Sched.init k info, [], box, fun _ => none⟩

/-- States of some execution from the start. -/
def Reach (F : Flt) (w : Nat) (x : W) : Prop := ∃ k info box as, Run F w (start k info box) as x

/-- The context is blocked, and it is in `recv` or `recv-to`. -/
def Waits (x : W) (c : Cid) : Prop := ∃ r b, Placed x.s x.live r b ∧ c ∈ b ∧ ((x.s.info c).state = .recvBl ∨ (x.s.info c).state = .recvTo)

/-- A scheduling round that is not skipped because of an atomic block. -/
def roundNow (x : W) : Act → Nat
  | .sched (.round _) => if x.s.atomic then 0 else 1
  | _ => 0

/-- The action sends a message to `c`. -/
def sendsTo (c : Cid) : Act → Bool
  | .send d _ => decide (d = c)
  | _ => false

/-- Nobody kills `c`, and the evaluator is not reset. -/
def Peaceful (c : Cid) (as : List Act) : Prop := Act.sched (.kill c) ∉ as ∧ Act.sched .reset ∉ as

/-- An execution with `n` scheduling rounds. -/
inductive RunR (F : Flt) (w : Nat) : W → List Act → W → Nat → Prop
  | nil {x : W} : RunR F w x [] x 0
  | cons {x y z : W} {a : Act} {r : Res} {as : List Act} {n : Nat} : Ok x a → Acts F w x a y r → RunR F w y as z n → RunR F w x (a :: as) z (n + roundNow x a)

/-- At some point of the execution `c` runs in a state in which `P` holds. -/
inductive Meets (F : Flt) (w : Nat) (c : Cid) (P : W → Prop) : W → List Act → Prop
  | here {x : W} {as : List Act} : x.s.running = some c → P x → Meets F w c P x as
  | there {x y : W} {a : Act} {r : Res} {as : List Act} : Acts F w x a y r → Meets F w c P y as → Meets F w c P x (a :: as)

end Verif.Chat
