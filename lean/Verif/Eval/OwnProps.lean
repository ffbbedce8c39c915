import Verif.Eval.Own2
import Verif.Eval.Demo
import Verif.Eval.Cells

/-!
# Properties: what evaluation can and cannot reach

C86 and C87.
-/

namespace Verif.Eval

/-! ## Specification -/

/-- The cells that can be reached from the values `root` through the first and second fields of cells. -/
inductive Reaches (s : St) (root : V → Prop) : Nat → Prop
  | root {a} : root (.cons a) → Reaches s root a
  | car {a b} : Reaches s root a → s.car a = .cons b → Reaches s root b
  | cdr {a b} : Reaches s root a → s.cdr a = .cons b → Reaches s root b

/-- What any program can use: the values of global variables and what is on the stacks of captured continuations. -/
def St.shared (s : St) (v : V) : Prop := (∃ n, s.globals n = v) ∨ ∃ k, .v v ∈ s.konts k

/-- What a context can use: the registers, the stack, and what all can use. -/
def M.roots (m : M) (v : V) : Prop := v = m.r ∨ v = m.exp ∨ v = m.env ∨ v = m.program ∨ .v v ∈ m.K ∨ m.st.shared v

/-- All references that can be reached are to cells that were allocated. -/
def Sound (m : M) : Prop := ∀ a, Reaches m.st m.roots a → a < m.st.next

/-! ## Proofs -/

theorem Reaches.sub {s : St} {root : V → Prop} {S : Nat → Prop} (hr : ∀ a, root (.cons a) → S a)
    (hc : ∀ a b, S a → s.car a = .cons b → S b) (hd : ∀ a b, S a → s.cdr a = .cons b → S b) {a : Nat} (h : Reaches s root a) : S a := by
  induction h with
  | root h => exact hr _ h
  | car _ h ih => exact hc _ _ ih h
  | cdr _ h ih => exact hd _ _ ih h

/-- The cells that cannot be reached. -/
def M.lost (m : M) (a : Nat) : Prop := a < m.st.next ∧ ¬ Reaches m.st m.roots a

theorem Sound.away {m : M} (h : Sound m) : MAway m.lost m := by
  have hv : ∀ v, (∀ a, v = .cons a → Reaches m.st m.roots a) → Away m.lost m.st.next v :=
    fun v hr a e => ⟨fun hl => hl.2 (hr a e), h a (hr a e)⟩
  have hroot : ∀ v, m.roots v → Away m.lost m.st.next v := fun v hr => hv v fun a e => .root (e ▸ hr)
  refine ⟨⟨fun a ha hn => ?_, fun n => hroot _ (.inr (.inr (.inr (.inr (.inr (.inl ⟨n, rfl⟩)))))), fun k v hk => hroot _ (.inr (.inr (.inr (.inr (.inr (.inr ⟨k, hk⟩)))))),
    fun a ha => ha.1⟩, fun v hk => hroot _ (.inr (.inr (.inr (.inr (.inl hk))))), hroot _ (.inl rfl), hroot _ (.inr (.inl rfl)), hroot _ (.inr (.inr (.inl rfl))),
    hroot _ (.inr (.inr (.inr (.inl rfl))))⟩
  have hra : Reaches m.st m.roots a := Classical.byContradiction fun hc => hn ⟨ha, hc⟩
  exact ⟨hv _ fun b e => .car hra e, hv _ fun b e => .cdr hra e⟩

theorem reaches_away {N : Nat → Prop} {s : St} (h : Apart N s) {root : V → Prop} (hr : ∀ v, root v → Away N s.next v) {a : Nat} (ha : Reaches s root a) :
    ¬ N a ∧ a < s.next := by
  refine ha.sub (S := fun a => ¬ N a ∧ a < s.next) (fun a e => hr _ e a rfl) (fun a b hs e => ?_) (fun a b hs e => ?_)
  · exact (h.cells a hs.2 hs.1).1 b e
  · exact (h.cells a hs.2 hs.1).2 b e

theorem shared_away {N : Nat → Prop} {s : St} (h : Apart N s) {v : V} (hv : s.shared v) : Away N s.next v := by
  rcases hv with ⟨n, rfl⟩ | ⟨k, hk⟩
  · exact h.globals n
  · exact h.konts k v hk

theorem roots_away {N : Nat → Prop} {m : M} (h : MAway N m) {v : V} (hv : m.roots v) : Away N m.st.next v := by
  rcases hv with rfl | rfl | rfl | rfl | hk | hv
  · exact h.r
  · exact h.exp
  · exact h.env
  · exact h.program
  · exact h.K v hk
  · exact shared_away h.st hv

/-! ## Properties -/

variable {P : Prims}

/-- C86: no execution of any program, of any length and on a stack of any size, produces a reference to a cell that was not allocated: whatever can be reached
from the registers, the stack, the global variables, the captured continuations or the result of the program was allocated. -/
theorem C86_sound (hP : Local P) {m : M} (h : Sound m) (sz : Option Nat) (n : Nat) :
    match steps sz P n (.next m) with
    | .next m' => Sound m'
    | .fin s v _ => ∀ a, Reaches s (fun x => x = v ∨ s.shared x) a → a < s.next
    | _ => True := by
  have := fine_steps (sz := sz) hP n (s0 := m.st) (o := .next m) ⟨h.away, kept_refl _⟩
  split
  · rename_i m' e
    rw [e] at this
    exact fun a ha => (reaches_away this.1.st (fun v => roots_away this.1) ha).2
  · rename_i s v b e
    rw [e] at this
    exact fun a ha => (reaches_away this.1 (fun x hx => hx.elim (fun e => e ▸ this.2.1) (shared_away this.1)) ha).2
  · trivial

/-- C87: a cell that a program cannot reach is not changed by it, and does not become reachable; nor can it be reached from the result. -/
theorem C87_untouched (hP : Local P) {m : M} (h : Sound m) {c : Nat} (hc : c < m.st.next) (hu : ¬ Reaches m.st m.roots c) (sz : Option Nat) (n : Nat) :
    match steps sz P n (.next m) with
    | .next m' => m'.st.car c = m.st.car c ∧ m'.st.cdr c = m.st.cdr c ∧ ¬ Reaches m'.st m'.roots c
    | .fin s v _ => s.car c = m.st.car c ∧ s.cdr c = m.st.cdr c ∧ ¬ Reaches s (fun x => x = v ∨ s.shared x) c
    | _ => True := by
  have := fine_steps (sz := sz) hP n (s0 := m.st) (o := .next m) ⟨h.away, kept_refl _⟩
  split
  · rename_i m' e
    rw [e] at this
    have hk := this.2.1 c ⟨hc, hu⟩
    exact ⟨hk.1, hk.2, fun ha => (reaches_away this.1.st (fun v => roots_away this.1) ha).1 ⟨hc, hu⟩⟩
  · rename_i s v b e
    rw [e] at this
    have hk := this.2.2.1 c ⟨hc, hu⟩
    exact ⟨hk.1, hk.2, fun ha => (reaches_away this.1 (fun x hx => hx.elim (fun e => e ▸ this.2.1) (shared_away this.1)) ha).1 ⟨hc, hu⟩⟩
  · trivial

/-! ## Examples -/

/-- The atoms of the expression are not references. -/
def Sx.plain : Sx → Bool
  | .a v => !v.isCons
  | .c x y => x.plain && y.plain

theorem load_apart {N : Nat → Prop} : ∀ (x : Sx) (s : St), x.plain = true → Apart N s → Apart N (load x s).1 ∧ Away N (load x s).1.next (load x s).2 ∧ Kept N s (load x s).1
  | .a v, s, hp, h => ⟨h, fun a e => by simp only [load] at e; subst e; simp [Sx.plain, V.isCons] at hp, kept_refl _⟩
  | .c x y, s, hp, h => by
    simp only [Sx.plain, Bool.and_eq_true] at hp
    obtain ⟨a1, a2, a3⟩ := load_apart x s hp.1 h
    obtain ⟨b1, b2, b3⟩ := load_apart y _ hp.2 a1
    obtain ⟨c1, c2, c3⟩ := b1.cons (a2.up b3) b2
    exact ⟨c1, c2, (a3.trans b3).trans c3⟩

theorem st0_apart : Apart (fun _ => False) st0 := ⟨fun a h => absurd h (Nat.not_lt_zero _), fun _ => away_sym _, fun _ => awayK_nil, fun _ h => h.elim⟩

/-- A machine that is about to evaluate the expression `e`. -/
def ready (s : St) (e : V) : M := ⟨[.k 0], .nil, e, .nil, false, 0, .nil, s⟩

theorem ready_away {N : Nat → Prop} {s : St} {e : V} (h : Apart N s) (he : Away N s.next e) : MAway N (ready s e) :=
  ⟨h, by rw [show (ready s e).K = [.k 0] from rfl, awayK_k]; exact awayK_nil, away_sym _, he, away_sym _, away_sym _⟩

theorem MAway.sound {N : Nat → Prop} {m : M} (h : MAway N m) : Sound m := fun a ha => (reaches_away h.st (fun v => roots_away h) ha).2

section
open Sx

/-- `'(7 8)` -/
def demoOther : Sx := l [n 7, n 8]
/-- `(let ((x (cons 1 2))) (progn (setcar x (cons 5 6)) (map (lambda (y) (cons y x)) '(3 4))))` -/
def demoCells : Sx := l [s 0x105, l [l [v 0, l [s 0x20011, n 1, n 2]]], l [s 0x102, l [s 0x2001C, v 0, l [s 0x20011, n 5, n 6]],
  l [s 0x3000D, l [s 0x103, l [v 1], l [s 0x20011, v 1, v 0]], l [s 0x100, l [n 3, n 4]]]]]

end

/-- The store with a list that the program is not given. -/
def otherSt : St := (load demoOther st0).1

theorem otherSt_apart : Apart (fun a => a < otherSt.next) otherSt :=
  ⟨fun _ h1 h2 => absurd h1 h2, fun _ => away_sym _, fun _ => awayK_nil, fun _ h => h⟩

/-- Example: the cells of the other list cannot be reached by the program, which makes and changes cells and ends with a list. -/
example : Sound (ready (load demoCells otherSt).1 (load demoCells otherSt).2) ∧
    (∀ c, c < otherSt.next → c < (load demoCells otherSt).1.next ∧
      ¬ Reaches (load demoCells otherSt).1 (ready (load demoCells otherSt).1 (load demoCells otherSt).2).roots c) ∧ otherSt.next = 2 ∧
    (steps none cellPrims 200 (.next (ready (load demoCells otherSt).1 (load demoCells otherSt).2))).pairResult = some (.cons 49, .cons 53) := by
  obtain ⟨a1, a2, a3⟩ := load_apart demoCells otherSt (by decide) otherSt_apart
  have hm := ready_away a1 a2
  refine ⟨hm.sound, fun c hc => ⟨?_, fun h => (reaches_away hm.st (fun v => roots_away hm) h).1 hc⟩, rfl, ?_⟩
  · exact Nat.lt_of_lt_of_le hc a3.2
  · decide +kernel

end Verif.Eval
