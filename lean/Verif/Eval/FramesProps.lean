import Verif.Eval.FramesStep
import Verif.Eval.ProgramProps

/-!
# C107: every continuation finds on the stack what was pushed for it
-/

namespace Verif.Eval

/-- A context at the start of an expression, in a store without continuations. The expression, the environment, the other registers and the cells of the store are arbitrary. -/
structure Fresh (sz : Option Nat) (m : M) : Prop where
  stack : m.K = [.k 0]
  room : ∀ n, sz = some n → 2 ≤ n
  konts : ∀ i, m.st.konts i = []

/-- The states of a context: steps in which `[appcont]` is not evaluated at a wrong place. -/
inductive History (sz : Option Nat) (P : Prims) (m0 : M) : M → Prop
  | start : History sz P m0 m0
  | step {m m'} : History sz P m0 m → ¬Stray m → stepP sz P m = .next m' → History sz P m0 m'

variable {sz : Option Nat} {P : Prims}

theorem raise_loose {m : M} {e : V} (hl : Loose m.K) (hf : Roomy sz m.K) (hk : KontsOk sz m.st) : raise m e = .ub ∨ (∃ m', raise m e = .next m' ∧ Inv sz m') ∨
    ∃ s v b, raise m e = .fin s v b := by
  unfold raise
  split
  · exact .inr (.inr ⟨_, _, _, rfl⟩)
  split
  · obtain ⟨ws, K0, e1, h1, h2⟩ := hl
    rcases unwind_loose (m := m) (e := e) h1 h2 with h | h
    · exact .inl (by rw [e1]; exact h.2)
    · rw [← e1] at h
      rcases h with ⟨s, v, b, h⟩ | ⟨K1, f, rv, h, h3, h4, _⟩
      · exact .inr (.inr ⟨_, _, _, h⟩)
      · exact .inr (.inl ⟨_, h, h3, hf.sub h4, hk.of konts_setCar⟩)
  · exact .inr (.inr ⟨_, _, _, rfl⟩)

/-- One step: whole frames before, whole frames after. -/
theorem C107_step_partial {m m' : M} (hP : KeepsKonts P) (h : Inv sz m) (ha : ¬Stray m) (hs : stepP sz P m = .next m') : Inv sz m' := by
  rcases whole_stepP h ha hP with ⟨m1, h1, h2⟩ | ⟨s, v, b, h1⟩ | h1 | ⟨h1, _⟩ | ⟨m1, e, h1, _, h3, h4, h5⟩
  · rw [hs] at h1; cases h1; exact h2
  · rw [hs] at h1; cases h1
  · rw [hs] at h1; cases h1
  · rw [hs] at h1; cases h1
  · rw [hs] at h1
    rcases raise_loose (e := e) h3 h4 h5 with h | ⟨m2, h, h6⟩ | ⟨s, v, b, h⟩
    · rw [← h1] at h; cases h
    · rw [← h1] at h; cases h; exact h6
    · rw [← h1] at h; cases h

/-- C107. Take any expression (well-formed or not), any environment, any store and any stack size, and any history of steps in which the
internal form `[appcont]` is evaluated only where `eval-program` put it. The stack is then made of whole
frames, it is not full, and so is every stack that `call-cc` captured. In particular the word on top is a continuation code, and the words below it are those which that continuation takes. -/
theorem C107_history_partial {m0 m : M} (hP : KeepsKonts P) (h0 : Fresh sz m0) (h : History sz P m0 m) :
    Framed m.K ∧ (∀ n, sz = some n → m.K.length < n) ∧ ∀ i a K, m.st.konts i = a :: K → Framed K ∧ ∀ n, sz = some n → K.length + 1 < n := by
  have hi : Inv sz m := by
    induction h with
    | start =>
      refine ⟨by rw [h0.stack]; exact .done, ?_, ?_⟩
      · intro n e
        rw [h0.stack]
        exact h0.room n e
      · intro i a K e
        rw [h0.konts i] at e
        cases e
    | step _ ha hs ih => exact C107_step_partial hP ih ha hs
  exact ⟨hi.framed, hi.fits, fun i a K e => hi.konts i a K e⟩

/-- C107, the other side: a step that has undefined behaviour has one of the causes in `Fault`, and none of them is a stack that does not hold what a continuation takes. -/
theorem C107_ub_partial {m0 m : M} (hP : KeepsKonts P) (h0 : Fresh sz m0) (h : History sz P m0 m) (ha : ¬Stray m) (hs : stepP sz P m = .ub) : Fault sz P m := by
  have hi := C107_history_partial hP h0 h
  have hi' : Inv sz m := ⟨hi.1, hi.2.1, fun i a K e => hi.2.2 i a K e⟩
  rcases whole_stepP hi' ha hP with ⟨m1, h1, h2⟩ | ⟨s, v, b, h1⟩ | h1 | ⟨_, h2⟩ | ⟨m1, e, h1, h2, _⟩
  · rw [hs] at h1; cases h1
  · rw [hs] at h1; cases h1
  · rw [hs] at h1; cases h1
  · exact h2
  · exact .stale h1 h2

/-! ## Non-vacuity -/

/-- Whether `[appcont]` is evaluated at a wrong place. -/
def isStray (m : M) : Bool :=
  match m.exp with
  | .cons a => !m.app && decide (special (m.st.car a) = some 17) && (match m.K with | .k 0 :: _ :: _ => false | _ => true)
  | _ => false

/-- The states passed in `n` steps, and whether `app-cont` is evaluated in one of them. -/
def quiet (sz : Option Nat) (P : Prims) : Nat → M → Option M
  | 0, m => some m
  | n + 1, m =>
    if isStray m then none
    else
      match stepP sz P m with
      | .next m' => quiet sz P n m'
      | _ => none

theorem isStray_stray {m : M} (h : isStray m = true) : Stray m := by
  unfold isStray at h
  split at h
  · rename_i a he
    simp only [Bool.and_eq_true, Bool.not_eq_true', decide_eq_true_eq] at h
    refine ⟨h.1.1, ⟨a, he, h.1.2⟩, ?_⟩
    rintro ⟨K, hK, hn⟩
    have h2 := h.2
    rw [hK] at h2
    cases K with
    | nil => exact hn rfl
    | cons => cases h2
  · cases h

theorem quiet_history {m0 m1 : M} : ∀ (n : Nat) {m : M}, History sz P m0 m → quiet sz P n m = some m1 → History sz P m0 m1 := by
  intro n
  induction n with
  | zero => intro m h hq; cases hq; exact h
  | succ n ih =>
    intro m h hq
    unfold quiet at hq
    split at hq
    · cases hq
    · rename_i hn
      split at hq
      · rename_i hs
        refine ih (h.step ?_ hs) hq
        rintro ⟨h1, ⟨a, h2, h3⟩, h4⟩
        apply hn
        unfold isStray
        rw [h2]
        dsimp only
        split
        · rename_i w K hK
          exact absurd ⟨_, hK, by simp⟩ h4
        · simp [h1, h3]
      · cases hq

theorem P0_keeps : KeepsKonts P0 := by
  intro n args env s
  simp only [P0]
  split <;> rename_i h <;> (split at h <;> cases h <;> rfl)

/-- The first state of a program. -/
def firstM (x : Sx) : M := ⟨[.k 0], .nil, (load x st0).2, .nil, false, 0, .nil, (load x st0).1⟩

theorem load_konts (x : Sx) : ∀ s, (load x s).1.konts = s.konts := by
  induction x with
  | a v => intro s; rfl
  | c x y ihx ihy => intro s; exact (ihy _).trans (ihx s)

theorem firstM_fresh (x : Sx) {n : Nat} (h : 2 ≤ n) : Fresh (some n) (firstM x) :=
  ⟨rfl, fun k e => by cases e; exact h, fun i => by show (load x st0).1.konts i = []; rw [load_konts]; rfl⟩

/-- `(let ((x 1)) (trap (+ x (call-cc (lambda (k) (progn (map k '(5)) 3))))))` -/
def demoFrames : Sx :=
  .l [.s 0x105, .l [.l [.v 0, .n 1]], .l [.s 0x116, .l [.s 0x20000, .v 0, .l [.s 0x10B, .l [.s 0x103, .l [.v 3], .l [.s 0x102, .l [.s 0x3000D, .v 3, .l [.s 0x100, .l [.n 5]]], .n 3]]]]]]

-- A history with the frames of `trap`, a call of an operation, `progn` and `map` and one captured stack; the stack has 64 words.
example : ∃ m, KeepsKonts P0 ∧ Fresh (some 64) (firstM demoFrames) ∧ History (some 64) P0 (firstM demoFrames) m ∧ m.K.length = 24 ∧ (m.st.konts 0).length = 11 := by
  have h : (match quiet (some 64) P0 24 (firstM demoFrames) with
    | some m => decide (m.K.length = 24 ∧ (m.st.konts 0).length = 11)
    | none => false) = true := by decide +kernel
  split at h
  · rename_i m hm
    exact ⟨m, P0_keeps, firstM_fresh _ (by omega), quiet_history 24 .start hm, of_decide_eq_true h⟩
  · cases h

-- A history in which `eval-program` is called and its program ends: `(+ 1 (eval-program '((define x 5) (+ x 1))))`.
example : ∃ m, Fresh (some 64) (firstM demoProg) ∧ History (some 64) P0 (firstM demoProg) m ∧ m.K = [.k 0] ∧ m.r = .atom 7 ∧ m.program = .nil := by
  have h : (match quiet (some 64) P0 24 (firstM demoProg) with
    | some m => decide (m.K = [.k 0] ∧ m.r = .atom 7 ∧ m.program = .nil)
    | none => false) = true := by decide +kernel
  split at h
  · rename_i m hm
    exact ⟨m, firstM_fresh _ (by omega), quiet_history 24 .start hm, of_decide_eq_true h⟩
  · cases h

/-! ## What does not hold -/

/-- `(+ 1 ([appcont]))` -/
def demoAppCont : Sx := .l [.s 0x20000, .n 1, .l [.s 0x111]]

/-- C107 does not hold for programs that evaluate `[appcont]`, a symbol that the reader cannot read but `str2sym` makes: it takes the continuation code off the stack and goes on with the word below it, a value, as if it
were a continuation. `(+ 1 ([appcont]))` has undefined behaviour. -/
theorem C107_app_cont_violated : ∃ m m', Fresh (some 64) (firstM demoAppCont) ∧ History (some 64) P0 (firstM demoAppCont) m ∧ Stray m ∧ Framed m.K ∧
    stepP (some 64) P0 m = .next m' ∧ ¬Framed m'.K ∧ stepP (some 64) P0 m' = .ub := by
  have h : (match quiet (some 64) P0 5 (firstM demoAppCont) with
    | some m => isStray m &&
      (match stepP (some 64) P0 m with
      | .next m' => (match m'.K with | .v _ :: _ => true | _ => false) && (stepP (some 64) P0 m').isUb
      | _ => false)
    | none => false) = true := by decide +kernel
  split at h
  · rename_i m hm
    have hh := quiet_history 5 .start hm
    rw [Bool.and_eq_true] at h
    obtain ⟨h1, h3⟩ := h
    split at h3
    · rename_i m' hs
      rw [Bool.and_eq_true] at h3
      obtain ⟨h4, h5⟩ := h3
      refine ⟨m, m', firstM_fresh _ (by omega), hh, isStray_stray h1, (C107_history_partial P0_keeps (firstM_fresh _ (by omega)) hh).1, hs, ?_, isUb_eq h5⟩
      intro hF
      obtain ⟨c, K', e⟩ := hF.head
      rw [e] at h4
      cases h4
    · cases h3
  · cases h

/-- The same happens to a program that uses only documented forms: a jump to a continuation out of the program given to `eval-program` leaves the form `[appcont]` behind, and it is evaluated later. -/
theorem C107_escape_violated : ∃ m, Fresh (some 64) (firstM (demoProgEsc 1)) ∧ History (some 64) P0 (firstM (demoProgEsc 1)) m ∧ Stray m ∧ ∃ m', stepP (some 64) P0 m = .next m' ∧
    stepP (some 64) P0 m' = .ub := by
  have h : (match quiet (some 64) P0 22 (firstM (demoProgEsc 1)) with
    | some m => isStray m && (match stepP (some 64) P0 m with | .next m' => (stepP (some 64) P0 m').isUb | _ => false)
    | none => false) = true := by decide +kernel
  split at h
  · rename_i m hm
    rw [Bool.and_eq_true] at h
    obtain ⟨h1, h3⟩ := h
    split at h3
    · rename_i m' hs
      exact ⟨m, firstM_fresh _ (by omega), quiet_history 22 .start hm, isStray_stray h1, m', hs, isUb_eq h3⟩
    · cases h3
  · cases h

/-- The cause `stale` does occur: in `(trap (define 1 2))` the error is raised after two words are reserved and before they are written, and the search for the handler of `trap` looks at them. -/
theorem C107_stale_violated : ∃ m, Fresh (some 64) (firstM demoDefine) ∧ History (some 64) P0 (firstM demoDefine) m ∧ ¬Stray m ∧ stepP (some 64) P0 m = .ub := by
  have h : (match quiet (some 64) P0 1 (firstM demoDefine) with
    | some m => (match m.exp with | .cons a => decide (special (m.st.car a) = some 1) | _ => false) && (stepP (some 64) P0 m).isUb
    | none => false) = true := by decide +kernel
  split at h
  · rename_i m hm
    have hh := quiet_history 1 .start hm
    obtain ⟨h2, h3⟩ := Bool.and_eq_true .. ▸ h
    split at h2
    · rename_i a he
      have hsp := of_decide_eq_true h2
      refine ⟨m, firstM_fresh _ (by omega), hh, ?_, ?_⟩
      · rintro ⟨_, ⟨b, e1, e2⟩, _⟩
        rw [he] at e1
        cases e1
        rw [hsp] at e2
        cases e2
      · cases hstep : stepP (some 64) P0 m with
        | ub => rfl
        | _ => rw [hstep] at h3; cases h3
    · cases h2
  · cases h

end Verif.Eval
