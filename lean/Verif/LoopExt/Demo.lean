import Verif.LoopExt.Foreach

/-!
# Programs with loops

Examples for the theorems of `Props`, and what is not true of the loops (C101).
-/

namespace Verif.LoopExt

open Verif.Eval

/-- `+` and `<` on numbers, `eq`, and the operations on cells. -/
def demoPrims : Prims where
  run n args env s :=
    match n, args with
    | 0x20009, [.atom a, .atom b] => .ok s (if a < b then .tru else .nil)
    | 0x20005, [a, b] => .ok s (if a = b then .tru else .nil)
    | n, args => cellPrims.run n args env s
  eq _ a b := decide (a = b)

/-- Numbers for the names of the macros. -/
def ids : Ids := ⟨runtimeStart + 100, runtimeStart + 101, runtimeStart + 102, runtimeStart + 103, runtimeStart + 104⟩

theorem ids_ok : ids.Ok := by unfold Ids.Ok ids runtimeStart; decide

/-- Load expressions. -/
def loads : List Sx → St → St × List V
  | [], s => (s, [])
  | x :: xs, s => ((loads xs (load x s).1).1, (load x s).2 :: (loads xs (load x s).1).2)

/-- The machine at the start of a loop in the environment `env`. -/
def bootLoop (fn : Fn) (env : Sx) (args : List Sx) : M :=
  let (s1, e) := load env st0
  let (s2, as) := loads args s1
  let (h, x) := expand true ids (.atom 1) fn as ⟨s2, 1000⟩
  ⟨[.k 0], .nil, x, e, false, 0, .nil, h.st⟩

/-- The value of a loop. -/
def loopValue (n : Nat) (fn : Fn) (env : Sx) (args : List Sx) : Option (V × Bool) := (steps none demoPrims n (.next (bootLoop fn env args))).result

section
open Sx

/-- `n` is bound to 0. -/
def envN : Sx := l [.c (v 1) (n 0)]

/-- Example: `(loopfor i 0 (< i 3) (+ i 1) i)` is 2. -/
example : loopValue 200 .for_ (s 0) [v 0, n 0, l [s 0x20009, v 0, n 3], l [s 0x20000, v 0, n 1], v 0] = some (.atom 2, true) := by decide +kernel

/-- Example: `(loopwhile (< n 3) (setq n (+ n 1)))` is 3. -/
example : loopValue 200 .while_ envN [l [s 0x20009, v 1, n 3], l [s 0x113, v 1, l [s 0x20000, v 1, n 1]]] = some (.atom 3, true) := by decide +kernel

/-- Example: `(looprange i 0 3 i)` is 2. -/
example : loopValue 200 .range (s 0) [v 0, n 0, n 3, v 0] = some (.atom 2, true) := by decide +kernel

/-- Example: `(loopforeach i '(5 6) i)` is 6. -/
example : loopValue 200 .foreach (s 0) [v 0, l [s 0x100, l [n 5, n 6]], v 0] = some (.atom 6, true) := by decide +kernel

/-- Example: `(loopfor i 0 t (+ i 1) (if (< 2 i) (break 9) nil))` is 9. -/
example : loopValue 300 .for_ (s 0) [v 0, n 0, s 2, l [s 0x20000, v 0, n 1], l [s 0x104, l [s 0x20009, n 2, v 0], l [v 102, n 9], s 0]] = some (.atom 9, true) := by decide +kernel

/-- Not true of the code: `loopforeach` does the body for all elements of the list. It stops at an element that is nil: `(loopforeach i '(1 nil 2) i)` is 1. -/
theorem C101_foreach_nil_violated : loopValue 200 .foreach (s 0) [v 0, l [s 0x100, l [n 1, s 0, n 2]], v 0] = some (.atom 1, true) := by decide +kernel

/-- Not true of the code: `loopforeach` evaluates the list once. `(loopforeach i (progn (setq n (+ n 1)) '(5)) n)`, where `n` is 0, is 2. -/
theorem C101_foreach_twice_violated :
    loopValue 200 .foreach envN [v 0, l [s 0x102, l [s 0x113, v 1, l [s 0x20000, v 1, n 1]], l [s 0x100, l [n 5]]], v 1] = some (.atom 2, true) := by decide +kernel

/-- Not true of the code: the update of `loopfor` is done after the body. `(loopfor i 0 (< n 1) (progn (setq n (+ n 1)) i) n)`, where `n` is 0, is 1: the body sees the effect of the update. -/
theorem C101_update_first_violated :
    loopValue 200 .for_ envN [v 0, n 0, l [s 0x20009, v 1, n 1], l [s 0x102, l [s 0x113, v 1, l [s 0x20000, v 1, n 1]], v 0], v 1] = some (.atom 1, true) := by decide +kernel

/-- Not true of the code: the body sees the variables of the program. In an environment where `a01` is 7, `(loopfor i 0 (< i 1) (+ i 1) a01)` is nil. -/
theorem C101_capture_violated :
    loopValue 200 .for_ (l [.c (v 100) (n 7)]) [v 0, n 0, l [s 0x20009, v 0, n 1], l [s 0x20000, v 0, n 1], v 100] = some (.nil, true) := by decide +kernel

end

/-! ## The relations are not empty -/

/-- Check `Same` for the cells from 2 to `N`. -/
def sameB (N : Nat) (s s' : St) : Bool := decide (s.next ≤ s'.next) && decide (∀ a, a < N → 2 ≤ a → s'.car a = s.car a ∧ s'.cdr a = s.cdr a)

theorem sameB_sound {N : Nat} {s s' : St} (h : sameB N s s' = true) : Same (fun a => 2 ≤ a ∧ a < N) s s' := by
  simp only [sameB, Bool.and_eq_true, decide_eq_true_eq] at h
  exact ⟨h.1, fun a ha => h.2 a ha.2 ha.1⟩

/-- Check `Named`. -/
def namedB (I : Ids) (clo w brk : V) (s : St) (env : V) : Bool :=
  decide (s.lookup (.sym I.loop) (s.next + 1) env = some (some clo)) && decide (s.lookup (.sym I.res) (s.next + 1) env = some (some w)) &&
    decide (s.lookup (.sym I.brk) (s.next + 1) env = some (some brk))

theorem namedB_sound {I : Ids} {clo w brk : V} {s : St} {env : V} (h : namedB I clo w brk s env = true) : Named I clo w brk s env := by
  simp only [namedB, Bool.and_eq_true, decide_eq_true_eq] at h
  exact ⟨h.1.1, h.1.2, h.2⟩

/-- An iteration of `loopwhile`. -/
def once (P : Prims) (I : Ids) (N : Nat) (base clo brk cond body : V) (s : St) (env w : V) : Option (St × V × V) :=
  match run P false 50 s none (.exp env cond) with
  | some (s1, none, c) =>
    match run P false 50 s1 none (.exp env body) with
    | some (s2, none, w1) =>
      let s3 := (allocBinding s2 (.sym I.res) w1 base).1
      let env1 := (allocBinding s2 (.sym I.res) w1 base).2
      if c ≠ .nil ∧ sameB N s s1 = true ∧ namedB I clo w brk s1 env = true ∧ w1 ≠ .placeholder ∧ sameB N s1 s2 = true ∧ namedB I clo w brk s3 env = true then
        some ((allocBinding s3 (.sym I.brk) brk env1).1, (allocBinding s3 (.sym I.brk) brk env1).2, w1)
      else none
    | _ => none
  | _ => none

theorem once_sound {P : Prims} {I : Ids} {N : Nat} {base clo brk cond body : V} {s : St} {env w : V} {s' : St} {env' w' : V}
    (h : once P I N base clo brk cond body s env w = some (s', env', w')) : WhileOnce P I (fun a => 2 ≤ a ∧ a < N) base clo brk cond body s env w s' env' w' := by
  unfold once at h
  split at h
  · rename_i s1 c h1
    split at h
    · rename_i s2 w1 h2
      simp only at h
      split at h
      · rename_i hh
        obtain ⟨a1, a2, a3, a4, a5, a6⟩ := hh
        cases h
        exact .mk (run_sound _ _ _ _ _ _ _ _ _ h1) a1 (sameB_sound a2) (namedB_sound a3) (run_sound _ _ _ _ _ _ _ _ _ h2) a4 (sameB_sound a5) rfl (namedB_sound a6) rfl
      · cases h
    · cases h
  · cases h

/-- Three iterations. -/
def thrice (P : Prims) (I : Ids) (N : Nat) (base clo brk cond body : V) (s : St) (env w : V) : Option (St × V × V) :=
  (once P I N base clo brk cond body s env w).bind fun x => (once P I N base clo brk cond body x.1 x.2.1 x.2.2).bind fun y => once P I N base clo brk cond body y.1 y.2.1 y.2.2

theorem thrice_sound {P : Prims} {I : Ids} {N : Nat} {base clo brk cond body : V} {s : St} {env w : V} {s' : St} {env' w' : V}
    (h : thrice P I N base clo brk cond body s env w = some (s', env', w')) :
    Many (WhileOnce P I (fun a => 2 ≤ a ∧ a < N) base clo brk cond body) s env w s' env' w' := by
  obtain ⟨x, h1, h⟩ := Option.bind_eq_some_iff.1 h
  obtain ⟨y, h2, h3⟩ := Option.bind_eq_some_iff.1 h
  exact .more (once_sound h1) (.more (once_sound h2) (.more (once_sound h3) .none))

/-- Three iterations, and then the end. -/
def whole (P : Prims) (I : Ids) (N : Nat) (base clo brk cond body : V) (s : St) (env w : V) : Option V :=
  (thrice P I N base clo brk cond body s env w).bind fun x =>
    match run P false 50 x.1 none (.exp x.2.1 cond) with
    | some (s1, none, c) => if c = .nil ∧ sameB N x.1 s1 = true ∧ namedB I clo x.2.2 brk s1 x.2.1 = true then some x.2.2 else none
    | _ => none

theorem whole_sound {P : Prims} {I : Ids} {N : Nat} {base clo brk cond body : V} {s : St} {env w w' : V}
    (h : whole P I N base clo brk cond body s env w = some w') :
    ∃ s1 env1 s', Many (WhileOnce P I (fun a => 2 ≤ a ∧ a < N) base clo brk cond body) s env w s1 env1 w' ∧ Ends P I (fun a => 2 ≤ a ∧ a < N) clo brk cond s1 env1 w' s' := by
  obtain ⟨⟨s1, env1, w1⟩, h1, h⟩ := Option.bind_eq_some_iff.1 h
  simp only at h
  split at h
  · rename_i s2 c h2
    split at h
    · rename_i hh
      obtain ⟨a1, a2, a3⟩ := hh
      cases h
      subst a1
      exact ⟨s1, env1, s2, thrice_sound h1, run_sound _ _ _ _ _ _ _ _ _ h2, sameB_sound a2, namedB_sound a3⟩
    · cases h
  · cases h

/-- The store and the expressions `(< n 3)` and `(setq n (+ n 1))`. -/
def demoArgs : St × List V := loads [Sx.l [Sx.s 0x20009, Sx.v 1, Sx.n 3], Sx.l [Sx.s 0x113, Sx.v 1, Sx.l [Sx.s 0x20000, Sx.v 1, Sx.n 1]]] (load envN st0).1

/-- The machine at the start of the first iteration of `(loopwhile (< n 3) (setq n (+ n 1)))`. -/
def demoHead : M :=
  match steps none demoPrims 15 (.next ⟨[.k 0], .nil, (expand true ids .nil .while_ demoArgs.2 ⟨demoArgs.1, 1000⟩).2, (load envN st0).2, false, 0, .nil,
      (expand true ids .nil .while_ demoArgs.2 ⟨demoArgs.1, 1000⟩).1.st⟩) with
  | .next m => m
  | _ => ⟨[], .nil, .nil, .nil, false, 0, .nil, st0⟩

/-- Example: three iterations of that loop and its end, as in the hypotheses of `C101_while_partial`. The cells 0 and 1 are the binding of `n`. -/
example : ∃ s1 env1 s', Many (WhileOnce demoPrims ids (fun a => 2 ≤ a ∧ a < 52) (.cons 39) (.cons 43) (.cons 44) (demoArgs.2.getD 0 .nil) (demoArgs.2.getD 1 .nil))
    demoHead.st demoHead.env .nil s1 env1 (.atom 3) ∧ Ends demoPrims ids (fun a => 2 ≤ a ∧ a < 52) (.cons 43) (.cons 44) (demoArgs.2.getD 0 .nil) s1 env1 (.atom 3) s' :=
  whole_sound (by decide +kernel)

/-! ## `loopforeach` -/

/-- The operations of the examples are as they should be. -/
theorem demoPrims_list : ListPrims demoPrims := by
  have cell : ∀ (s : St) (x : V), (∀ n, x = .sym n → n < 0x20 ∨ 0x2F < n) → cellRes s x = .ok s x := fun s x h => by
    unfold cellRes
    split
    · rw [if_neg]
      have := h _ rfl
      omega
    · rfl
  refine ⟨fun s env v => rfl, fun s env v x h hx => ?_, fun s env v x h hx => ?_⟩
  · simp [demoPrims, cellPrims, h, cell s x hx]
  · simp [demoPrims, cellPrims, h, cell s x hx]

/-- Check `Plain`. -/
def plainB : V → Bool
  | .sym n => decide (n < 0x20 ∨ 0x2F < n)
  | _ => true

theorem plainB_sound {x : V} (h : plainB x = true) : Plain x := by
  rintro n rfl
  simpa [plainB] using h

/-- Check `Place.Sees`. -/
def seesB (I : Ids) (clo brk : V) (it : Nat) (p : Place) : Bool :=
  namedB I clo p.value brk p.st p.env && decide (p.st.lookup (.sym it) (p.st.next + 1) p.env = some (some p.elem)) &&
    decide (p.st.lookup (.sym I.rst) (p.st.next + 1) p.env = some (some p.rest))

theorem seesB_sound {I : Ids} {clo brk : V} {it : Nat} {p : Place} (h : seesB I clo brk it p = true) : p.Sees I clo brk it := by
  simp only [seesB, Bool.and_eq_true, decide_eq_true_eq] at h
  exact ⟨namedB_sound h.1.1, h.1.2, h.2⟩

/-- An iteration of `loopforeach`. -/
def eachOnce (P : Prims) (I : Ids) (N : Nat) (base clo brk : V) (it : Nat) (body : V) (p : Place) : Option Place :=
  match p.st.gcar p.rest, p.st.gcdr p.rest with
  | some i', some rest' =>
    let a2 := allocBinding p.st (.sym it) i' base
    let a3 := allocBinding a2.1 (.sym I.rst) rest' a2.2
    match run P false 50 a3.1 none (.exp p.env body) with
    | some (s4, none, w1) =>
      let a5 := allocBinding s4 (.sym I.res) w1 a3.2
      if seesB I clo brk it p = true ∧ p.elem ≠ .nil ∧ plainB i' = true ∧ a2.1.lookup (.sym I.rst) (a2.1.next + 1) p.env = some (some p.rest) ∧ a2.1.gcdr p.rest = some rest' ∧
          plainB rest' = true ∧ w1 ≠ .placeholder ∧ sameB a3.1.next a3.1 s4 = true ∧ namedB I clo p.value brk a5.1 p.env = true ∧ N ≤ p.st.next ∧ 2 ≤ p.st.next then
        some ⟨(allocBinding a5.1 (.sym I.brk) brk a5.2).1, (allocBinding a5.1 (.sym I.brk) brk a5.2).2, w1, i', rest'⟩
      else none
    | _ => none
  | _, _ => none

theorem eachOnce_sound {P : Prims} {I : Ids} {N : Nat} {base clo brk body : V} {it : Nat} {p q : Place} (h : eachOnce P I N base clo brk it body p = some q) :
    EachOnce P I (fun a => 2 ≤ a ∧ a < N) base clo brk it body p q := by
  unfold eachOnce at h
  split at h
  · rename_i i' rest' h1 h2
    simp only at h
    split at h
    · rename_i s4 w1 h3
      split at h
      · rename_i hh
        obtain ⟨b1, b2, b3, b4, b5, b6, b7, b8, b9, b10, b11⟩ := hh
        cases h
        refine .mk (seesB_sound b1) b2 h1 (plainB_sound b3) rfl b4 b5 (plainB_sound b6) rfl (run_sound _ _ _ _ _ _ _ _ _ h3) b7 ?_ rfl (namedB_sound b9) rfl
        refine (sameB_sound b8).weak fun a ha => ?_
        have e2 : (allocBinding p.st (.sym it) i' base).1.next = p.st.next + 2 := rfl
        have e3 : (allocBinding (allocBinding p.st (.sym it) i' base).1 (.sym I.rst) rest' (allocBinding p.st (.sym it) i' base).2).1.next = p.st.next + 4 := rfl
        rcases ha with (ha | ha | ha) | ha | ha
        · omega
        · omega
        · omega
        · have ha : a = p.st.next + 2 := ha
          omega
        · have ha : a = p.st.next + 2 + 1 := ha
          omega
      · cases h
    · cases h
  · cases h

/-- Two iterations, and then the end. -/
def eachTwice (P : Prims) (I : Ids) (N : Nat) (base clo brk : V) (it : Nat) (body : V) (p : Place) : Option (List V × V) :=
  (eachOnce P I N base clo brk it body p).bind fun q => (eachOnce P I N base clo brk it body q).bind fun r =>
    if seesB I clo brk it r = true ∧ r.elem = .nil then some ([p.elem, q.elem], r.value) else none

theorem eachTwice_sound {P : Prims} {I : Ids} {N : Nat} {base clo brk body : V} {it : Nat} {p : Place} {l : List V} {w : V}
    (h : eachTwice P I N base clo brk it body p = some (l, w)) :
    ∃ r, Each P I (fun a => 2 ≤ a ∧ a < N) base clo brk it body p l r ∧ r.Sees I clo brk it ∧ r.elem = .nil ∧ r.value = w := by
  obtain ⟨q, h1, h⟩ := Option.bind_eq_some_iff.1 h
  obtain ⟨r, h2, h⟩ := Option.bind_eq_some_iff.1 h
  split at h
  · rename_i hh
    cases h
    exact ⟨r, .more (eachOnce_sound h1) (.more (eachOnce_sound h2) .none), seesB_sound hh.1, hh.2, rfl⟩
  · cases h

/-- The start of the first iteration of `(loopforeach i '(5 6) (+ i 1))`. -/
def eachHead : M :=
  match steps none demoPrims 27 (.next (bootLoop .foreach (Sx.s 0) [Sx.v 0, Sx.l [Sx.s 0x100, Sx.l [Sx.n 5, Sx.n 6]], Sx.l [Sx.s 0x20000, Sx.v 0, Sx.n 1]])) with
  | .next m => m
  | _ => ⟨[], .nil, .nil, .nil, false, 0, .nil, st0⟩

/-- Example: the body sees 5 and 6, and the value of the loop is 7. -/
example : ∃ r, Each demoPrims ids (fun a => 2 ≤ a ∧ a < 65) (.cons 52) (.cons 56) (.cons 57) runtimeStart (.cons 6) ⟨eachHead.st, eachHead.env, .nil, .atom 5, .cons 0⟩ [.atom 5, .atom 6] r ∧
    r.Sees ids (.cons 56) (.cons 57) runtimeStart ∧ r.elem = .nil ∧ r.value = .atom 7 :=
  eachTwice_sound (by decide +kernel)

end Verif.LoopExt
