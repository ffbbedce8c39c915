import Verif.Eval.Tail

/-!
# Stacks of a given size

A machine whose stack has a size does the same as one without a limit, as long as the stack stays
sixteen words below the size.
-/

namespace Verif.Eval

theorem reserve_some {z : Nat} {m : M} {ws : List W} {c : M → Out} (h : m.K.length + ws.length < z) :
    reserve (some z) m ws c = c { m with K := ws ++ m.K } := by
  simp [reserve, h]

theorem reserve_congr {z : Nat} {m : M} {ws : List W} {c c' : M → Out} (h : m.K.length + ws.length < z)
    (hc : c { m with K := ws ++ m.K } = c' { m with K := ws ++ m.K }) : reserve (some z) m ws c = reserve none m ws c' := by
  rw [reserve_some h, reserve_none]; exact hc

section
variable {z : Nat} {P : Prims} {m : M}

theorem sized_progn (h : m.K.length + 4 < z) : evalProgn (some z) m = evalProgn none m := by
  unfold evalProgn
  split <;> try rfl
  split
  · exact reserve_congr h rfl
  · rfl

theorem sized_atomic (h : m.K.length + 5 < z) : evalAtomic (some z) m = evalAtomic none m := by
  unfold evalAtomic
  split
  · rfl
  · exact reserve_congr (by simp; omega) (sized_progn (by simp; omega))

theorem sized_callcc (h : m.K.length + 5 < z) : evalCallcc (some z) m = evalCallcc none m := by
  unfold evalCallcc
  refine reserve_congr (by simp; omega) ?_
  exact reserve_congr (by simp; omega) rfl

theorem sized_define (h : m.K.length + 5 < z) : evalDefine (some z) m = evalDefine none m := by
  unfold evalDefine
  exact reserve_congr (by simp; omega) rfl

theorem sized_if (h : m.K.length + 5 < z) : evalIf (some z) m = evalIf none m := by
  unfold evalIf
  split
  · rfl
  · exact reserve_congr (by simp; omega) rfl

theorem sized_cond (h : m.K.length + 5 < z) : evalCond (some z) m = evalCond none m := by
  unfold evalCond
  dsimp only
  split
  · rfl
  · split
    · rfl
    · split
      · rfl
      · exact reserve_congr (by simp; omega) rfl

theorem sized_letBind (h : m.K.length + 6 < z) (binds body : V) : letBind (some z) m binds body = letBind none m binds body := by
  unfold letBind
  split
  · split <;> try rfl
    exact reserve_congr (by simp; omega) rfl
  · rfl

theorem sized_var (h : m.K.length + 6 < z) : evalVar (some z) m = evalVar none m := by
  unfold evalVar
  split
  · rename_i rest c penv K hK
    have hl : m.K.length = K.length + 4 := by rw [hK]; simp
    dsimp only
    generalize (if c = 0 then m.st.copySpine (m.st.next + 1) penv else some (m.st, penv)) = x
    cases x with
    | none => rfl
    | some p =>
      dsimp only
      split <;> try rfl
      split <;> try rfl
      split <;> try rfl
      split <;> try rfl
      exact reserve_congr (by simp; omega) rfl
  · rfl

theorem sized_setq (h : m.K.length + 6 < z) : evalSetq (some z) m = evalSetq none m := by
  unfold evalSetq
  exact reserve_congr (by simp; omega) rfl

theorem sized_loop (h : m.K.length + 10 < z) : evalLoop (some z) m = evalLoop none m := by
  unfold evalLoop
  split
  · rfl
  · exact reserve_congr (by simp; omega) (sized_letBind (by simp; omega) _ _)

theorem sized_trap (h : m.K.length + 6 < z) : evalTrap (some z) m = evalTrap none m := by
  unfold evalTrap
  split
  · rfl
  · exact reserve_congr (by simp; omega) rfl

theorem sized_junct (h : m.K.length + 6 < z) (c : Nat) (v : V) : evalJunct (some z) c v m = evalJunct none c v m := by
  unfold evalJunct
  split
  · rfl
  · split
    · rfl
    · exact reserve_congr (by simp; omega) rfl

theorem sized_match (h : m.K.length + 6 < z) : evalMatch (some z) m = evalMatch none m := by
  unfold evalMatch
  split <;> try rfl
  exact reserve_congr (by simp; omega) rfl

theorem sized_special (h : m.K.length + 15 < z) (i : Nat) : evalSpecial (some z) i m = evalSpecial none i m := by
  unfold evalSpecial
  split <;> first
    | rfl
    | exact sized_define (by omega)
    | exact sized_progn (by omega)
    | exact sized_if (by omega)
    | exact sized_letBind (by omega) _ _
    | exact sized_junct (by omega) _ _
    | exact sized_match (by omega)
    | exact sized_callcc (by omega)
    | exact sized_atomic (by omega)
    | exact sized_cond (by omega)
    | exact sized_var (by omega)
    | exact sized_setq (by omega)
    | exact sized_loop (by omega)
    | exact sized_trap (by omega)

theorem sized_map {args : List V} {K : List W} (h : K.length + 8 < z) : applyMap (some z) m args K = applyMap none m args K := by
  unfold applyMap
  split <;> try rfl
  exact reserve_congr (by simp; omega) rfl

theorem sized_application (h : m.K.length + 10 < z) (c : Nat) : application (some z) P m c = application none P m c := by
  unfold application
  dsimp only
  split
  · rw [sized_map (by simp; omega)]
  · rfl

theorem sized_args (h : m.K.length + 12 < z) : contArgs (some z) P m = contArgs none P m := by
  unfold contArgs
  split
  · rename_i c rest env K hK
    have hl : m.K.length = K.length + 3 := by rw [hK]; simp
    split
    · exact reserve_congr (by simp; omega) rfl
    · exact sized_application (by simp; omega) _
  · rfl

/-- The stack that a step leaves is not too high. -/
def Out.low (z : Nat) : Out → Prop
  | .next m => m.K.length + 1 ≤ z
  | _ => True

theorem sized_start (h : m.K.length + 14 < z) (hl : (contStart none P m).low z) : contStart (some z) P m = contStart none P m := by
  revert hl
  unfold contStart
  split
  · intro _
    exact reserve_congr (by simp; omega) (sized_args (by simp; omega))
  · split
    · rename_i fa _ args aenv K hK
      have hl' : m.K.length = K.length + 2 := by rw [hK]; simp
      dsimp only
      split
      · intro _
        split
        · exact reserve_congr (by simp; omega) rfl
        · rfl
      · split
        · split
          · split
            · intro _; rfl
            · split
              · intro _; rfl
              · split
                · intro _; rfl
                · intro hl
                  simp only [Option.all_none, if_true, M.go, Out.low] at hl
                  simp only [Option.all_some, Option.all_none, if_true, hl, decide_true]
          · intro _; rfl
        · intro _; rfl
    · intro _; rfl
  · intro _; rfl

theorem sized_cloArgs (h : m.K.length + 14 < z) : contCloArgs (some z) m = contCloArgs none m := by
  unfold contCloArgs
  split
  · rename_i args params cenv body aenv K hK
    have hl : m.K.length = K.length + 5 := by rw [hK]; simp
    dsimp only
    split
    · split
      · split
        · exact reserve_congr (by simp; omega) rfl
        · rfl
      · split
        · rfl
        · split
          · split
            · exact reserve_congr (by simp; omega) rfl
            · rfl
          · rfl
    · rfl
  · rfl

theorem sized_cloRest (h : m.K.length + 14 < z) : contCloRest (some z) m = contCloRest none m := by
  unfold contCloRest
  split
  · rename_i last args cenv body aenv K hK
    have hl : m.K.length = K.length + 5 := by rw [hK]; simp
    dsimp only
    split
    · rfl
    · exact reserve_congr (by simp; omega) rfl
  · rfl

theorem sized_and (h : m.K.length + 14 < z) : contAnd (some z) m = contAnd none m := by
  unfold contAnd
  split
  · rename_i rest env K hK
    have hl : m.K.length = K.length + 2 := by rw [hK]; simp
    dsimp only
    split
    · rfl
    · split
      · rfl
      · exact reserve_congr (by simp; omega) rfl
  · rfl

theorem sized_or (h : m.K.length + 14 < z) : contOr (some z) m = contOr none m := by
  unfold contOr
  split
  · rename_i rest env K hK
    have hl : m.K.length = K.length + 2 := by rw [hK]; simp
    dsimp only
    split
    · rfl
    · split
      · rfl
      · exact reserve_congr (by simp; omega) rfl
  · rfl

theorem sized_bind (h : m.K.length + 14 < z) : contBind (some z) m = contBind none m := by
  unfold contBind
  split
  · rename_i key env rest body K hK
    have hl : m.K.length = K.length + 4 := by rw [hK]; simp
    split <;> try rfl
    split
    · exact reserve_congr (by simp; omega) rfl
    · rfl
  · rfl

theorem sized_cmatch (h : m.K.length + 14 < z) : contMatch (some z) P m = contMatch none P m := by
  unfold contMatch
  split
  · rename_i oenv pats K hK
    have hl : m.K.length = K.length + 2 := by rw [hK]; simp
    split <;> try rfl
    dsimp only
    split
    · split
      · rfl
      · split
        · rfl
        · exact reserve_congr (by simp; omega) rfl
      · exact reserve_congr (by simp; omega) rfl
    · rfl
  · rfl

theorem sized_cmap (h : m.K.length + 14 < z) : contMap (some z) m = contMap none m := by
  unfold contMap
  split
  · rename_i arg appli t res env ls K hK
    have hl : m.K.length = K.length + 6 := by rw [hK]; simp
    dsimp only
    split
    · exact reserve_congr (by simp; omega) rfl
    · rfl
  · rfl

theorem sized_cprogn (h : m.K.length + 14 < z) : contProgn (some z) m = contProgn none m := by
  unfold contProgn
  split
  · rename_i a c env K hK
    have hl : m.K.length = K.length + 3 := by rw [hK]; simp
    split
    · exact reserve_congr (by simp; omega) rfl
    · rfl
  · rfl

theorem sized_cloop (h : m.K.length + 14 < z) : contLoop (some z) m = contLoop none m := by
  unfold contLoop
  split
  · exact reserve_congr (by simp; omega) rfl
  · rfl

theorem sized_cloopcond (h : m.K.length + 14 < z) : contLoopCond (some z) m = contLoopCond none m := by
  unfold contLoopCond
  split
  · split
    · rfl
    · exact reserve_congr (by simp; omega) rfl
  · rfl

theorem sized_done (h : m.K.length + 14 < z) : contDone (some z) m = contDone none m := by
  unfold contDone
  split <;> try rfl
  exact reserve_congr (by simp; omega) rfl

theorem sized_runCont (h : m.K.length + 14 < z) (c : Nat) (hl : (runCont none P c m).low z) : runCont (some z) P c m = runCont none P c m := by
  revert hl
  unfold runCont
  split <;> intro hl <;> first
    | rfl
    | exact sized_done h
    | exact sized_bind h
    | exact sized_cprogn h
    | exact sized_args (by omega)
    | exact sized_and h
    | exact sized_or h
    | exact sized_cmatch h
    | exact sized_start h hl
    | exact sized_cloArgs h
    | exact sized_cmap h
    | exact sized_cloop h
    | exact sized_cloopcond h
    | exact sized_cloRest h

theorem sized_step (h : m.K.length + 16 ≤ z) (hl : (step none P m).low z) : step (some z) P m = step none P m := by
  revert hl
  unfold step
  split
  · split
    · rename_i c K hK
      have hl' : m.K.length = K.length + 1 := by rw [hK]; simp
      intro hl
      exact sized_runCont (by simp; omega) _ hl
    · intro _; rfl
  · intro _
    split
    · rfl
    · split
      · exact sized_special (by omega) _
      · exact reserve_congr (by simp; omega) rfl
    · rfl

end

/-- The first `n` steps stay sixteen words below the size. -/
def Fits (P : Prims) (z n : Nat) (o : Out) : Prop :=
  ∀ i, i ≤ n → ∀ m, steps none P i o = .next m → m.K.length + 16 ≤ z

/-- The size does not matter if the stack stays below it. -/
theorem steps_sized {P : Prims} {z : Nat} : ∀ (n : Nat) (o : Out), Fits P z n o → steps (some z) P n o = steps none P n o
  | 0, _, _ => rfl
  | n + 1, .fin .., _ => rfl
  | n + 1, .ub, _ => rfl
  | n + 1, .out, _ => rfl
  | n + 1, .next m, h => by
    have h0 : m.K.length + 16 ≤ z := h 0 (by omega) m rfl
    have h1 : (step none P m).low z := by
      cases hs : step none P m with
      | next m' =>
        have := h 1 (by omega) m' (by simp only [steps, hs])
        simp only [Out.low]; omega
      | _ => trivial
    simp only [steps, sized_step h0 h1]
    exact steps_sized n _ (fun i hi m' hm => h (i + 1) (by omega) m' hm)

end Verif.Eval
