import Verif.Eval.AssocProps

/-!
# C30: what `length`, `drop` and `ix` compute as functions of the evaluator of C122
-/

namespace Verif.Eval
namespace Builtin

/-- `v` is the list of the values `l`. -/
inductive Elems (s : St) : V → List V → Prop
  | nil : Elems s .nil []
  | cons {a : Nat} {l : List V} (h : Elems s (s.cdr a) l) : Elems s (.cons a) (s.car a :: l)

variable (nm : Nums)

theorem code14 : code nm 14 = ifCons 11 (incr 15 (.cdr 11 11 (.goto 14))) (.comp 10 [15] (fun l => nm.enc (cnt (hd l))) (.ret 10)) := rfl
theorem code18 : code nm 18 = .test [11, 12] (fun l => (hd l).isCons && decide (cnt (snd l) > 0)) (.cdr 11 11 (decr 12 (.goto 18))) (.ret 11) := rfl

theorem loop14 {fuel : Nat} {args : List V} {s : St} : ∀ {v : V} {l : List V}, Elems s v l → ∀ (n k : Nat) (g : Nat → V), l.length < n → g 11 = v → g 15 = .u k →
    exec fuel (code nm) args n 14 g s = cellRes s (nm.enc (k + l.length)).flat
  | _, _, .nil, n, k, g, hn, hv, hk => by
    obtain ⟨n, rfl⟩ : ∃ k, n = k + 1 := ⟨n - 1, by omega⟩
    show execP _ _ _ (code nm 14) g s = _
    rw [code14, ifCons_nil hv]
    simp [execP, hk, set_get, hd, V.shape, cnt]
  | _, _, @Elems.cons _ a l h, n, k, g, hn, hv, hk => by
    obtain ⟨n, rfl⟩ : ∃ k, n = k + 1 := ⟨n - 1, by omega⟩
    show execP _ _ _ (code nm 14) g s = _
    rw [code14, ifCons_cons hv]
    simp only [incr, execP]
    rw [set_other (by decide), hv, gcdr_cons]
    rw [loop14 h n (k + 1) _ (by simp only [List.length_cons] at hn; omega) set_get
      (by rw [set_other (by decide), set_get]; simp [hk, hd, V.shape, cnt, V.flat])]
    rw [List.length_cons]
    congr 3; omega

theorem elems_list {s : St} {v : V} {l : List V} (h : Elems s v l) : isList v.shape = true := by
  cases h <;> simp [isList, V.shape, V.isCons, V.nil]

theorem loop18 {fuel : Nat} {args : List V} {s : St} : ∀ {v : V} {l : List V}, Elems s v l → ∀ (n k : Nat) (g : Nat → V), l.length < n → g 11 = v → g 12 = .u k →
    ∃ w, exec fuel (code nm) args n 18 g s = cellRes s w ∧ Elems s w (l.drop k)
  | _, _, .nil, n, k, g, hn, hv, hk => by
    obtain ⟨n, rfl⟩ : ∃ k, n = k + 1 := ⟨n - 1, by omega⟩
    refine ⟨.nil, ?_, by simpa using Elems.nil⟩
    show execP _ _ _ (code nm 18) g s = _
    rw [code18]
    simp [execP, hv, hk, hd, V.shape, V.isCons, V.nil]
  | _, _, @Elems.cons _ a l h, n, 0, g, hn, hv, hk => by
    obtain ⟨n, rfl⟩ : ∃ k, n = k + 1 := ⟨n - 1, by omega⟩
    refine ⟨.cons a, ?_, .cons h⟩
    show execP _ _ _ (code nm 18) g s = _
    rw [code18]
    simp [execP, hv, hk, hd, snd, V.shape, cnt]
  | _, _, @Elems.cons _ a l h, n, k + 1, g, hn, hv, hk => by
    obtain ⟨n, rfl⟩ : ∃ k, n = k + 1 := ⟨n - 1, by omega⟩
    have hr : exec fuel (code nm) args (n + 1) 18 g s = exec fuel (code nm) args n 18 (setReg (setReg g 11 (s.cdr a)) 12 (.u k)) s := by
      show execP _ _ _ (code nm 18) g s = _
      rw [code18]
      simp [execP, hv, hk, hd, snd, V.shape, cnt, V.isCons, decr, gcdr_cons, setReg, V.flat]
    rw [hr, List.drop_succ_cons]
    exact loop18 h n k _ (by simp only [List.length_cons] at hn; omega) (by rw [set_other (by decide), set_get]) set_get

/-- `(length l)` is the number of elements of the list; nothing is changed. -/
theorem C30_eval_length {fuel : Nat} (hn : nm.fns 0x20035 = none) {s : St} {v env : V} {l : List V} (h : Elems s v l) (hl : l.length < fuel) :
    (prims nm (fuel + 1)).run 0x20035 [v] env s = cellRes s (nm.enc l.length).flat := by
  rw [run_prog nm hn]
  show execP _ _ _ (nargs 1 (ifList 1 (zero 15 (.move 11 1 (.goto 14))) (const .terror)) (const .eerror)) _ _ = _
  rw [nargs_pos (k := 1) rfl]
  have h1 : startRegs [v] 1 = v := rfl
  simp only [ifList, zero, execP, List.map_cons, List.map_nil, h1, hd, List.headD_cons, elems_list h, if_true]
  have := loop14 nm (fuel := fuel + 1) (args := [v]) h fuel 0 (setReg (setReg (startRegs [v]) 15 (.u 0)) 11 v) hl set_get (by rw [set_other (by decide), set_get])
  rw [Nat.zero_add] at this
  rw [← this]
  rfl

/-- `(drop l k)` is the list of the elements behind the first `k`, with the same cells; nothing is changed. -/
theorem C30_eval_drop {fuel : Nat} (hn : nm.fns 0x20039 = none) {s : St} {v k env : V} {l : List V} (h : Elems s v l) (hl : l.length < fuel) (hk : nm.isNum k.shape = true) :
    ∃ w, (prims nm (fuel + 1)).run 0x20039 [v, k] env s = cellRes s w ∧ Elems s w (l.drop (nm.u32 k.shape)) := by
  rw [run_prog nm hn]
  show ∃ w, execP _ _ _ (nargs 2 (.test [2] (fun l => nm.isNum (hd l)) (ifList 1 (.comp 12 [2] (fun l => .u (nm.u32 (hd l))) (.move 11 1 (.goto 18))) (const .terror)) (const .terror)) (const .terror)) _ _ = _ ∧ _
  rw [nargs_pos (k := 2) rfl]
  have h1 : startRegs [v, k] 1 = v := rfl
  have h2 : startRegs [v, k] 2 = k := rfl
  simp only [ifList, execP, List.map_cons, List.map_nil, h1, h2, hd, List.headD_cons, elems_list h, hk, if_true]
  exact loop18 nm h fuel _ _ hl set_get (by rw [set_other (by decide), set_get]; rfl)

theorem code12 : code nm 12 = ifCons 11 (incr 15 (.cdr 11 11 (.goto 12)))
      (.test [2, 15] (fun l => decide (nm.i32 (hd l) < 0 ∧ cnt (snd l) + nm.i32 (hd l) < 0)) (const .nil)
        (.comp 12 [2, 15] (fun l => .u (if nm.i32 (hd l) < 0 then cnt (snd l) + nm.i32 (hd l) else nm.i32 (hd l)).toNat) (.move 11 1 (.goto 13)))) := rfl
theorem code13 : code nm 13 = .test [11, 12] (fun l => (hd l).isCons && decide (cnt (snd l) > 0)) (.cdr 11 11 (decr 12 (.goto 13))) (ifCons 11 (.car 10 11 (.ret 10)) (const .nil)) := rfl

theorem loop13 {fuel : Nat} {args : List V} {s : St} : ∀ {v : V} {l : List V}, Elems s v l → ∀ (n k : Nat) (g : Nat → V), l.length < n → g 11 = v → g 12 = .u k →
    exec fuel (code nm) args n 13 g s = cellRes s (l[k]?.getD .nil)
  | _, _, .nil, n, k, g, hn, hv, hk => by
    obtain ⟨n, rfl⟩ : ∃ k, n = k + 1 := ⟨n - 1, by omega⟩
    show execP _ _ _ (code nm 13) g s = _
    rw [code13]
    have ht : ((hd (([11, 12] : List Nat).map fun r => (g r).shape)).isCons && decide (cnt (snd (([11, 12] : List Nat).map fun r => (g r).shape)) > 0)) = false := by
      simp [hv, hk, hd, V.shape, V.isCons, V.nil]
    rw [execP, ht]
    simp only [Bool.false_eq_true, if_false]
    rw [ifCons_nil hv, const_run]
    rfl
  | _, _, @Elems.cons _ a l h, n, 0, g, hn, hv, hk => by
    obtain ⟨n, rfl⟩ : ∃ k, n = k + 1 := ⟨n - 1, by omega⟩
    show execP _ _ _ (code nm 13) g s = _
    rw [code13]
    have ht : ((hd (([11, 12] : List Nat).map fun r => (g r).shape)).isCons && decide (cnt (snd (([11, 12] : List Nat).map fun r => (g r).shape)) > 0)) = false := by
      simp [hv, hk, hd, snd, V.shape, cnt]
    rw [execP, ht]
    simp only [Bool.false_eq_true, if_false]
    rw [ifCons_cons hv]
    simp [execP, hv, gcar_cons, set_get]
  | _, _, @Elems.cons _ a l h, n, k + 1, g, hn, hv, hk => by
    obtain ⟨n, rfl⟩ : ∃ k, n = k + 1 := ⟨n - 1, by omega⟩
    have hr : exec fuel (code nm) args (n + 1) 13 g s = exec fuel (code nm) args n 13 (setReg (setReg g 11 (s.cdr a)) 12 (.u k)) s := by
      show execP _ _ _ (code nm 13) g s = _
      rw [code13]
      simp [execP, hv, hk, hd, snd, V.shape, cnt, V.isCons, decr, gcdr_cons, setReg, V.flat]
    rw [hr, List.getElem?_cons_succ]
    exact loop13 h n k _ (by simp only [List.length_cons] at hn; omega) (by rw [set_other (by decide), set_get]) set_get

theorem loop12 {fuel : Nat} {args : List V} {s : St} {v0 i : V} {l0 : List V} (h0 : Elems s v0 l0) :
    ∀ {v : V} {l : List V}, Elems s v l → ∀ (n k : Nat) (g : Nat → V), l.length + l0.length + 1 < n → k + l.length = l0.length → g 11 = v → g 15 = .u k → g 1 = v0 → g 2 = i →
    exec fuel (code nm) args n 12 g s = cellRes s (if nm.i32 i.shape < 0 ∧ l0.length + nm.i32 i.shape < 0 then .nil
      else l0[(if nm.i32 i.shape < 0 then l0.length + nm.i32 i.shape else nm.i32 i.shape).toNat]?.getD .nil)
  | _, _, .nil, n, k, g, hn, hl, hv, hk, h1, h2 => by
    obtain ⟨n, rfl⟩ : ∃ k, n = k + 1 := ⟨n - 1, by omega⟩
    have hkl : k = l0.length := by simpa using hl
    subst hkl
    show execP _ _ _ (code nm 12) g s = _
    rw [code12, ifCons_nil hv]
    have e1 : (([2, 15] : List Nat).map fun r => (g r).shape) = [i.shape, .u l0.length] := by simp [h2, hk, V.shape]
    rw [execP, e1]
    simp only [hd, snd, List.headD_cons, List.drop_succ_cons, List.drop_zero, cnt, decide_eq_true_eq]
    by_cases hc : nm.i32 i.shape < 0 ∧ l0.length + nm.i32 i.shape < 0
    · rw [if_pos hc, if_pos hc, const_run]; rfl
    · rw [if_neg hc, if_neg hc]
      simp only [execP]
      rw [e1]
      refine loop13 nm h0 n _ _ (by simp only [List.length_nil] at hn; omega) ?_ ?_
      · rw [set_get, set_other (by decide), h1]
      · rw [set_other (by decide), set_get]; rfl
  | _, _, @Elems.cons _ a l h, n, k, g, hn, hl, hv, hk, h1, h2 => by
    obtain ⟨n, rfl⟩ : ∃ k, n = k + 1 := ⟨n - 1, by omega⟩
    have hr : exec fuel (code nm) args (n + 1) 12 g s = exec fuel (code nm) args n 12 (setReg (setReg g 15 (.u (k + 1))) 11 (s.cdr a)) s := by
      show execP _ _ _ (code nm 12) g s = _
      rw [code12, ifCons_cons hv]
      simp [incr, execP, hv, hk, hd, V.shape, cnt, gcdr_cons, setReg, V.flat]
    rw [hr]
    simp only [List.length_cons] at hn hl
    exact loop12 h0 h n (k + 1) _ (by omega) (by omega) set_get (by rw [set_other (by decide), set_get])
      (by rw [set_other (by decide), set_other (by decide), h1]) (by rw [set_other (by decide), set_other (by decide), h2])

/-- The element at a position, counted from the end if the position is negative. -/
def elemAt (l : List V) (i : Int) : Option V := if 0 ≤ i then l[i.toNat]? else l.reverse[(-i - 1).toNat]?

theorem elemAt_eq (l : List V) (i : Int) : (if i < 0 ∧ l.length + i < 0 then V.nil else l[(if i < 0 then l.length + i else i).toNat]?.getD .nil) = (elemAt l i).getD .nil := by
  unfold elemAt
  by_cases hi : i < 0
  · rw [if_neg (by omega : ¬ 0 ≤ i)]
    by_cases h2 : l.length + i < 0
    · rw [if_pos ⟨hi, h2⟩, List.getElem?_eq_none (by rw [List.length_reverse]; omega)]; rfl
    · rw [if_neg (by omega), if_pos hi, List.getElem?_reverse (by omega)]
      congr 2; omega
  · rw [if_neg (by omega), if_neg hi, if_pos (by omega)]

/-- `(ix l i)` is the element at position `i`, counted from the end if `i` is negative, and `nil` if there is none; nothing is changed. -/
theorem C30_eval_ix {fuel : Nat} (hn : nm.fns 0x20023 = none) {s : St} {v i env : V} {l : List V} (h : Elems s v l) (hl : 2 * l.length + 1 < fuel) (hi : nm.isNum i.shape = true) :
    (prims nm (fuel + 1)).run 0x20023 [v, i] env s = cellRes s ((elemAt l (nm.i32 i.shape)).getD .nil) := by
  rw [run_prog nm hn]
  show execP _ _ _ (nargs 2 (.test [2] (fun l => nm.isNum (hd l)) (ifList 1 (zero 15 (.move 11 1 (.goto 12))) (const .eerror)) (const .eerror)) (const .eerror)) _ _ = _
  rw [nargs_pos (k := 2) rfl]
  have h1 : startRegs [v, i] 1 = v := rfl
  have h2 : startRegs [v, i] 2 = i := rfl
  have e := loop12 nm (fuel := fuel + 1) (args := [v, i]) (i := i) h h fuel 0 (setReg (setReg (startRegs [v, i]) 15 (.u 0)) 11 v) (by omega) (by omega) set_get
    (by rw [set_other (by decide), set_get]) (by rw [set_other (by decide), set_other (by decide), h1]) (by rw [set_other (by decide), set_other (by decide), h2])
  rw [elemAt_eq] at e
  simp only [ifList, zero, execP, List.map_cons, List.map_nil, h1, h2, hd, List.headD_cons, elems_list h, hi, if_true]
  rw [← e]
  rfl

example : (prims noNums 9).run 0x20023 [.cons 4, .atom 1] .nil twice = cellRes twice (.cons 3) :=
  C30_eval_ix noNums (fuel := 8) rfl (l := [.cons 2, .cons 3]) (.cons (.cons .nil)) (by decide) rfl

example : Elems twice (.cons 4) [.cons 2, .cons 3] := .cons (.cons .nil)
example : (prims noNums 9).run 0x20035 [.cons 4] .nil twice = cellRes twice (noNums.enc 2).flat := C30_eval_length noNums (fuel := 8) rfl (l := [.cons 2, .cons 3]) (.cons (.cons .nil)) (by decide)
example : ∃ w, (prims noNums 9).run 0x20039 [.cons 4, .atom 1] .nil twice = cellRes twice w ∧ Elems twice w [.cons 3] :=
  C30_eval_drop noNums (fuel := 8) rfl (l := [.cons 2, .cons 3]) (.cons (.cons .nil)) (by decide) rfl

/-- `length`, `append`, `ix`, `drop` and `setix` of lists. -/
example : (prims noNums 9).run 0x20035 [.cons 4] .nil twice = .ok twice (.atom 2) := rfl
example : (prims noNums 9).run 0x20023 [.cons 4, .atom 1] .nil twice = .ok twice (.cons 3) := rfl
example : (prims noNums 9).run 0x20039 [.cons 4, .atom 1] .nil twice = .ok twice (.cons 5) := rfl
example : ∃ s' a, (prims noNums 20).run 0x20015 [.cons 4, .cons 5] .nil twice = .ok s' (.cons a) ∧ (prims noNums 9).run 0x20035 [.cons a] .nil s' = .ok s' (.atom 3) := ⟨_, _, rfl, rfl⟩
example : ∃ s', (prims noNums 20).run 0x2001E [.cons 4, .atom 1, .atom 8] .nil twice = .ok s' (.cons 4) ∧ s'.car 5 = .atom 8 ∧ s'.car 4 = .cons 2 := ⟨_, rfl, rfl, rfl⟩
example : (prims noNums 9).run 0x20005 [.cons 0, .cons 1] .nil twice = .ok twice .tru := rfl
example : (prims noNums 9).run 0x20012 [.cons 0] .nil twice = .ok twice (.sym 0x40000) := rfl

end Builtin
end Verif.Eval
