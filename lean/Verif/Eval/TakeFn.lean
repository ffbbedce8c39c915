import Verif.Eval.ListFns

/-!
# C30: what `take` computes as a function of the evaluator of C122
-/

namespace Verif.Eval
namespace Builtin

/-- `v` is the list of the values `l`, and its cells are below `N`. -/
inductive Below (N : Nat) (s : St) : V → List V → Prop
  | nil : Below N s .nil []
  | cons {a : Nat} {l : List V} (ha : a < N) (h : Below N s (s.cdr a) l) : Below N s (.cons a) (s.car a :: l)

/-- `v` is a list with the cells `bs`, all of them new. -/
inductive Chain (N : Nat) (s : St) : V → List Nat → Prop
  | nil : Chain N s .nil []
  | cons {b : Nat} {bs : List Nat} (hb : N ≤ b) (h : Chain N s (s.cdr b) bs) : Chain N s (.cons b) (b :: bs)

theorem Below.elems {N : Nat} {s : St} {v : V} {l : List V} (h : Below N s v l) : Elems s v l := by
  induction h with
  | nil => exact .nil
  | cons _ _ ih => exact .cons ih

theorem Chain.elems {N : Nat} {s : St} {v : V} {bs : List Nat} (h : Chain N s v bs) : Elems s v (bs.map s.car) := by
  induction h with
  | nil => exact .nil
  | cons _ _ ih => exact .cons ih

theorem Below.keep {N : Nat} {s s' : St} {v : V} {l : List V} (h : Below N s v l) (hk : ∀ a, a < N → s'.car a = s.car a ∧ s'.cdr a = s.cdr a) : Below N s' v l := by
  induction h with
  | nil => exact .nil
  | @cons a l ha _ ih =>
    rw [← (hk a ha).1]
    exact .cons ha (by rw [(hk a ha).2]; exact ih)

theorem Chain.keep {N : Nat} {s s' : St} {v : V} {bs : List Nat} (h : Chain N s v bs) (hk : ∀ b ∈ bs, s'.cdr b = s.cdr b) : Chain N s' v bs := by
  induction h with
  | nil => exact .nil
  | @cons b bs hb _ ih =>
    exact .cons hb (by rw [hk b List.mem_cons_self]; exact ih fun b' hb' => hk b' (List.mem_cons_of_mem _ hb'))

variable (nm : Nums)

theorem code15 : code nm 15 = ifCons 11 (incr 15 (.cdr 11 11 (.goto 15)))
      (.comp 12 [2, 15] (fun l => .u (if 0 ≤ nm.i32 (hd l) ∧ nm.i32 (hd l) < cnt (snd l) then (nm.i32 (hd l)).toNat else cnt (snd l)))
        (.comp 10 [] (fun _ => .nil) (.move 13 12 (.goto 16)))) := rfl
theorem code16 : code nm 16 = ifZero 13 (.move 11 1 (.move 14 10 (.goto 17))) (decr 13 (.comp 16 [] (fun _ => .nil) (.cons 10 16 10 (.goto 16)))) := rfl
theorem code17 : code nm 17 = .test [11, 12] (fun l => (hd l).isCons && decide (cnt (snd l) > 0)) (.car 16 11 (.setCar 14 16 (.cdr 14 14 (.cdr 11 11 (decr 12 (.goto 17)))))) (.ret 10) := rfl

theorem loop16 {N fuel : Nat} {args : List V} (n : Nat) : ∀ (k : Nat) (g : Nat → V) (s : St) (bs : List Nat), Chain N s (g 10) bs → N ≤ s.next → (∀ b ∈ bs, b < s.next) → bs.Nodup → g 13 = .u k →
    ∃ g' s' bs', exec fuel (code nm) args (n + k + 1) 16 g s = exec fuel (code nm) args n 17 g' s' ∧ Chain N s' (g' 10) bs' ∧ bs'.length = bs.length + k ∧ bs'.Nodup ∧
      g' 11 = g 1 ∧ g' 14 = g' 10 ∧ g' 12 = g 12 ∧ ∀ a, a < N → s'.car a = s.car a ∧ s'.cdr a = s.cdr a
  | 0, g, s, bs, hc, hN, hb, hd', hk => by
    refine ⟨setReg (setReg g 11 (g 1)) 14 (g 10), s, bs, ?_, by simpa [setReg] using hc, rfl, hd', by simp [setReg], by simp [setReg], by simp [setReg], fun _ _ => ⟨rfl, rfl⟩⟩
    show execP _ _ _ (code nm 16) g s = _
    rw [code16]
    simp [ifZero, execP, hk, hd, V.shape, cnt, setReg]
  | k + 1, g, s, bs, hc, hN, hb, hd', hk => by
    have hr : exec fuel (code nm) args (n + (k + 1) + 1) 16 g s =
        exec fuel (code nm) args (n + k + 1) 16 (setReg (setReg (setReg g 13 (.u k)) 16 .nil) 10 (s.cons .nil (g 10)).2) (s.cons .nil (g 10)).1 := by
      show execP _ _ _ (code nm 16) g s = _
      rw [code16]
      simp [ifZero, decr, execP, hk, hd, V.shape, cnt, setReg, V.flat, V.nil]
      rfl
    have hfr : ∀ b ∈ bs, b ≠ s.next := fun b h e => by have := hb b h; omega
    have hc' : Chain N (s.cons .nil (g 10)).1 (.cons s.next) (s.next :: bs) := by
      refine .cons hN ?_
      have : (s.cons .nil (g 10)).1.cdr s.next = g 10 := by simp [St.cons]
      rw [this]
      exact hc.keep fun b h => by simp [St.cons, hfr b h]
    obtain ⟨g', s', bs', e, h1, h2, h3, h4, h5, h6, h7⟩ := loop16 n k (setReg (setReg (setReg g 13 (.u k)) 16 .nil) 10 (s.cons .nil (g 10)).2) (s.cons .nil (g 10)).1 (s.next :: bs)
      (by rw [set_get]; exact hc') (by simp only [St.cons]; omega)
      (by
        intro b h
        rw [List.mem_cons] at h
        simp only [St.cons]
        rcases h with rfl | h
        · omega
        · have := hb b h; omega)
      (List.nodup_cons.2 ⟨fun h => hfr _ h rfl, hd'⟩) (by simp [setReg])
    refine ⟨g', s', bs', hr.trans e, h1, by rw [h2, List.length_cons]; omega, h3, by rw [h4]; simp [setReg], h5, by rw [h6]; simp [setReg], fun a ha => ?_⟩
    have hne : a ≠ s.next := by omega
    rw [(h7 a ha).1, (h7 a ha).2]
    simp [St.cons, hne]

theorem loop17 {N fuel : Nat} {args : List V} : ∀ (bs : List Nat) (l : List V) (n : Nat) (g : Nat → V) (s : St), Chain N s (g 14) bs → Below N s (g 11) l → bs.Nodup → g 12 = .u bs.length →
    bs.length ≤ l.length → bs.length < n →
    ∃ s', exec fuel (code nm) args n 17 g s = cellRes s' (g 10) ∧ s'.cdr = s.cdr ∧ (∀ a, a ∉ bs → s'.car a = s.car a) ∧ bs.map s'.car = l.take bs.length
  | [], l, n, g, s, _, _, _, hk, _, hn => by
    obtain ⟨n, rfl⟩ : ∃ k, n = k + 1 := ⟨n - 1, by omega⟩
    refine ⟨s, ?_, rfl, fun _ _ => rfl, rfl⟩
    show execP _ _ _ (code nm 17) g s = _
    rw [code17]
    simp [execP, hk, snd, V.shape, cnt]
  | b :: bs, l, n, g, s, hc, hl, hd', hk, hle, hn => by
    obtain ⟨n, rfl⟩ : ∃ k, n = k + 1 := ⟨n - 1, by omega⟩
    generalize hv : g 11 = v at hl
    generalize hw : g 14 = w at hc
    cases hl with
    | nil => simp at hle
    | @cons a l ha hl =>
      cases hc with
      | cons hb hc =>
        have hne : ∀ c, c < N → c ≠ b := fun c h => by omega
        have hr : exec fuel (code nm) args (n + 1) 17 g s = exec fuel (code nm) args n 17
            (setReg (setReg (setReg (setReg g 16 (s.car a)) 14 (s.cdr b)) 11 (s.cdr a)) 12 (.u bs.length)) (s.setCar (.cons b) (s.car a)) := by
          show execP _ _ _ (code nm 17) g s = _
          rw [code17]
          simp [execP, decr, hv, hw, hk, hd, snd, V.shape, cnt, V.isCons, setReg, V.flat, St.setCar, St.gcdr, St.gcar]
        rw [List.nodup_cons] at hd'
        simp only [List.length_cons] at hle hn
        obtain ⟨s', e, h1, h2, h3⟩ := loop17 bs l n (setReg (setReg (setReg (setReg g 16 (s.car a)) 14 (s.cdr b)) 11 (s.cdr a)) 12 (.u bs.length)) (s.setCar (.cons b) (s.car a))
          (by
            have : setReg (setReg (setReg (setReg g 16 (s.car a)) 14 (s.cdr b)) 11 (s.cdr a)) 12 (.u bs.length) 14 = s.cdr b := by simp [setReg]
            rw [this]; exact hc.keep fun _ _ => rfl)
          (by
            have : setReg (setReg (setReg (setReg g 16 (s.car a)) 14 (s.cdr b)) 11 (s.cdr a)) 12 (.u bs.length) 11 = s.cdr a := by simp [setReg]
            rw [this]; exact hl.keep fun c h => ⟨by simp [St.setCar, hne c h], rfl⟩)
          hd'.2 (by simp [setReg]) (by omega) (by omega)
        refine ⟨s', ?_, h1, fun c hc' => ?_, ?_⟩
        · rw [hr, e]; simp [setReg]
        · rw [List.mem_cons, not_or] at hc'
          rw [h2 c hc'.2]
          simp [St.setCar, hc'.1]
        · rw [List.map_cons, List.length_cons, List.take_succ_cons, h3, h2 b hd'.1]
          simp [St.setCar]

/-- How many elements `take` takes: all of them if the number is negative. -/
def takes (i : Int) (len : Nat) : Nat := if 0 ≤ i then min i.toNat len else len

theorem loop15 {fuel : Nat} {args : List V} {s : St} {v0 i : V} {l0 : List V} (h0 : Below s.next s v0 l0) :
    ∀ {v : V} {l : List V}, Elems s v l → ∀ (n k : Nat) (g : Nat → V), l.length + 2 * l0.length + 3 < n → k + l.length = l0.length → g 11 = v → g 15 = .u k → g 1 = v0 → g 2 = i →
    ∃ s' w, exec fuel (code nm) args n 15 g s = cellRes s' w ∧ Elems s' w (l0.take (takes (nm.i32 i.shape) l0.length)) ∧ ∀ a, a < s.next → s'.car a = s.car a ∧ s'.cdr a = s.cdr a
  | _, _, .nil, n, k, g, hn, hl, hv, hk, h1, h2 => by
    obtain ⟨n, rfl⟩ : ∃ k, n = k + 1 := ⟨n - 1, by omega⟩
    have hkl : k = l0.length := by simpa using hl
    subst hkl
    have hT : (if 0 ≤ nm.i32 i.shape ∧ nm.i32 i.shape < l0.length then (nm.i32 i.shape).toNat else l0.length) = takes (nm.i32 i.shape) l0.length := by
      unfold takes
      split <;> split <;> omega
    have hTle : takes (nm.i32 i.shape) l0.length ≤ l0.length := by unfold takes; split <;> omega
    generalize hTT : takes (nm.i32 i.shape) l0.length = T at hT hTle ⊢
    have hr : exec fuel (code nm) args (n + 1) 15 g s = exec fuel (code nm) args n 16 (setReg (setReg (setReg g 12 (.u T)) 10 .nil) 13 (.u T)) s := by
      show execP _ _ _ (code nm 15) g s = _
      rw [code15, ifCons_nil hv]
      have e1 : (([2, 15] : List Nat).map fun r => (g r).shape) = [i.shape, .u l0.length] := by simp [h2, hk, V.shape]
      simp only [execP]
      rw [e1]
      simp only [hd, snd, List.headD_cons, List.drop_succ_cons, List.drop_zero, cnt, hT]
      rfl
    simp only [List.length_nil] at hn
    obtain ⟨m, hm⟩ : ∃ m, n = m + T + 1 := ⟨n - T - 1, by omega⟩
    obtain ⟨g', s', bs, e, c1, c2, c3, c4, c5, c6, c7⟩ := loop16 (N := s.next) nm (fuel := fuel) (args := args) m T (setReg (setReg (setReg g 12 (.u T)) 10 .nil) 13 (.u T)) s []
      (by simpa [setReg] using Chain.nil) (Nat.le_refl _) (by simp) List.nodup_nil (by simp [setReg])
    have hbl : bs.length = T := by simpa using c2
    have hg1 : g' 11 = v0 := by rw [c4, ← h1]; simp [setReg]
    obtain ⟨s2, e2, d1, d2, d3⟩ := loop17 (N := s.next) nm (fuel := fuel) (args := args) bs l0 m g' s' (by rw [c5]; exact c1) (by rw [hg1]; exact h0.keep c7) c3
      (by rw [c6, hbl]; simp [setReg]) (by omega) (by omega)
    have hge : ∀ {v : V} {bs : List Nat}, Chain s.next s' v bs → ∀ b ∈ bs, s.next ≤ b := by
      intro v bs h
      induction h with
      | nil => simp
      | cons hb _ ih =>
        intro b hb'
        rw [List.mem_cons] at hb'
        rcases hb' with rfl | hb'
        · exact hb
        · exact ih b hb'
    refine ⟨s2, g' 10, ?_, ?_, fun a ha => ?_⟩
    · rw [hr, hm, e, e2]
    · have := (c1.keep (s' := s2) fun b _ => by rw [d1]).elems
      rw [d3, hbl] at this
      exact this
    · have hna : a ∉ bs := fun h => by have := hge c1 a h; omega
      rw [d2 a hna, d1]
      exact c7 a ha
  | _, _, @Elems.cons _ a l h, n, k, g, hn, hl, hv, hk, h1, h2 => by
    obtain ⟨n, rfl⟩ : ∃ k, n = k + 1 := ⟨n - 1, by omega⟩
    have hr : exec fuel (code nm) args (n + 1) 15 g s = exec fuel (code nm) args n 15 (setReg (setReg g 15 (.u (k + 1))) 11 (s.cdr a)) s := by
      show execP _ _ _ (code nm 15) g s = _
      rw [code15, ifCons_cons hv]
      simp [incr, execP, hv, hk, hd, V.shape, cnt, gcdr_cons, setReg, V.flat]
    rw [hr]
    simp only [List.length_cons] at hn hl
    exact loop15 h0 h n (k + 1) _ (by omega) (by omega) set_get (by rw [set_other (by decide), set_get])
      (by rw [set_other (by decide), set_other (by decide), h1]) (by rw [set_other (by decide), set_other (by decide), h2])

/-- `(take l i)` is a new list of the first `i` elements, of all of them if there are fewer or `i` is negative; no cell that was there is changed. -/
theorem C30_eval_take {fuel : Nat} (hn : nm.fns 0x20038 = none) {s : St} {v i env : V} {l : List V} (h : Below s.next s v l) (hl : 3 * l.length + 3 < fuel) (hi : nm.isNum i.shape = true) :
    ∃ s' w, (prims nm (fuel + 1)).run 0x20038 [v, i] env s = cellRes s' w ∧ Elems s' w (l.take (takes (nm.i32 i.shape) l.length)) ∧
      ∀ a, a < s.next → s'.car a = s.car a ∧ s'.cdr a = s.cdr a := by
  have h1 : startRegs [v, i] 1 = v := rfl
  have h2 : startRegs [v, i] 2 = i := rfl
  obtain ⟨s', w, e, r⟩ := loop15 nm (fuel := fuel + 1) (args := [v, i]) (i := i) h h.elems fuel 0 (setReg (setReg (startRegs [v, i]) 15 (.u 0)) 11 v) (by omega) (by omega) set_get
    (by rw [set_other (by decide), set_get]) (by rw [set_other (by decide), set_other (by decide), h1]) (by rw [set_other (by decide), set_other (by decide), h2])
  refine ⟨s', w, ?_, r⟩
  rw [run_prog nm hn]
  show execP _ _ _ (nargs 2 (.test [2] (fun l => nm.isNum (hd l)) (ifList 1 (zero 15 (.move 11 1 (.goto 15))) (const .terror)) (const .terror)) (const .terror)) _ _ = _
  rw [nargs_pos (k := 2) rfl]
  simp only [ifList, zero, execP, List.map_cons, List.map_nil, h1, h2, hd, List.headD_cons, elems_list h.elems, hi, if_true]
  rw [← e]
  rfl

example : ∃ s' w, (prims noNums 20).run 0x20038 [.cons 4, .atom 1] .nil twice = cellRes s' w ∧ Elems s' w [.cons 2] ∧ ∀ a, a < twice.next → s'.car a = twice.car a ∧ s'.cdr a = twice.cdr a :=
  C30_eval_take noNums (fuel := 19) rfl (l := [.cons 2, .cons 3]) (.cons (by decide) (.cons (by decide) .nil)) (by decide) rfl

example : ∃ s' a, (prims noNums 20).run 0x20038 [.cons 4, .atom 1] .nil twice = .ok s' (.cons a) ∧ s'.car a = .cons 2 ∧ s'.cdr a = .nil := ⟨_, _, rfl, rfl, rfl⟩

end Builtin
end Verif.Eval
