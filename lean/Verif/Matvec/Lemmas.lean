import Verif.Matvec.Spec

/-
Lemmas about vectors and matrices.
-/

namespace Verif.Matvec

open Verif.Val (Build)
open Verif.Arith (Num FOps decAsFloat decAsU32)

theorem room_ok (b : Build) {hdr n : Nat} (hh : hdr ≤ 2) (hn : n + 2 < 2 ^ 30) : room b hdr n = n := by
  unfold room
  cases b <;> simp only [Build.w]
  · rw [Nat.mod_eq_of_lt (by omega)]; omega
  · rw [Nat.mod_eq_of_lt (by omega)]; omega

theorem fill_ok (f : Nat → Out (BitVec 32)) : ∀ (xs : List (BitVec 32)) (i : Nat) (d : List (Option (BitVec 32))),
    (∀ j x, xs[j]? = some x → f (i + j) = .ok x) → d.length = i + xs.length →
    fill f xs.length i d = .ok (d.take i ++ xs.map some)
  | [], i, d, _, hl => by
    simp only [List.length_nil, Nat.add_zero] at hl
    simp [fill, ← hl]
  | x :: xs, i, d, hf, hl => by
    simp only [List.length_cons] at hl
    have h0 : f i = .ok x := by have := hf 0 x rfl; simpa using this
    rw [List.length_cons, fill, h0]
    simp only
    rw [if_pos (by omega)]
    rw [fill_ok f xs (i + 1) (d.set i (some x)) (fun j y hy => by
      have := hf (j + 1) y (by simpa using hy)
      rw [show i + 1 + j = i + (j + 1) by omega]; exact this) (by simp; omega)]
    congr 1
    rw [List.take_set, List.map_cons]
    have : List.take (i + 1) d = List.take i d ++ [d[i]'(by omega)] := by simp
    rw [this, List.set_append_right _ _ (by simp; omega)]
    simp [List.length_take, Nat.min_eq_left (show i ≤ d.length by omega)]

/-- The numbers at the front of a list. -/
def nums {b : Build} : V b → List (V b)
  | .cons a d => a :: nums d
  | _ => []

theorem nums_listOf {b : Build} : ∀ xs : List (V b), nums (listOf xs) = xs
  | [] => rfl
  | x :: xs => by simp [listOf, nums, nums_listOf xs]

theorem lengthPred_eq {b : Build} : ∀ l : V b, lengthPred l = ((nums l).length, (nums l).all isNum)
  | .cons a d => by simp [lengthPred, nums, lengthPred_eq d]
  | .num _ => rfl
  | .sym _ => rfl
  | .vec _ => rfl
  | .mat _ => rfl
  | .other => rfl

theorem fillList_ok {b : Build} (F : FOps) : ∀ (l : V b) (i : Nat) (d : List (Option (BitVec 32))),
    d.length = i + (nums l).length →
    fillList F l i d = .ok (d.take i ++ (nums l).map fun x => some (decAsFloat F (fillList.toArith x)))
  | .cons a r, i, d, hl => by
    simp only [nums, List.length_cons] at hl
    rw [fillList, if_pos (by omega), fillList_ok F r (i + 1) _ (by simp; omega)]
    congr 1
    rw [List.take_set, nums, List.map_cons]
    have : List.take (i + 1) d = List.take i d ++ [d[i]'(by omega)] := by simp
    rw [this, List.set_append_right _ _ (by simp; omega)]
    simp [List.length_take, Nat.min_eq_left (show i ≤ d.length by omega)]
  | .num _, i, d, hl => by simp [nums] at hl; simp [fillList, nums, ← hl]
  | .sym _, i, d, hl => by simp [nums] at hl; simp [fillList, nums, ← hl]
  | .vec _, i, d, hl => by simp [nums] at hl; simp [fillList, nums, ← hl]
  | .mat _, i, d, hl => by simp [nums] at hl; simp [fillList, nums, ← hl]
  | .other, i, d, hl => by simp [nums] at hl; simp [fillList, nums, ← hl]

/-- What a call that allocates does, whatever the allocators yield. -/
theorem build_eq {b : Build} {w : World} {m : Mem} {hdr rows cols n : Nat} {wrap : Nat → V b}
    {write : List (Option (BitVec 32)) → Out (List (Option (BitVec 32)))} {xs : List (BitVec 32)}
    (hh : hdr ≤ 2) (hn : n + 2 < 2 ^ 30) (hw : write (List.replicate n none) = .ok (xs.map some)) :
    build w m hdr rows cols n wrap write =
      match m.data with
      | none => .ok (w, merror)
      | some a =>
        if m.custom then
          if w.free = 0 then .ok (w, merror)
          else .ok ({ objs := fun k => if k = a then some ⟨rows, cols, xs.map some⟩ else w.objs k, free := w.free - 1 }, wrap a)
        else .ub := by
  unfold build allocate
  cases m.data with
  | none => rfl
  | some a =>
    cases m.custom with
    | false => rfl
    | true =>
      simp only [if_true]
      by_cases hf : w.free = 0
      · simp [hf]
      · rw [if_neg hf, if_neg hf]
        simp only [World.at, if_true, room_ok b hh hn, hw, World.put]
        congr 3
        funext k
        split <;> rfl

theorem build_fresh {b : Build} {w : World} {m : Mem} {hdr rows cols n : Nat} {wrap : Nat → V b}
    {write : List (Option (BitVec 32)) → Out (List (Option (BitVec 32)))} {xs : List (BitVec 32)}
    (hh : hdr ≤ 2) (hn : n + 2 < 2 ^ 30) (hw : write (List.replicate n none) = .ok (xs.map some)) (hm : Ample w m) :
    Fresh w (build w m hdr rows cols n wrap write) fun w' v => ∃ a, v = wrap a ∧ w'.objs a = some ⟨rows, cols, xs.map some⟩ := by
  obtain ⟨⟨a, ha, hna⟩, hc, hf⟩ := hm
  rw [build_eq hh hn hw, ha, hc]
  simp only [if_true]
  rw [if_neg (by omega)]
  refine ⟨_, _, rfl, ⟨a, rfl, by simp⟩, by simp; omega, ?_⟩
  intro k o hk
  simp only
  rw [if_neg (by rintro rfl; simp [hna] at hk)]
  exact hk

theorem get_ok {o : Obj} {xs : List (BitVec 32)} (h : o.data = xs.map some) {i : Nat} {x : BitVec 32} (hx : xs[i]? = some x) : get o i = .ok x := by
  simp [get, h, hx]

theorem dotLoop_ok (F : FOps) {x y : Obj} {xs ys : List (BitVec 32)} (hx : x.data = xs.map some) (hy : y.data = ys.map some) :
    ∀ (us vs : List (BitVec 32)) (i : Nat) (acc : BitVec 32), (∀ j, us[j]? = xs[i + j]?) → (∀ j, vs[j]? = ys[i + j]?) → us.length = vs.length →
      dotLoop F x y us.length i acc = .ok ((List.zipWith F.mul32 us vs).foldl F.add32 acc)
  | [], [], i, acc, _, _, _ => rfl
  | u :: us, v :: vs, i, acc, hu, hv, hl => by
    have h0 := hu 0
    have h1 := hv 0
    simp only [List.getElem?_cons_zero, Nat.add_zero] at h0 h1
    rw [List.length_cons, dotLoop, get_ok hx h0.symm, get_ok hy h1.symm]
    simp only [List.zipWith_cons_cons, List.foldl_cons]
    exact dotLoop_ok F hx hy us vs (i + 1) _ (fun j => by rw [show i + 1 + j = i + (j + 1) by omega, ← hu (j + 1)]; simp)
      (fun j => by rw [show i + 1 + j = i + (j + 1) by omega, ← hv (j + 1)]; simp) (by simpa using hl)
  | [], _ :: _, _, _, _, _, hl => by simp at hl
  | _ :: _, [], _, _, _, _, hl => by simp at hl

/-- The loop that makes the list of elements: what it gives and how many cells it takes. -/
theorem encLoop_ok {b : Build} {o : Obj} {xs : List (BitVec 32)} (h : o.data = xs.map some) :
    ∀ (us : List (BitVec 32)) (i free : Nat), (∀ j, us[j]? = xs[i + j]?) →
      ((if b = .b32 then us.length else 0) ≤ free → encLoop (b := b) o us.length i free = .ok (free - (if b = .b32 then us.length else 0), some (floatList us))) ∧
      (¬ (if b = .b32 then us.length else 0) ≤ free → encLoop (b := b) o us.length i free = .ok (0, none))
  | [], i, free, _ => by
    refine ⟨fun _ => ?_, fun hn => ?_⟩
    · simp [encLoop, floatList, listOf]
    · exfalso; apply hn; split <;> simp
  | u :: us, i, free, hu => by
    have h0 := hu 0
    simp only [List.getElem?_cons_zero, Nat.add_zero] at h0
    have ih := encLoop_ok (b := b) h us (i + 1) (if b = .b32 then free - 1 else free) (fun j => by rw [show i + 1 + j = i + (j + 1) by omega, ← hu (j + 1)]; simp)
    rw [List.length_cons, encLoop, get_ok h h0.symm]
    simp only
    cases b with
    | b32 =>
      simp only [if_true, true_and] at ih ⊢
      by_cases hf : free = 0
      · subst hf
        rw [if_pos rfl]
        exact ⟨fun hle => by omega, fun _ => rfl⟩
      · rw [if_neg hf]
        refine ⟨fun hle => ?_, fun hle => ?_⟩
        · rw [ih.1 (by omega)]
          simp only [floatList, listOf, List.map_cons]
          congr 2
          omega
        · rw [ih.2 (by omega)]
    | b64 =>
      simp only [reduceCtorEq, if_false, false_and, Nat.zero_le, forall_const, not_true, false_implies, and_true, Nat.sub_zero] at ih ⊢
      rw [ih]
      rfl

end Verif.Matvec
