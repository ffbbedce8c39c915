import Verif.Lists.Props

/-!
# Arguments that are not lists (C30)
-/

namespace Verif.Lists

open Verif.Heap

/-- The symbols `type_error` and `eval_error` (`include/lbm_defines.h:154-155`). -/
def typeError : Val := .sym 0x21
def evalError : Val := .sym 0x22

/-- C30: a value that is neither nil nor a pair is refused: with `eval_error` by `reverse` and `rotate`, with `type_error` by the others. The heap is left as it is. -/
theorem C30_not_list (f : Nat) (h : Heap) (v : Val) (hv : isList v = false) :
    fReverse f h v = some (h, evalError) ∧ (∀ n, fRotate f h v n = some (h, evalError)) ∧ (∀ n, fTake f h v n = some (h, typeError)) ∧
    (∀ n, fDrop h v n = typeError) ∧ fAppend f h [v] = some (h, typeError) := by
  simp only [fReverse, fRotate, fTake, fDrop, fAppend, hv, Bool.false_eq_true, if_false, List.reverse_singleton]
  exact ⟨rfl, fun _ => rfl, fun _ => rfl, fun _ => rfl, rfl⟩

theorem appendRev_not_list (f : Nat) : ∀ (as : List Val) (h : Heap) (res : Val) {h' : Heap} {r : Val}, (∃ v ∈ as, isList v = false) → appendRev f as h res = some (h', r) → r = typeError
  | [], _, _, _, _, ⟨_, hv, _⟩, _ => absurd hv List.not_mem_nil
  | a :: as, h, res, h', r, ⟨v, hv, hn⟩, e => by
    rw [appendRev] at e
    by_cases ha : isList a = true
    · rw [if_pos ha] at e
      cases hl : Env.listLength h f a with
      | none => rw [hl] at e; cases e
      | some n =>
        rw [hl] at e
        rcases List.mem_cons.1 hv with rfl | hv
        · rw [ha] at hn; cases hn
        · exact appendRev_not_list f as _ _ ⟨v, hv, hn⟩ e
    · rw [if_neg ha] at e
      cases e; rfl

/-- C30: `append` with an argument before the last one that is not a list gives `type_error`, wherever that argument is. -/
theorem C30_append_not_list (f : Nat) (h : Heap) (as : List Val) (last : Val) {h' : Heap} {r : Val} (hn : ∃ v ∈ as, isList v = false) (e : fAppend f h (as ++ [last]) = some (h', r)) : r = typeError := by
  obtain ⟨v, hv, hnl⟩ := hn
  have hne : as.reverse ≠ [] := by intro h; rw [List.reverse_eq_nil_iff] at h; subst h; cases hv
  unfold fAppend at e
  rw [List.reverse_append, List.reverse_singleton, List.singleton_append] at e
  cases hr : as.reverse with
  | nil => exact absurd hr hne
  | cons a l =>
    rw [hr] at e
    exact appendRev_not_list f (a :: l) h last ⟨v, by rw [← hr]; simpa using hv, hnl⟩ e

example : fReverse 5 demo (.imm 0 7) = some (demo, evalError) := (C30_not_list 5 demo (.imm 0 7) rfl).1
example : fAppend 9 demo [.ptr .cons false 0, .imm 0 3, nil] = some (demo, typeError) := rfl

end Verif.Lists
