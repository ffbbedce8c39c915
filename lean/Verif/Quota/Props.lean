import Verif.Quota.Model
import Verif.Arith.Lemmas

/-!
# C138: the quota of evaluation steps
-/

namespace Verif.Quota

open Verif.Val (Build)

/-- The event neither removes `c` from the queue nor sets the quota to something that is not from 1 to `R`. -/
def Ev.Fair (c R : Nat) : Ev → Prop
  | .step _ keep _ setRefill => keep c = true ∧ ∀ q, setRefill = some q → 1 ≤ q ∧ q ≤ R
  | .turn _ _ => True

theorem waits {c R : Nat} : ∀ (es : List Ev) (s : S) (k : Nat) (l : List Nat) (s' : S), (∀ e ∈ es, e.Fair c R) → 1 ≤ s.refill → s.refill ≤ R →
    ((∃ a r, s.queue = a ++ c :: r ∧ a.length ≤ k) → run s es = some (s', l) → c ∉ l → es.length ≤ s.quota + k * (R + 1) + 1 ∧ l.length ≤ s.quota + k * R) ∧
    (s.running = some c → s.quota ≠ 0 → run s es = some (s', l) → c ∉ l → es = [] ∧ l = []) := by
  intro es
  induction es with
  | nil =>
    intro s k l s' _ _ _
    refine ⟨fun _ h _ => ?_, fun _ _ h _ => ?_⟩
    · cases h; exact ⟨Nat.zero_le _, Nat.zero_le _⟩
    · cases h; exact ⟨rfl, rfl⟩
  | cons e es ih =>
    intro s k l s' hf h1 hR
    have hfe := hf e (by simp)
    have hfs := fun e' he' => hf e' (List.mem_cons_of_mem _ he')
    refine ⟨fun hq h hc => ?_, fun hr hq h hc => ?_⟩
    · simp only [run] at h
      split at h
      · cases h
      · rename_i s1 o hi
        split at h
        · cases h
        · rename_i s2 l' hrun
          cases h
          cases e with
          | step stays keep new setRefill =>
            simp only [iter] at hi
            split at hi
            · cases hi
            · rename_i d hd
              split at hi
              · cases hi
              · rename_i hq0
                cases hi
                obtain ⟨a, r, ha, hk⟩ := hq
                have hgd : 1 ≤ setRefill.getD s.refill ∧ setRefill.getD s.refill ≤ R := by
                  cases setRefill with
                  | none => exact ⟨h1, hR⟩
                  | some q => exact hfe.2 q rfl
                have := (ih ⟨s.quota - 1, setRefill.getD s.refill, if stays then some d else none, s.queue.filter keep ++ new⟩ k l' s' hfs hgd.1 hgd.2).1
                  ⟨a.filter keep, r.filter keep ++ new, by simp [ha, List.filter_append, List.filter_cons, hfe.1], Nat.le_trans (List.length_filter_le _ _) hk⟩ hrun (fun hm => hc (by simp [hm]))
                simp only at this
                simp only [List.length_cons, Option.toList_some, List.length_append, List.length_nil]
                omega
          | turn unblocked woken =>
            simp only [iter] at hi
            split at hi
            · cases hi
            · obtain ⟨a, r, ha, hk⟩ := hq
              cases a with
              | nil =>
                simp only [ha, List.nil_append, List.cons_append, dequeue] at hi
                cases hi
                have := (ih ⟨s.refill, s.refill, some c, r ++ unblocked ++ s.running.toList ++ woken⟩ k l' s' hfs h1 hR).2 rfl (by simp only; omega) hrun (fun hm => hc (by simp [hm]))
                obtain ⟨rfl, rfl⟩ := this
                simp
              | cons x a =>
                simp only [ha, List.cons_append, dequeue] at hi
                cases hi
                simp only [List.length_cons] at hk
                obtain ⟨j, rfl⟩ : ∃ j, k = j + 1 := ⟨k - 1, by omega⟩
                have := (ih ⟨s.refill, s.refill, some x, a ++ c :: r ++ unblocked ++ s.running.toList ++ woken⟩ j l' s' hfs h1 hR).1 ⟨a, r ++ unblocked ++ s.running.toList ++ woken, by simp, by omega⟩ hrun (fun hm => hc (by simp [hm]))
                simp only at this
                simp only [List.length_cons, Option.toList_none, List.nil_append, Nat.add_mul, Nat.one_mul]
                omega
    · exfalso
      simp only [run] at h
      split at h
      · cases h
      · rename_i s1 o hi
        split at h
        · cases h
        · cases h
          cases e with
          | step stays keep new setRefill =>
            simp only [iter, hr, if_neg hq] at hi
            cases hi
            exact hc (by simp)
          | turn unblocked woken =>
            simp only [iter, hr] at hi
            rw [if_pos ⟨rfl, hq⟩] at hi
            cases hi

/-- C138: a context that waits behind `k` others in the queue gets its turn: as long as it has not made a step, the others have made at most the steps that are left of the quota and `k` full quotas, and the loop has gone round at most `k + 1` times more. `R` is the largest quota. -/
theorem C138_turn {c k R : Nat} {s s' : S} {es : List Ev} {l : List Nat} (hq : s.queue[k]? = some c) (h1 : 1 ≤ s.refill) (hR : s.refill ≤ R) (hf : ∀ e ∈ es, e.Fair c R)
    (h : run s es = some (s', l)) (hc : c ∉ l) : l.length ≤ s.quota + k * R ∧ es.length ≤ s.quota + k * (R + 1) + 1 := by
  obtain ⟨hk, hck⟩ := List.getElem?_eq_some_iff.1 hq
  have := (waits es s k l s' hf h1 hR).1 ⟨s.queue.take k, s.queue.drop (k + 1), by rw [← hck, List.getElem_cons_drop, List.take_append_drop], by simp; omega⟩ h hc
  exact ⟨this.2, this.1⟩

/-- C138: the loop is never stuck: it makes a step if there is a running context with some quota left, and a turn otherwise, never both. -/
theorem C138_never_stuck (s : S) (stays : Bool) (keep : Nat → Bool) (new a b : List Nat) (q : Option Nat) :
    (iter s (.step stays keep new q)).isSome = !(iter s (.turn a b)).isSome := by
  simp only [iter]
  cases hr : s.running <;> by_cases hq : s.quota = 0 <;> simp [hq]

/-- C138: a turn puts the running context behind all that were ready before and gives the first one a full quota. -/
theorem C138_round {s : S} {c : Nat} {q a b : List Nat} (hq : s.queue = c :: q) (hr : s.running = none ∨ s.quota = 0) :
    iter s (.turn a b) = some (⟨s.refill, s.refill, some c, q ++ a ++ s.running.toList ++ b⟩, none) := by
  simp only [iter, hq, List.cons_append, dequeue]
  rw [if_neg]
  rintro ⟨h1, h2⟩
  rcases hr with h | h
  · rw [h] at h1; cases h1
  · exact h2 h

/-- C138: `set-eval-quota` with an integer from 0 to 2^32-1 sets the quota to it. -/
theorem C138_set {b : Build} (F : Arith.FOps) (n : Arith.Num b) (hi : n.ty.int = true) (h0 : 0 ≤ n.val) (h1 : n.val < 2 ^ 32) : setQuota F [.num n] = some n.val.toNat := by
  simp only [setQuota]
  rw [Arith.decAsU32_eq F n hi, BitVec.toNat_ofInt]
  congr 2
  exact Int.emod_eq_of_lt h0 h1

/-- C138, violated: `(set-eval-quota 0)` is accepted, and `(set-eval-quota 4294967296u64)` is the same. From then on, after the steps that are left, no context makes a step any more, whatever happens: not even one that sets the quota again. -/
theorem C138_zero_violated {b : Build} (F : Arith.FOps) : setQuota F [.num (.char 0 : Arith.Num b)] = some 0 ∧ setQuota F [.num (.i64 4294967296 : Arith.Num b)] = some 0 ∧
    ∀ (es : List Ev) (s s' : S) (l : List Nat), s.refill = 0 → s.quota = 0 → run s es = some (s', l) → l = [] ∧ s'.refill = 0 := by
  refine ⟨rfl, rfl, fun es => ?_⟩
  induction es with
  | nil => intro s s' l hr _ h; cases h; exact ⟨rfl, hr⟩
  | cons e es ih =>
    intro s s' l hr hq h
    simp only [run] at h
    split at h
    · cases h
    · rename_i s1 o hi
      split at h
      · cases h
      · rename_i s2 l' hrun
        cases h
        cases e with
        | step stays keep new setRefill =>
          simp only [iter] at hi
          split at hi
          · cases hi
          · rw [if_pos hq] at hi; cases hi
        | turn a b =>
          simp only [iter] at hi
          split at hi
          · cases hi
          · cases hi
            obtain ⟨rfl, h2⟩ := ih ⟨s.refill, s.refill, _, _⟩ s' l' hr hr hrun
            exact ⟨rfl, h2⟩

/-- Three contexts with a quota of two steps: 1 runs, then 2, then 3. -/
example : ∃ s', run ⟨1, 2, some 1, [2, 3]⟩ [.step true (fun _ => true) [] none, .turn [] [], .step true (fun _ => true) [] none, .step true (fun _ => true) [4] none, .turn [] [], .step false (fun _ => true) [] none] =
    some (s', [1, 2, 2, 3]) ∧ s'.queue = [1, 4, 2] := ⟨_, rfl, rfl⟩

/-- Before 3 has made a step the others have made at most three. -/
example : ∀ s' l, run ⟨1, 2, some 1, [2, 3]⟩ [.step true (fun _ => true) [] none, .turn [] [], .step true (fun _ => true) [] none, .step true (fun _ => true) [4] none, .turn [] []] = some (s', l) → 3 ∉ l → l.length ≤ 3 :=
  fun _ _ h hc => (C138_turn (c := 3) (k := 1) (R := 2) rfl (by decide) (by decide) (by simp [Ev.Fair]) h hc).1

end Verif.Quota
