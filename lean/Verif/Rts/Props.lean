import Verif.Rts.Model
import Verif.Mem.Props

/-! C118: the stack of the collector can be replaced while the program runs. -/

namespace Verif.Rts
open Verif.Mem

/-- States that occur: the memory has the live blocks `live`, and the stack of the collector is one of them, and the block is as
large as the collector thinks. Other parts of the system allocate and free, but not the block of the stack.
The argument of `set-gc-stack-size` is a 32-bit number, and its size in bytes has to fit into a word. -/
inductive RReach (w size : Nat) : Rts → List Block → Prop
  | init {m : Mem} {live : List Block} {p n : Nat} : Reach true w size m live → (p, n) ∈ live → RReach w size ⟨m, p, n⟩ live
  | other {r : Rts} {live live' : List Block} {m : Mem} : RReach w size r live → Reach true w size m live' →
      (r.data, r.size) ∈ live' → RReach w size ⟨m, r.data, r.size⟩ live'
  | set {r r' : Rts} {live : List Block} {n : Nat} : RReach w size r live → n < 2 ^ 32 → n * (w / 8) < 2 ^ w →
      setGcStackSize r [some n] = some (r', .true_) →
      RReach w size r' ((r'.data, n) :: live.erase (r.data, r.size))
  | setFails {r r' : Rts} {live : List Block} {n : Nat} : RReach w size r live → n < 2 ^ 32 → n * (w / 8) < 2 ^ w →
      setGcStackSize r [some n] = some (r', .merror) → RReach w size r' live

theorem words_of_bytes {w n : Nat} (hw : 8 ≤ w) : bytesToWords w (n * (w / 8)) = n := by
  have hp : 0 < w / 8 := by omega
  simp only [bytesToWords, Nat.mul_mod_left, if_true, Nat.mul_div_cancel n hp, Nat.add_zero]

/-- What one successful or failing call does. -/
theorem set_step {w size : Nat} (h0 : 0 < size) (hw : size < 2 ^ w) (hw8 : 8 ≤ w) {r : Rts} {live : List Block} {n : Nat}
    (h : Reach true w size r.mem live) (hl : (r.data, r.size) ∈ live) (hn : n * (w / 8) < 2 ^ w) :
    ∃ r' res, setGcStackSize r [some n] = some (r', res) ∧
      ((res = .true_ ∧ 1 ≤ n ∧ r'.size = n ∧ freeRun size live r'.data n ∧
          (∀ b ∈ live, Block.disjoint (r'.data, n) b) ∧
          Reach true w size r'.mem ((r'.data, n) :: live.erase (r.data, r.size))) ∨
       (res = .merror ∧ r'.data = r.data ∧ r'.size = r.size ∧ Reach true w size r'.mem live)) ∧
      (res = .true_ ↔ 1 ≤ n ∧ n + r.mem.reserve ≤ size - liveWords live ∧ ∃ p, freeRun size live p n) := by
  have hmw : r.mem.w = w := by obtain ⟨_, hh⟩ := reach_inv h0 hw h; exact hh.hw
  have hnw : n < 2 ^ w := Nat.lt_of_le_of_lt (Nat.le_mul_of_pos_right n (by omega)) hn
  simp only [setGcStackSize, hmw, Nat.mod_eq_of_lt hn]
  by_cases hz : n = 0
  · subst hz
    refine ⟨⟨r.mem, r.data, r.size⟩, .merror, by simp [malloc], Or.inr ⟨rfl, rfl, rfl, h⟩, ?_⟩
    constructor
    · intro h; cases h
    · intro h; omega
  · have hb : n * (w / 8) ≠ 0 := Nat.mul_ne_zero hz (by omega)
    have hm : malloc r.mem (n * (w / 8)) = allocate r.mem n := by
      simp only [malloc, hb, if_false, hmw, words_of_bytes hw8]
    have hcomp := C02_allocation_complete h0 hw h (n := n) (by omega) hnw
    rw [hm]
    rcases hx : allocate r.mem n with _ | ⟨m1, _ | p⟩
    · exfalso
      rcases allocate_inv hw (reach_inv h0 hw h) n with ⟨m2, p2, e, _⟩ | ⟨m2, e, _⟩ <;> rw [e] at hx <;> cases hx
    · refine ⟨⟨m1, r.data, r.size⟩, .merror, rfl, Or.inr ⟨rfl, rfl, rfl, .allocateFail h hnw hx⟩, ?_⟩
      constructor
      · intro h; cases h
      · rintro ⟨_, h2⟩
        obtain ⟨m', p, e⟩ := hcomp.2 h2
        rw [hx] at e; cases e
    · refine ⟨⟨(free m1 r.data).1, p, n⟩, .true_, rfl, Or.inl ?_, ?_⟩
      · have hf := C01_allocation_fresh h0 hw h hx
        have h1 := Reach.allocate h hnw hx
        have h2 := Reach.free h1 (List.mem_cons_of_mem _ hl)
        refine ⟨rfl, by omega, rfl, hf.2.2.1, hf.2.2.2, ?_⟩
        have hne : (p, n) ≠ (r.data, r.size) := by
          intro e
          exact hf.2.2.2 _ hl p ⟨⟨Nat.le_refl _, by show p < p + n; omega⟩, by rw [← e]; exact ⟨Nat.le_refl _, by show p < p + n; omega⟩⟩
        rw [List.erase_cons_tail (by simpa using hne)] at h2
        exact h2
      · constructor
        · intro _; exact ⟨by omega, hcomp.1 ⟨_, _, hx⟩⟩
        · intro _; rfl

theorem rreach_inv {w size : Nat} (h0 : 0 < size) (hw : size < 2 ^ w) (hw8 : 8 ≤ w) {r : Rts} {live : List Block}
    (h : RReach w size r live) : Reach true w size r.mem live ∧ (r.data, r.size) ∈ live := by
  induction h with
  | init h hl => exact ⟨h, hl⟩
  | other _ h hl _ => exact ⟨h, hl⟩
  | @set r r' live n _ _ hn e ih =>
    obtain ⟨r2, res, e2, h2, _⟩ := set_step h0 hw hw8 ih.1 ih.2 hn
    rw [e] at e2; cases e2
    rcases h2 with ⟨_, _, h3, _, _, h4⟩ | ⟨h3, _⟩
    · exact ⟨h4, by rw [h3]; exact List.mem_cons_self⟩
    · cases h3
  | @setFails r r' live n _ _ hn e ih =>
    obtain ⟨r2, res, e2, h2, _⟩ := set_step h0 hw hw8 ih.1 ih.2 hn
    rw [e] at e2; cases e2
    rcases h2 with ⟨h3, _⟩ | ⟨_, h3, h4, h5⟩
    · cases h3
    · exact ⟨h5, by rw [h3, h4]; exact ih.2⟩

/-- C118: after any history of calls and other use of the memory, the words that the collector writes when it pushes onto its
stack (which it does only while fewer than `size` words are on it) are in a live block of their own: inside the
memory and in no other block. -/
theorem C118_stack_is_a_block_partial {w size : Nat} (h0 : 0 < size) (hw : size < 2 ^ w) (hw8 : 8 ≤ w) {r : Rts} {live : List Block}
    (h : RReach w size r live) :
    (r.data, r.size) ∈ live ∧
    ∀ sp, sp ≤ r.size → ∀ i, pushAt r sp = some i → i < size ∧ Block.covers (r.data, r.size) i ∧
      ∀ b ∈ live.erase (r.data, r.size), ¬ Block.covers b i := by
  obtain ⟨hr, hl⟩ := rreach_inv h0 hw hw8 h
  refine ⟨hl, fun sp hsp i hi => ?_⟩
  have hI := reach_inv h0 hw hr
  simp only [pushAt] at hi
  split at hi
  · cases hi
  · cases hi
    have hc : Block.covers (r.data, r.size) (r.data + sp) := ⟨by simp, by show r.data + sp < r.data + r.size; omega⟩
    refine ⟨?_, hc, fun b hb hcb => ?_⟩
    · have := (inv_inside hI hl).1; simp at this; omega
    · have hp := inv_pairwise (hI.perm (List.perm_cons_erase hl).symm)
      rw [List.pairwise_cons] at hp
      exact hp.1 b hb _ ⟨hc, hcb⟩

/-- C118: in any such state, a call succeeds exactly when the memory has room for the new stack beside the old one. Then the
collector has a stack of `n` words, the old block is free, and no other block has changed. Otherwise the
result is the memory error and the old stack stays. -/
theorem C118_set {w size : Nat} (h0 : 0 < size) (hw : size < 2 ^ w) (hw8 : 8 ≤ w) {r : Rts} {live : List Block} {n : Nat}
    (h : RReach w size r live) (hn : n * (w / 8) < 2 ^ w) :
    ∃ r' res, setGcStackSize r [some n] = some (r', res) ∧
      (res = .true_ ↔ 1 ≤ n ∧ n + r.mem.reserve ≤ size - liveWords live ∧ ∃ p, freeRun size live p n) ∧
      (res = .true_ → r'.size = n ∧ freeRun size live r'.data n ∧
        Reach true w size r'.mem ((r'.data, n) :: live.erase (r.data, r.size))) ∧
      (res ≠ .true_ → res = .merror ∧ r'.data = r.data ∧ r'.size = r.size ∧ Reach true w size r'.mem live) := by
  obtain ⟨hr, hl⟩ := rreach_inv h0 hw hw8 h
  obtain ⟨r', res, e, h1, h2⟩ := set_step h0 hw hw8 hr hl hn
  refine ⟨r', res, e, h2, fun ht => ?_, fun ht => ?_⟩
  · rcases h1 with ⟨_, _, h3, h4, _, h5⟩ | ⟨h3, _⟩
    · exact ⟨h3, h4, h5⟩
    · rw [h3] at ht; cases ht
  · rcases h1 with ⟨h3, _⟩ | h3
    · exact absurd h3 ht
    · exact h3

/-- On a 64-bit build the condition on the size in bytes holds for every argument. -/
theorem C118_fits_64 {n : Nat} (hn : n < 2 ^ 32) : n * (64 / 8) < 2 ^ 64 := by omega

/-- C118: arguments of another kind or number are rejected. -/
theorem C118_rejected (r : Rts) (as : List (Option Nat)) (h : ∀ n, as ≠ [some n]) : setGcStackSize r as = some (r, .terror) := by
  match as, h with
  | [], _ => rfl
  | [none], _ => rfl
  | [some n], h => exact absurd rfl (h n)
  | _ :: _ :: _, _ => simp [setGcStackSize]

/-- C118 fails on a 32-bit build: for 2^30 + n words the number of bytes is computed as that of n words. If there is room for
n words, the call succeeds, the block of the new stack has n words, and the collector takes it for one of 2^30 + n words:
it writes outside of the block as soon as n values are on the stack. -/
theorem C118_overflow_violated {size : Nat} (h0 : 0 < size) (hw : size < 2 ^ 32) {r : Rts} {live : List Block} {n : Nat}
    (h : RReach 32 size r live) (hn : 1 ≤ n) (hn2 : n < 2 ^ 30)
    (hroom : n + r.mem.reserve ≤ size - liveWords live ∧ ∃ p, freeRun size live p n) :
    ∃ r', setGcStackSize r [some (2 ^ 30 + n)] = some (r', .true_) ∧ r'.size = 2 ^ 30 + n ∧
      Reach true 32 size r'.mem ((r'.data, n) :: live.erase (r.data, r.size)) ∧
      pushAt r' n = some (r'.data + n) ∧ ¬ Block.covers (r'.data, n) (r'.data + n) := by
  obtain ⟨hr, hl⟩ := rreach_inv h0 hw (by omega) h
  obtain ⟨r1, res, e, h1, h2⟩ := set_step h0 hw (by omega) hr hl (n := n) (by omega)
  have ht := h2.2 ⟨hn, hroom⟩
  subst ht
  have hmw : r.mem.w = 32 := by obtain ⟨_, hh⟩ := reach_inv h0 hw hr; exact hh.hw
  rcases h1 with ⟨_, _, h3, _, _, h5⟩ | ⟨h3, _⟩
  · refine ⟨⟨r1.mem, r1.data, 2 ^ 30 + n⟩, ?_, rfl, h5, ?_, ?_⟩
    · have e1 : (2 ^ 30 + n) * (32 / 8) % 2 ^ 32 = n * (32 / 8) % 2 ^ 32 := by omega
      simp only [setGcStackSize, hmw] at e ⊢
      rw [e1]
      revert e
      split
      · intro e; cases e
      · intro e; cases e; rfl
      · intro e; cases e
    · simp only [pushAt]; rw [if_neg (by omega)]
    · rintro ⟨_, h⟩; exact absurd h (by show ¬ (r1.data + n < r1.data + n); omega)
  · cases h3

/-! ### A concrete case -/

/-- A memory of 64 words (32-bit build) in which the stack of the collector has been allocated with 8 words. -/
def demo : Rts := ⟨((allocate (Mem.init 32 64 0) 8).getD (Mem.init 32 64 0, none)).1, 0, 8⟩

theorem demo_reach : RReach 32 64 demo [(0, 8)] :=
  .init (.allocate (n := 8) (p := 0) (.init 0) (by omega) (by decide +kernel)) (by simp)

example : ∃ r', setGcStackSize demo [some 16] = some (r', .true_) ∧ r'.size = 16 := by
  obtain ⟨r', res, e, h1, h2, _⟩ := C118_set (n := 16) (by omega) (by omega) (by omega) demo_reach (by omega)
  have := h1.2 ⟨by omega, by decide +kernel, 8, fun i hi => ⟨by omega, by
    intro b hb; simp at hb; subst hb; simp [Block.covers]⟩⟩
  subst this
  exact ⟨r', e, (h2 rfl).1⟩

example : ∃ r', setGcStackSize demo [some (2 ^ 30 + 1)] = some (r', .true_) ∧ r'.size = 2 ^ 30 + 1 := by
  obtain ⟨r', e, h, _⟩ := C118_overflow_violated (n := 1) (by omega) (by omega) demo_reach (by omega) (by omega)
    ⟨by decide +kernel, 8, fun i hi => ⟨by omega, by intro b hb; simp at hb; subst hb; simp [Block.covers]⟩⟩
  exact ⟨r', e, h⟩

end Verif.Rts
