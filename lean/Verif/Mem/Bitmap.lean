import Verif.Mem.Model
/-
The packed bitmap of /repo/src/lbm_memory.c behaves as a list of statuses.

`status` and `set_status` (lbm_memory.c:136-159) store 16 (32-bit build) or 32 (64-bit
build) two-bit statuses per bitmap word.  `WORD_IX_SHIFT` and `WORD_MOD_MASK` (127-134) are
division by and remainder modulo the word width `w`.
-/
namespace Verif.Mem.Bitmap

/-- Bitmap words, `static lbm_uint *bitmap`, lbm_memory.c:40. -/
abbrev Words (w : Nat) := List (BitVec w)

/-- `status`, lbm_memory.c:136-147, as a machine word; `none` if the word index is outside. -/
def statusWord {w : Nat} (bm : Words w) (i : Nat) : Option (BitVec w) :=
  let ix := i <<< 1
  let wordIx := ix / w
  let bitIx := ix % w
  let mask := (3#w) <<< bitIx
  (bm[wordIx]?).map fun b => (b &&& mask) >>> bitIx

/-- `set_status`, lbm_memory.c:149-159. -/
def setStatusWord {w : Nat} (bm : Words w) (i : Nat) (st : BitVec w) : Words w :=
  let ix := i <<< 1
  let wordIx := ix / w
  let bitIx := ix % w
  let clr := ~~~ ((3#w) <<< bitIx)
  let mask := st <<< bitIx
  let bm1 := bm.modify wordIx (· &&& clr)
  bm1.modify wordIx (· ||| mask)

/-- Numeric status codes, lbm_memory.c:23-26. -/
def code (w : Nat) : St → BitVec w
  | .freeOrUsed => 0#w
  | .end_ => 1#w
  | .start => 2#w
  | .startEnd => 3#w

theorem code_bits {w} (s : St) (k : Nat) (h : 2 ≤ k) : (code w s).getLsbD k = false := by
  have h4 : 4 ≤ 2 ^ k := Nat.pow_le_pow_right (n := 2) (by omega) h
  have key : ∀ n, n < 4 → Nat.testBit n k = false := fun n hn =>
    Nat.testBit_lt_two_pow (by omega)
  cases s <;> simp [code, BitVec.getLsbD_ofNat, key]

theorem three_bits {w : Nat} (hw : 2 ≤ w) (k : Nat) : (3#w).getLsbD k = decide (k < 2) := by
  rw [BitVec.getLsbD_ofNat]
  by_cases h : k < 2
  · have : k = 0 ∨ k = 1 := by omega
    rcases this with rfl | rfl
    · simp [h]; omega
    · simp [h]; exact ⟨by omega, by decide⟩
  · have h4 : 4 ≤ 2 ^ k := Nat.pow_le_pow_right (n := 2) (by omega) (by omega : 2 ≤ k)
    simp [h, Nat.testBit_lt_two_pow (x := 3) (i := k) (by omega)]

/-- Reading back the status that was written, and leaving all others alone. -/
theorem status_set {w : Nat} (heven : 2 ∣ w) (hw : 2 ≤ w) (bm : Words w) (i j : Nat) (s : St)
    (hi : 2 * i < w * bm.length) :
    statusWord (setStatusWord bm i (code w s)) j =
      if i = j then some (code w s) else statusWord bm j := by
  obtain ⟨h, rfl⟩ := heven
  have hh : 1 ≤ h := by omega
  have e1 : ∀ n : Nat, n <<< 1 = 2 * n := fun n => by simp [Nat.shiftLeft_eq]; omega
  have e2 : ∀ n, 2 * n / (2 * h) = n / h := fun n => Nat.mul_div_mul_left _ _ (by omega)
  have e3 : ∀ n, 2 * n % (2 * h) = 2 * (n % h) := fun n => Nat.mul_mod_mul_left ..
  simp only [statusWord, setStatusWord, e1, e2, e3]
  have hlt : i / h < bm.length := by
    rw [Nat.div_lt_iff_lt_mul hh]
    have : 2 * i < 2 * (h * bm.length) := by rw [← Nat.mul_assoc]; exact hi
    rw [Nat.mul_comm]; omega
  have hmi : i % h < h := Nat.mod_lt _ hh
  have hmj : j % h < h := Nat.mod_lt _ hh
  by_cases hw' : i / h = j / h
  · -- same word
    rw [← hw']
    rw [List.getElem?_modify_eq, List.getElem?_modify_eq, List.getElem?_eq_getElem hlt]
    simp only [Option.map_eq_map, Option.map_some]
    generalize bm[i / h] = b
    by_cases hij : i = j
    · subst hij
      rw [if_pos rfl]
      refine congrArg some ?_
      apply BitVec.eq_of_getLsbD_eq
      intro k hk
      simp only [BitVec.getLsbD_ushiftRight, BitVec.getLsbD_and, BitVec.getLsbD_or,
        BitVec.getLsbD_not, BitVec.getLsbD_shiftLeft, three_bits hw]
      by_cases hk2 : k < 2
      · have a1 : 2 * (i % h) + k < 2 * h := by omega
        have a2 : ¬ (2 * (i % h) + k < 2 * (i % h)) := by omega
        have a3 : 2 * (i % h) + k - 2 * (i % h) = k := by omega
        simp [a1, a2, a3, hk2]
      · have a3 : 2 * (i % h) + k - 2 * (i % h) = k := by omega
        simp [a3, hk2, code_bits s k (by omega)]
    · have hne : i % h ≠ j % h := by
        intro he
        apply hij
        rw [← Nat.div_add_mod i h, ← Nat.div_add_mod j h, hw', he]
      rw [if_neg hij]
      refine congrArg some ?_
      apply BitVec.eq_of_getLsbD_eq
      intro k hk
      simp only [BitVec.getLsbD_ushiftRight, BitVec.getLsbD_and, BitVec.getLsbD_or,
        BitVec.getLsbD_not, BitVec.getLsbD_shiftLeft, three_bits hw]
      by_cases hk2 : k < 2
      · have a1 : 2 * (j % h) + k < 2 * h := by omega
        have a3 : 2 * (j % h) + k - 2 * (j % h) = k := by omega
        by_cases hlt2 : 2 * (j % h) + k < 2 * (i % h)
        · simp [a1, a3, hk2, hlt2]
        · have a4 : ¬ (2 * (j % h) + k - 2 * (i % h) < 2) := by omega
          simp [a1, a3, hk2, hlt2, a4, code_bits s _ (Nat.not_lt.mp a4)]
      · have a3 : 2 * (j % h) + k - 2 * (j % h) = k := by omega
        simp [a3, hk2]
  · have hij : i ≠ j := fun he => hw' (by rw [he])
    rw [if_neg hij, List.getElem?_modify_ne _ _ hw', List.getElem?_modify_ne _ _ hw']

/-- Decoding of a two-bit status. -/
def decode {w : Nat} (b : BitVec w) : Option St :=
  if b = code w .freeOrUsed then some .freeOrUsed
  else if b = code w .end_ then some .end_
  else if b = code w .start then some .start
  else if b = code w .startEnd then some .startEnd
  else none

/-- The bitmap represents the list of statuses `l`. -/
def Rep {w : Nat} (bm : Words w) (l : List St) : Prop :=
  2 * l.length = w * bm.length ∧ ∀ i, i < l.length → statusWord bm i = (l[i]?).map (code w)

/-- Zeroed bitmap (the loop in `lbm_memory_init`, lbm_memory.c:83-85) represents a free arena. -/
theorem rep_init {w : Nat} (n size : Nat) (h : 2 * size = w * n) :
    Rep (List.replicate n (0#w)) (List.replicate size .freeOrUsed) := by
  refine ⟨by simpa using h, fun i hi => ?_⟩
  simp only [List.length_replicate] at hi
  have hw : 0 < w := by
    rcases Nat.eq_zero_or_pos w with rfl | h'
    · omega
    · exact h'
  have : (i <<< 1) / w < n := by
    rw [Nat.div_lt_iff_lt_mul hw, Nat.shiftLeft_eq, Nat.mul_comm n w]; omega
  simp [statusWord, hi, this, List.getElem?_replicate, code]

/-- `status` and `set_status` on the packed bitmap refine list access and list update. -/
theorem rep_set {w : Nat} (heven : 2 ∣ w) (hw : 2 ≤ w) {bm : Words w} {l : List St}
    (h : Rep bm l) (i : Nat) (hi : i < l.length) (s : St) :
    Rep (setStatusWord bm i (code w s)) (l.set i s) := by
  obtain ⟨h1, h2⟩ := h
  refine ⟨by simpa [setStatusWord] using h1, fun j hj => ?_⟩
  simp only [List.length_set] at hj
  rw [status_set heven hw bm i j s (by omega)]
  by_cases hij : i = j
  · subst hij; simp [hi]
  · simp [hij, h2 j hj]

theorem code_inj {w : Nat} (hw : 2 ≤ w) {s t : St} (h : code w s = code w t) : s = t := by
  have p : 4 ≤ 2 ^ w := Nat.pow_le_pow_right (n := 2) (by omega) hw
  have h' := congrArg BitVec.toNat h
  have m1 := Nat.mod_eq_of_lt (show 1 < 2 ^ w by omega)
  have m2 := Nat.mod_eq_of_lt (show 2 < 2 ^ w by omega)
  have m3 := Nat.mod_eq_of_lt (show 3 < 2 ^ w by omega)
  cases s <;> cases t <;> first
    | rfl
    | (exfalso; simp only [code, BitVec.toNat_ofNat, m1, m2, m3, Nat.zero_mod] at h'; omega)

/-- Reading a status from the packed bitmap decodes to the status in the list. -/
theorem rep_get {w : Nat} (hw : 2 ≤ w) {bm : Words w} {l : List St}
    (h : Rep bm l) (i : Nat) (hi : i < l.length) :
    (statusWord bm i).bind decode = l[i]? := by
  rw [h.2 i hi, List.getElem?_eq_getElem hi]
  simp only [Option.map_some, Option.bind_some]
  generalize l[i] = s
  have inj : ∀ t, code w s = code w t → s = t := fun t => code_inj hw
  unfold decode
  cases s with
  | freeOrUsed => simp
  | end_ =>
    have : code w .end_ ≠ code w .freeOrUsed := fun h => nomatch code_inj hw h
    simp [this]
  | start =>
    have a : code w .start ≠ code w .freeOrUsed := fun h => nomatch code_inj hw h
    have b : code w .start ≠ code w .end_ := fun h => nomatch code_inj hw h
    simp [a, b]
  | startEnd =>
    have a : code w .startEnd ≠ code w .freeOrUsed := fun h => nomatch code_inj hw h
    have b : code w .startEnd ≠ code w .end_ := fun h => nomatch code_inj hw h
    have c : code w .startEnd ≠ code w .start := fun h => nomatch code_inj hw h
    simp [a, b, c]

end Verif.Mem.Bitmap
