import Verif.Flat.Unflat
import Verif.Flat.Size
import Verif.Flat.Safe

/-!
# Properties C13, C14, C15 and C50: flat values
-/

namespace Verif.Flat

open Verif.Val (Build payload)

/-! ## A concrete value for the non-vacuity examples -/

/-- A symbol table with one symbol, `ab` (97 98), id 0x40000. -/
def exSyms : Syms where
  nameOf id := if id = 0x40000 then some [97, 98] else none
  intern s := if s = [97, 98] then some 0x40000 else none

/-- `(ab -3 . [| 7u8 "hi" 2.0d |])`, say. -/
def exVal : FV :=
  .cons (.sym 0x40000) (.cons (.int (-3)) (.lispArray [.byte 7, .array [104, 105], .double 5]))

theorem exVal_ser (b : Build) : Serialisable b exSyms 3 exVal := by
  refine .cons (.sym (s := [97, 98]) rfl (by decide) rfl) (.cons (.int ?_ ?_) (.lispArray (by simp) (by decide) ?_))
  · cases b <;> decide
  · cases b <;> decide
  · intro e he
    simp only [List.mem_cons, List.not_mem_nil, or_false] at he
    rcases he with rfl | rfl | rfl
    · exact .byte
    · exact .array (by simp) (by decide)
    · exact .double

theorem portable_self (b : Build) : ∀ v, portable b b v = v := by
  apply FV.ind
  · intro a d ha hd; simp [portable, ha, hd]
  · intro es h
    simp only [portable]
    congr 1
    induction es with
    | nil => rfl
    | cons e es ih =>
      simp only [portable.elems]
      rw [h e (by simp), ih (fun x hx => h x (by simp [hx]))]
  · intro v _ _; cases b <;> cases v <;> simp_all [portable]

theorem flattenValue_ok (b : Build) (syms : Syms) (maxDepth : Nat) {n : Nat} {v : FV}
    (h : Serialisable b syms n v) (hn : n ≤ maxDepth) :
    flattenValue b syms maxDepth v = .ok (ser b syms v) ∧
    flattenValueSize b syms maxDepth v = (ser b syms v).length := by
  have hs : flattenValueSize b syms maxDepth v = (ser b syms v).length := by
    simp only [flattenValueSize, size_ok b syms maxDepth h 0 (by omega)]
  have hpos := ser_pos b syms h
  refine ⟨?_, hs⟩
  simp only [flattenValue, hs]
  rw [if_pos (by omega)]
  have := flattenC_ok b syms h (ser b syms v).length [] (by simp)
  simp only [Int.toNat_natCast, this, List.nil_append, if_true]

/-! ## C13: round trip -/

/-- **C13 (partial).**  For every serialisable value within the depth limit,
flattening succeeds, and unflattening the bytes gives the same value and consumes
every byte, when the memory for its nodes is available.

Missing: empty arrays, see `C13_empty_lisp_array_violated` and
`C13_empty_byte_array_violated`. -/
theorem C13_round_trip_partial (b : Build) (syms : Syms) (maxDepth n b1 b2 : Nat) (v : FV)
    (h : Serialisable b syms n v) (hdepth : n ≤ maxDepth) (hmem : nodes v ≤ b1) :
    ∃ bytes left, flattenValue b syms maxDepth v = .ok bytes ∧
      unflattenValue b syms b1 b2 bytes = .ok v [] left := by
  obtain ⟨b', e, _⟩ := unflat_ser b b syms h ((ser b syms v).length + 1) b1 [] (by omega) hmem
  refine ⟨_, b', (flattenValue_ok b syms maxDepth h hdepth).1, ?_⟩
  rw [List.append_nil, portable_self] at e
  simp only [unflattenValue, e]

example : ∃ bytes left, flattenValue .b32 exSyms 2000 exVal = .ok bytes ∧
    unflattenValue .b32 exSyms 9 0 bytes = .ok exVal [] left :=
  C13_round_trip_partial .b32 exSyms 2000 3 9 0 exVal (exVal_ser _) (by decide) (by decide)

/-- **C13.**  The bytes may be followed by anything: the reader stops exactly
at the end of the value. -/
theorem C13_self_delimiting (b : Build) (syms : Syms) (maxDepth n b1 b2 : Nat) (v : FV)
    (rest : List Byte) (h : Serialisable b syms n v) (hdepth : n ≤ maxDepth)
    (hmem : nodes v ≤ b1) :
    ∃ bytes left, flattenValue b syms maxDepth v = .ok bytes ∧
      unflattenValue b syms b1 b2 (bytes ++ rest) = .ok v rest left := by
  obtain ⟨b', e, _⟩ := unflat_ser b b syms h ((ser b syms v ++ rest).length + 1) b1 rest
    (by simp; omega) hmem
  refine ⟨_, b', (flattenValue_ok b syms maxDepth h hdepth).1, ?_⟩
  rw [portable_self] at e
  simp only [unflattenValue, e]

/-- **C13.**  Two serialisable values with the same bytes are the same value. -/
theorem C13_injective (b : Build) (syms : Syms) (maxDepth n m : Nat) (v w : FV) (bytes : List Byte)
    (hv : Serialisable b syms n v) (hw : Serialisable b syms m w) (hn : n ≤ maxDepth)
    (hm : m ≤ maxDepth) (e1 : flattenValue b syms maxDepth v = .ok bytes)
    (e2 : flattenValue b syms maxDepth w = .ok bytes) : v = w := by
  obtain ⟨c1, l1, f1, u1⟩ :=
    C13_round_trip_partial b syms maxDepth n (nodes v + nodes w) 0 v hv hn (by omega)
  obtain ⟨c2, l2, f2, u2⟩ :=
    C13_round_trip_partial b syms maxDepth m (nodes v + nodes w) 0 w hw hm (by omega)
  rw [e1] at f1; rw [e2] at f2
  cases f1; cases f2
  rw [u1] at u2
  cases u2; rfl

example : flattenValue .b64 exSyms 2000 (.byte 1) = .ok [4, 1] := rfl

/-- **C13 fails for empty lisp arrays**: `[||]` flattens to five bytes which the
reader rejects, with any amount of memory. -/
theorem C13_empty_lisp_array_violated (b : Build) (syms : Syms) (b1 b2 : Nat) :
    flattenValue b syms 2000 (.lispArray []) = .ok [0x1F, 0, 0, 0, 0] ∧
    ∀ v rest left, unflattenValue b syms b1 b2 [0x1F, 0, 0, 0, 0] ≠ .ok v rest left := by
  constructor
  · rfl
  · intro v rest left h
    have hx : ∀ bu, unflat b syms 6 bu [0x1F, 0, 0, 0, 0] = .malformed ∨
        unflat b syms 6 bu [0x1F, 0, 0, 0, 0] = .ub .derefError := by
      intro bu
      cases bu with
      | zero => right; rfl
      | succ n => left; rfl
    have e : unflattenValue b syms b1 b2 [0x1F, 0, 0, 0, 0] =
        match unflat b syms 6 b1 [0x1F, 0, 0, 0, 0] with
        | .gcRetry => unflat b syms 6 b2 [0x1F, 0, 0, 0, 0]
        | r => r := rfl
    rw [e] at h
    rcases hx b1 with h1 | h1 <;> rw [h1] at h <;> cases h

/-- **C13 fails for empty byte arrays**: flattening `[]` yields nil. -/
theorem C13_empty_byte_array_violated (b : Build) (syms : Syms) :
    flattenValue b syms 2000 (.array []) = .error 0 := rfl

/-- The list of `k` zero bytes. -/
def zeros : Nat → FV
  | 0 => .sym 0
  | k + 1 => .cons (.byte 0) (zeros k)

/-- A list of more elements than the depth limit is refused with `eval_error`,
although it is not nested at all: every `cdr` counts as one level. -/
theorem C13_long_list_refused (b : Build) (syms : Syms) (maxDepth : Nat) :
    flattenValue b syms maxDepth (zeros (maxDepth + 1)) = .error 0x22 := by
  have key : ∀ k depth, depth + k = maxDepth + 1 → 0 < k →
      sizeInternal b syms maxDepth depth (zeros k) = .error (-5) := by
    intro k
    induction k with
    | zero => intro _ _ h; omega
    | succ k ih =>
      intro depth hd _
      have h1 : sizeInternal b syms maxDepth (depth + 1) (.byte 0) =
          if depth + 1 > maxDepth then .error (-5) else .ok 2 := by
        simp only [sizeInternal]; rfl
      by_cases hk : k = 0
      · subst hk
        simp only [zeros, sizeInternal, show ¬ depth > maxDepth by omega, if_false,
          show depth + 1 > maxDepth by omega, if_true]
        rfl
      · rw [if_neg (by omega)] at h1
        have h2 := ih (depth + 1) (by omega) (by omega)
        simp only [zeros, sizeInternal, h2, show ¬ depth > maxDepth by omega, if_false,
          show ¬ depth + 1 > maxDepth by omega]
        rfl
  simp only [flattenValue, flattenValueSize, key (maxDepth + 1) 0 (by omega) (by omega)]
  rfl

/-! ## C14: the computed size is exact -/

/-- **C14.**  When flattening succeeds, the size computed beforehand is exactly
the number of bytes written. -/
theorem C14_size_exact (b : Build) (syms : Syms) (maxDepth : Nat) (v : FV) (bytes : List Byte)
    (h : flattenValue b syms maxDepth v = .ok bytes) :
    flattenValueSize b syms maxDepth v = bytes.length := by
  simp only [flattenValue] at h
  split at h
  · rename_i hn
    obtain ⟨k, hfl, hk⟩ := promise b syms maxDepth v
      ⟨(flattenValueSize b syms maxDepth v).toNat, []⟩
    split at h
    · rename_i h0
      cases h
      obtain ⟨_, hsz⟩ := hk h0
      have hl := hfl.len h0
      rw [hl]
      rcases hsz 0 with e | e
      · simp [flattenValueSize, e]
      · simp [flattenValueSize, e] at hn
    · cases h
  · cases h

example : flattenValue .b32 exSyms 2000 exVal = .ok (ser .b32 exSyms exVal) ∧
    flattenValueSize .b32 exSyms 2000 exVal = (ser .b32 exSyms exVal).length :=
  flattenValue_ok .b32 exSyms 2000 (exVal_ser _) (by decide)

example : (ser .b32 exSyms exVal).length = 34 := rfl

/-- **C14.**  Whatever the value and the size of the buffer, flattening never
writes past the end of the buffer. -/
theorem C14_never_overruns (b : Build) (syms : Syms) (size : Nat) (v : FV) :
    (flattenC b syms ⟨size, []⟩ v).1.out.length ≤ size := by
  obtain ⟨k, hfl, _⟩ := promise b syms 0 v ⟨size, []⟩
  exact hfl.safe (by simp)

/-- **C14.**  For every serialisable value within the depth limit the computed
size is the length of its wire format, and a buffer of that size is enough. -/
theorem C14_size_of_serialisable (b : Build) (syms : Syms) (maxDepth n : Nat) (v : FV)
    (h : Serialisable b syms n v) (hn : n ≤ maxDepth) :
    flattenValueSize b syms maxDepth v = (ser b syms v).length ∧
    flattenC b syms ⟨(flattenValueSize b syms maxDepth v).toNat, []⟩ v =
      (⟨(flattenValueSize b syms maxDepth v).toNat, ser b syms v⟩, 0) := by
  have hs := (flattenValue_ok b syms maxDepth h hn).2
  refine ⟨hs, ?_⟩
  rw [hs]
  have := flattenC_ok b syms h (ser b syms v).length [] (by simp)
  simpa using this

/-! ## C15: unflattening stays inside its buffer -/

/-- **C15 fails**: a byte array whose declared length exceeds the buffer is
copied from beyond its end. -/
theorem C15_array_length_violated (b : Build) (syms : Syms) (b1 b2 : Nat) :
    unflattenValue b syms (b1 + 1) b2 [0x0D, 0, 0, 0, 5] = .ub .readPastEnd := rfl

/-- **C15 fails**: a symbol name without terminator is read beyond the end. -/
theorem C15_symbol_name_violated (b : Build) (syms : Syms) (b1 b2 : Nat) :
    unflattenValue b syms b1 b2 [0x03, 97] = .ub .readPastEnd := rfl

/-- **C15 fails**: the header of a lisp array that could not be allocated is
dereferenced. -/
theorem C15_no_memory_violated (b : Build) (syms : Syms) (b2 : Nat) :
    unflattenValue b syms 0 b2 [0x1F, 0, 0, 0, 1, 4, 0] = .ub .derefError := rfl

/-- **C15 fails**: on a 32-bit build a lisp array of 2^30 + 1 elements gets room
for one; the second element is stored outside it. -/
theorem C15_count_wraps_violated :
    unflattenValue .b32 exSyms 9 9 [0x1F, 0x40, 0, 0, 1, 4, 0, 4, 0] = .ub .writePastEnd := by
  have h : ∀ todo, unflatElems (unflat .b32 exSyms 9) 1 (todo + 2) 0 [] 8 [4, 0, 4, 0] =
      .ub .writePastEnd := fun todo => rfl
  have e : unflat .b32 exSyms 10 9 [0x1F, 0x40, 0, 0, 1, 4, 0, 4, 0] =
      unflatElems (unflat .b32 exSyms 9) (allocatedElems .b32 0x40000001#32)
        (0x40000001#32).toNat 0 [] 8 [4, 0, 4, 0] := rfl
  have c : allocatedElems .b32 0x40000001#32 = 1 := by decide
  have d : (0x40000001#32).toNat = 0x3FFFFFFF + 2 := by decide
  rw [c, d, h] at e
  have u : unflattenValue .b32 exSyms 9 9 [0x1F, 0x40, 0, 0, 1, 4, 0, 4, 0] =
      match unflat .b32 exSyms 10 9 [0x1F, 0x40, 0, 0, 1, 4, 0, 4, 0] with
      | .gcRetry => unflat .b32 exSyms 10 9 [0x1F, 0x40, 0, 0, 1, 4, 0, 4, 0]
      | r => r := rfl
  rw [u, e]

/-- **C15 (partial).**  Unflattening a buffer whose declared lengths stay inside
it terminates, never leaves the buffer, and either fails or consumes a
non-empty prefix of the buffer.

Missing: arbitrary buffers; the `C15_…_violated` theorems show what each part of
`Framed` is needed for. -/
theorem C15_in_bounds_partial (b : Build) (syms : Syms) (b1 b2 : Nat) (buf : List Byte)
    (h1 : Framed b b1 buf) (h2 : Framed b b2 buf) :
    (∃ v rest left used, unflattenValue b syms b1 b2 buf = .ok v rest left ∧ buf = used ++ rest ∧
      used ≠ []) ∨
    unflattenValue b syms b1 b2 buf = .malformed ∨ unflattenValue b syms b1 b2 buf = .gcRetry := by
  have key : ∀ B, Framed b B buf →
      (∃ v rest left used, unflat b syms (buf.length + 1) B buf = .ok v rest left ∧
        buf = used ++ rest ∧ used ≠ []) ∨
      unflat b syms (buf.length + 1) B buf = .malformed ∨
      unflat b syms (buf.length + 1) B buf = .gcRetry := by
    intro B hB
    have hp := unflat_post b syms (buf.length + 1) B buf (by omega)
    have hs := framed_safe b syms B buf hB (buf.length + 1) [] B buf rfl (by simp) (by omega)
    cases e : unflat b syms (buf.length + 1) B buf with
    | ok v rest left =>
      rw [e] at hp
      obtain ⟨⟨used, hl, hu⟩, _⟩ := hp
      exact Or.inl ⟨v, rest, left, used, rfl, hu, by rintro rfl; simp at hl⟩
    | malformed => exact Or.inr (Or.inl rfl)
    | gcRetry => exact Or.inr (Or.inr rfl)
    | ub u => exact absurd e (hs u)
    | fuel => rw [e] at hp; exact hp.elim
  simp only [unflattenValue]
  rcases key b1 h1 with ⟨v, rest, left, used, e, hu⟩ | e | e
  · rw [e]; exact Or.inl ⟨v, rest, left, used, rfl, hu⟩
  · rw [e]; exact Or.inr (Or.inl rfl)
  · rw [e]; exact key b2 h2

/-- A truncated pair is framed, and rejected. -/
example : Framed .b32 0 [0x01, 0x04, 9, 0x07, 1, 2] ∧
    unflattenValue .b32 exSyms 5 5 [0x01, 0x04, 9, 0x07, 1, 2] = .malformed := by
  refine ⟨?_, rfl⟩
  intro pre t rest h
  have ht : t ∈ ([0x01, 0x04, 9, 0x07, 1, 2] : List Byte) := by rw [h]; simp
  simp only [List.mem_cons, List.not_mem_nil, or_false] at ht
  rcases ht with rfl | rfl | rfl | rfl | rfl | rfl <;> refine ⟨?_, ?_, ?_⟩ <;> intro h <;>
    exact absurd h (by decide)

/-- **C15.**  For every buffer at all: the reader never runs forever, and what
it consumed when it succeeds is a non-empty prefix of the buffer. -/
theorem C15_terminates (b : Build) (syms : Syms) (b1 b2 : Nat) (buf : List Byte) :
    unflattenValue b syms b1 b2 buf ≠ .fuel ∧
    ∀ v rest left, unflattenValue b syms b1 b2 buf = .ok v rest left →
      ∃ used, used ≠ [] ∧ buf = used ++ rest := by
  have key : ∀ B, unflat b syms (buf.length + 1) B buf ≠ .fuel ∧
      ∀ v rest left, unflat b syms (buf.length + 1) B buf = .ok v rest left →
        ∃ used, used ≠ [] ∧ buf = used ++ rest := by
    intro B
    have hp := unflat_post b syms (buf.length + 1) B buf (by omega)
    constructor
    · intro e; rw [e] at hp; exact hp
    · intro v rest left e
      rw [e] at hp
      obtain ⟨⟨used, hl, hu⟩, _⟩ := hp
      exact ⟨used, by rintro rfl; simp at hl, hu⟩
  unfold unflattenValue
  split
  · exact key b2
  · exact key b1

/-! ## C50: portability between builds -/

/-- **C50.**  A value flattened by one build unflattens on the other (or the
same) build to the same value, where only the 56-bit unboxed integers of the
64-bit build turn into boxed 64-bit integers with the same number. -/
theorem C50_portable (b b' : Build) (syms : Syms) (maxDepth n b1 b2 : Nat) (v : FV)
    (h : Serialisable b syms n v) (hdepth : n ≤ maxDepth) (hmem : nodes v ≤ b1) :
    ∃ bytes left, flattenValue b syms maxDepth v = .ok bytes ∧
      unflattenValue b' syms b1 b2 bytes = .ok (portable b b' v) [] left := by
  obtain ⟨left, e, _⟩ := unflat_ser b b' syms h ((ser b syms v).length + 1) b1 [] (by omega) hmem
  refine ⟨_, left, (flattenValue_ok b syms maxDepth h hdepth).1, ?_⟩
  rw [List.append_nil] at e
  simp only [unflattenValue, e]

/-- The number is preserved when an integer changes type. -/
theorem C50_same_number (z : Int) (h1 : -(2 ^ 55) ≤ z) (h2 : z < 2 ^ 55) :
    ∃ x : BitVec 64, portable .b64 .b32 (.int z) = .i64 x ∧ x.toInt = z :=
  ⟨BitVec.ofInt 64 z, rfl, by rw [BitVec.toInt_ofInt]; exact Int.bmod_eq_of_le (by omega) (by omega)⟩

/-- An unsigned number keeps its value too. -/
theorem C50_same_unsigned (n : Nat) (h : n < 2 ^ 56) :
    ∃ x : BitVec 64, portable .b64 .b32 (.uint n) = .u64 x ∧ x.toNat = n :=
  ⟨BitVec.ofNat 64 n, rfl, by simp; omega⟩

example : ∃ bytes left, flattenValue .b64 exSyms 2000 exVal = .ok bytes ∧
    unflattenValue .b32 exSyms 9 0 bytes = .ok (.cons (.sym 0x40000) (.cons (.i64 (-3))
      (.lispArray [.byte 7, .array [104, 105], .double 5]))) [] left :=
  C50_portable .b64 .b32 exSyms 2000 3 9 0 exVal (exVal_ser _) (by decide) (by decide)

/-- When memory runs out while a 64-bit integer is rebuilt on a 32-bit build,
the reader does not report it: the symbol `out_of_memory` is put in its place. -/
theorem C50_silent_out_of_memory_violated (syms : Syms) (b2 : Nat) :
    unflattenValue .b32 syms 0 b2 [0x0E, 0, 0, 0, 0, 0, 0, 0, 1] = .ok (.sym 0x23) [] 0 := rfl

end Verif.Flat
