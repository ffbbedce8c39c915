import Verif.Val.Lemmas

/-!
# Properties C11 and C12 of the value representation

Every theorem ranges over both builds.
-/

namespace Verif.Val

/-! ## C11 -/

theorem tSmall (b : Build) : (tSymbol b).toNat < 2 ^ valShift b ∧ (tChar b).toNat < 2 ^ valShift b ∧
    (tI b).toNat < 2 ^ valShift b ∧ (tU b).toNat < 2 ^ valShift b := by cases b <;> decide

/-- Symbol ids survive encoding; larger numbers keep their low payload bits. -/
theorem C11_symbol (b : Build) (s : Word b) :
    (decSym b (encSym b s)).toNat = s.toNat % 2 ^ payload b := by
  have h := payload_eq b
  unfold decSym encSym
  rw [shr_tag _ _ (tSmall b).1, show b.w - valShift b = payload b by omega]

/-- Unsigned integers survive encoding; larger numbers keep their low payload bits. -/
theorem C11_unsigned (b : Build) (x : Word b) :
    (decU b (encU b x)).toNat = x.toNat % 2 ^ payload b := by
  have h := payload_eq b
  unfold decU encU
  rw [shr_tag _ _ (tSmall b).2.2.2, show b.w - valShift b = payload b by omega]

/-- Every byte survives encoding. -/
theorem C11_char (b : Build) (c : BitVec 8) : decChar b (encChar b c) = c := by
  have h := payload_eq b
  have hp : 28 ≤ payload b := by cases b <;> decide
  apply BitVec.eq_of_toNat_eq
  unfold decChar encChar
  rw [BitVec.toNat_setWidth, shr_tag _ _ (tSmall b).2.1, BitVec.toNat_setWidth]
  have h1 := c.isLt
  have h2 : (2:Nat) ^ 8 ≤ 2 ^ (b.w - valShift b) := Nat.pow_le_pow_right (by omega) (by omega)
  have h3 : (2:Nat) ^ 8 ≤ 2 ^ b.w := Nat.pow_le_pow_right (by omega) (by omega)
  rw [Nat.mod_eq_of_lt (show c.toNat < 2 ^ b.w by omega),
    Nat.mod_eq_of_lt (show c.toNat < 2 ^ (b.w - valShift b) by omega), Nat.mod_eq_of_lt h1]

/-- A signed integer decodes to the representative of its low payload bits that
lies in `[-2^(p-1), 2^(p-1))`. -/
theorem C11_signed_general (b : Build) (x : Word b) :
    (decI b (encI b x)).toInt = Int.bmod x.toInt (2 ^ payload b) := by
  have h := payload_eq b
  have hv := valShift_lt b
  have hp : 28 ≤ payload b := by cases b <;> decide
  unfold decI encI
  rw [sshr_tag (by omega) _ _ (tSmall b).2.2.1, BitVec.toInt_signExtend_of_le (by omega),
    show b.w - valShift b = payload b by omega, BitVec.toInt_setWidth,
    BitVec.toInt_eq_toNat_bmod x]
  rw [Int.bmod_bmod_of_dvd]
  exact_mod_cast Nat.pow_dvd_pow 2 (by omega)

/-- Every signed integer in the payload range survives encoding, sign included. -/
theorem C11_signed (b : Build) (x : Word b)
    (lo : -(2 ^ (payload b - 1)) ≤ x.toInt) (hi : x.toInt < 2 ^ (payload b - 1)) :
    (decI b (encI b x)).toInt = x.toInt := by
  rw [C11_signed_general]
  cases b <;> simp only [payload] at * <;> apply Int.bmod_eq_of_le <;> omega

/-- On the 64-bit build `i32`, `u32` and `float` (its bit pattern) are unboxed
and survive encoding for every 32-bit payload. -/
theorem C11_unboxed32 (x : BitVec 32) :
    dec32On64 (encI32On64 x) = x ∧ dec32On64 (encU32On64 x) = x ∧
      dec32On64 (encFloatOn64 x) = x := by
  have key : ∀ (y t : BitVec 64), t.toNat < 2 ^ 8 → y.setWidth 32 = x →
      (((y <<< 8) ||| t) >>> 8).setWidth 32 = x := by
    intro y t ht hy
    rw [← hy]
    apply BitVec.eq_of_toNat_eq
    rw [BitVec.toNat_setWidth, shr_tag _ _ ht, BitVec.toNat_setWidth, Nat.mod_mod_of_dvd]
    exact Nat.pow_dvd_pow 2 (by omega)
  refine ⟨key _ _ (by decide) ?_, key _ _ (by decide) ?_, key _ _ (by decide) ?_⟩
  · apply BitVec.eq_of_getLsbD_eq
    intro i hi
    rw [BitVec.getLsbD_setWidth, BitVec.getLsbD_signExtend]
    simp only [hi, show i < 64 by omega, decide_true, Bool.true_and, if_true]
  · simp
  · simp

/-- A number boxed in a heap cell is read back unchanged, whatever cell was
allocated, and no other cell is touched.  (Both builds; the type is any of the
boxed number types.) -/
theorem C11_boxed (b : Build) (merr : Word b) (m : Cells b) (ix : Nat)
    (hix : ix < 2 ^ indexBits b) (x qual : Word b) (k : PtrKind)
    (hk : (Kind.ptr k false).exists b = true) :
    let r := encBoxed b merr m (some ix) x qual (k.tag b)
    decBoxed b r.1 r.2 = x ∧ typeOf b r.2 = k.tag b ∧
      ∀ i, i ≠ ix → r.1.car i = m.car i ∧ r.1.cdr i = m.cdr i := by
  have hc : TypeBits b (tCons b) := by unfold TypeBits; cases b <;> decide
  have hcons : encConsPtr b (BitVec.ofNat _ ix) =
      setPtrType b (encConsPtr b (BitVec.ofNat _ ix)) (tCons b) := by
    have hw := constShift_eq b
    have hp := indexBits_eq b
    apply BitVec.eq_of_getLsbD_eq
    intro i hi
    rw [ptr_bits b hix hc i hi]
    simp only [encConsPtr, BitVec.getLsbD_or, BitVec.getLsbD_shiftLeft, addressShift_eq,
      bits_ptrBit b i hi, bits_tCons b i hi, BitVec.getLsbD_ofNat]
    by_cases h2 : 2 ≤ i
    · by_cases h3 : i < constShift b
      · simp [h2, h3, hi, show ¬ i < 2 by omega, show i ≠ 0 by omega,
          show i ≠ constShift b + 2 by omega, show i - 2 < b.w by omega,
          show ¬ constShift b ≤ i by omega]
      · have : ix.testBit (i - 2) = false :=
          Nat.testBit_lt_two_pow (Nat.lt_of_lt_of_le hix
            (Nat.pow_le_pow_right (by omega) (by omega)))
        simp [h3, this, show constShift b ≤ i by omega, show i ≠ 0 by omega]
    · simp [h2, show i ≠ constShift b + 2 by omega, show i < 2 by omega,
        show ¬ constShift b ≤ i by omega]
  have hty : typeOf b (encConsPtr b (BitVec.ofNat _ ix)) = tCons b := by
    rw [hcons]
    unfold typeOf
    rw [ptr_isPtr b hix hc, ptrBit_ne, if_pos rfl, ptr_typeMask b hix hc]
  have hne : tCons b ≠ tSymbol b := by cases b <;> decide
  have ht := tag_typeBits b k false hk
  have e0 : (Kind.ptr k false).tag b = k.tag b := rfl
  rw [e0] at ht
  simp only [encBoxed, consAt, hty, hne, if_false]
  refine ⟨?_, ?_, ?_⟩
  · unfold decBoxed decConsCellPtr
    rw [ptr_decPtr b hix ht, ptr_constBit b hix ht]
    have : k.tag b &&& constBit b = 0 := by
      revert hk; cases b <;> cases k <;> decide
    rw [this]
    have hlt : ix < 2 ^ b.w := Nat.lt_of_lt_of_le hix
      (Nat.pow_le_pow_right (by omega) (by cases b <;> decide))
    simp [Nat.mod_eq_of_lt hlt]
  · unfold typeOf
    rw [ptr_isPtr b hix ht, ptrBit_ne, if_pos rfl, ptr_typeMask b hix ht]
  · intro i hi
    simp [hi]

-- non-vacuity
example : (decI .b32 (encI .b32 (BitVec.ofInt 32 (-134217728)))).toInt = -134217728 := by decide
example : (decI .b32 (encI .b32 134217728#32)).toInt = -134217728 := by decide
example : (decSym .b64 (encSym .b64 0x40001#64)).toNat = 0x40001 := by decide
example : (Kind.ptr .i32 false).exists .b32 = true ∧ (Kind.ptr .i64 false).exists .b64 = true :=
  ⟨rfl, rfl⟩

/-! ## C12 -/

theorem typeOf_low (b : Build) (x t : Word b) (ht : t &&& valTypeMask b = t) :
    typeOf b ((x <<< valShift b) ||| t) = t ∧ isPtr b ((x <<< valShift b) ||| t) = false := by
  have h1 : (ptrBit b).toNat < 2 ^ valShift b := by cases b <;> decide
  have h2 : (valTypeMask b).toNat < 2 ^ valShift b := by cases b <;> decide
  have h3 : t &&& ptrBit b = 0 := by
    rw [← ht, BitVec.and_assoc, show valTypeMask b &&& ptrBit b = 0 by cases b <;> decide]
    simp
  unfold typeOf isPtr
  rw [low_mask _ _ _ h1, h3, low_mask _ _ _ h2, ht]
  simp

/-- The word of an unboxed value is its payload shifted past the tag. -/
theorem enc_unboxed (b : Build) (v : V) (hv : v.kind.exists b = true)
    (hu : ∀ k c ix, v ≠ .ptr k c ix) :
    ∃ x : Word b, v.enc b = (x <<< valShift b) ||| v.kind.tag b := by
  cases v with
  | sym n => exact ⟨_, rfl⟩
  | char n => exact ⟨_, rfl⟩
  | int z => exact ⟨_, rfl⟩
  | uint n => exact ⟨_, rfl⟩
  | i32u z =>
    cases b with
    | b32 => cases hv
    | b64 => exact ⟨(BitVec.ofInt 32 z).signExtend 64, by simp [V.enc, encI32On64, Kind.tag, V.kind]⟩
  | u32u z =>
    cases b with
    | b32 => cases hv
    | b64 => exact ⟨(BitVec.ofNat 32 z).setWidth 64, by simp [V.enc, encU32On64, Kind.tag, V.kind]⟩
  | floatu z =>
    cases b with
    | b32 => cases hv
    | b64 => exact ⟨(BitVec.ofNat 32 z).setWidth 64, by simp [V.enc, encFloatOn64, Kind.tag, V.kind]⟩
  | ptr k c ix => exact absurd rfl (hu k c ix)

theorem tag_val (b : Build) (v : V) (hv : v.kind.exists b = true)
    (hu : ∀ k c ix, v ≠ .ptr k c ix) : v.kind.tag b &&& valTypeMask b = v.kind.tag b := by
  cases v <;> (try exact absurd rfl (hu _ _ _)) <;> revert hv <;> cases b <;> simp only [V.kind] <;>
    decide

theorem not_ptr_or (v : V) : (∀ k c ix, v ≠ .ptr k c ix) ∨ ∃ k c ix, v = .ptr k c ix := by
  cases v <;> simp

/-- **C12, types.**  The type reported for an encoded value is the type it was
encoded with, and it is a pointer exactly when its kind is heap-allocated. -/
theorem C12_type_of (b : Build) (v : V) (hv : v.Fits b) :
    typeOf b (v.enc b) = v.kind.tag b ∧
      isPtr b (v.enc b) = (match v with | .ptr .. => true | _ => false) := by
  rcases not_ptr_or v with hu | ⟨k, c, ix, rfl⟩
  · obtain ⟨x, hx⟩ := enc_unboxed b v hv.1 hu
    have := typeOf_low b x _ (tag_val b v hv.1 hu)
    rw [hx]
    refine ⟨this.1, this.2.trans ?_⟩
    cases v <;> first | rfl | exact absurd rfl (hu _ _ _)
  · have ht := tag_typeBits b k c hv.1
    have hix : ix < 2 ^ indexBits b := hv.2
    have h1 : (V.ptr k c ix).enc b &&& ptrBit b = ptrBit b := ptr_isPtr b hix ht
    have h2 : (V.ptr k c ix).enc b &&& ptrTypeMask b = (Kind.ptr k c).tag b := ptr_typeMask b hix ht
    unfold typeOf isPtr
    rw [h1, ptrBit_ne, if_pos rfl, h2]
    exact ⟨rfl, rfl⟩

/-- **C12, tags.**  Different kinds of one build have different type constants. -/
theorem C12_tags_distinct (b : Build) (k k' : Kind) (h : k.exists b = true) (h' : k'.exists b = true)
    (heq : k.tag b = k'.tag b) : k = k' := by
  revert h h' heq
  cases b <;> rcases k with _ | _ | _ | _ | _ | _ | _ | ⟨k, _ | _⟩ <;>
    rcases k' with _ | _ | _ | _ | _ | _ | _ | ⟨k', _ | _⟩ <;>
    (try cases k) <;> (try cases k') <;> decide

/-- **C12, cells.**  A pointer to a RAM cell decodes to the index it was made
from, in the RAM heap; a pointer to the constant heap, made from the word offset
`2 * n`, decodes to cell `n` of the constant heap. -/
theorem C12_cell_index (b : Build) (k : PtrKind) (c : Bool) (ix : Nat)
    (hv : (V.ptr k c ix).Fits b) :
    (decPtr b ((V.ptr k c ix).enc b)).toNat = ix ∧
    (decConsCellPtr b ((V.ptr k c ix).enc b)).toNat = (if c then ix / 2 else ix) ∧
    decHeap b ((V.ptr k c ix).enc b) = (if c then 1 else 0) := by
  have ht := tag_typeBits b k c hv.1
  have hix : ix < 2 ^ indexBits b := hv.2
  have hlt : ix < 2 ^ b.w := Nat.lt_of_lt_of_le hix
      (Nat.pow_le_pow_right (by omega) (by cases b <;> decide))
  have hd : (decPtr b ((V.ptr k c ix).enc b)).toNat = ix := by
    simp only [V.enc]
    rw [ptr_decPtr b hix ht, BitVec.toNat_ofNat, Nat.mod_eq_of_lt hlt]
  have hh : ((V.ptr k c ix).enc b &&& constBit b) >>> constShift b = BitVec.ofNat _ (if c then 1 else 0) := by
    simp only [V.enc]
    rw [ptr_constBit b hix ht]
    have := hv.1
    revert this
    simp only [V.kind]
    cases b <;> cases k <;> cases c <;> decide
  refine ⟨hd, ?_, ?_⟩
  · unfold decConsCellPtr
    rw [hh]
    simp only [BitVec.toNat_ushiftRight, hd]
    cases c <;> cases b <;> simp [Nat.shiftRight_succ]
  · unfold decHeap
    rw [hh]
    cases c <;> cases b <;> rfl

/-- Retyping a pointer keeps the cell it points to: `lbm_set_ptr_type` changes
the type and nothing else. -/
theorem C12_set_ptr_type (b : Build) (k k' : PtrKind) (c : Bool) (ix : Nat)
    (hv : (V.ptr k c ix).Fits b) :
    setPtrType b ((V.ptr k c ix).enc b) (k'.tag b) = (V.ptr k' false ix).enc b := by
  have ht := tag_typeBits b k c hv.1
  have hix : ix < 2 ^ indexBits b := hv.2
  simp only [V.enc]
  have : ptrValMask b &&& setPtrType b (encConsPtr b (BitVec.ofNat _ ix)) ((Kind.ptr k c).tag b)
      = ptrValMask b &&& encConsPtr b (BitVec.ofNat _ ix) := by
    apply BitVec.eq_of_getLsbD_eq
    intro i hi
    simp only [BitVec.getLsbD_and]
    rw [ptr_bits b hix ht i hi, bits_ptrValMask b i hi]
    simp only [encConsPtr, BitVec.getLsbD_or, BitVec.getLsbD_shiftLeft, addressShift_eq,
      bits_ptrBit b i hi, bits_tCons b i hi, BitVec.getLsbD_ofNat]
    have hw := constShift_eq b
    by_cases h2 : 2 ≤ i ∧ i < constShift b
    · simp [h2.1, h2.2, hi, show ¬ i < 2 by omega, show i ≠ 0 by omega,
        show i ≠ constShift b + 2 by omega, show i - 2 < b.w by omega,
        show ¬ constShift b ≤ i by omega]
    · simp only [h2, decide_false, Bool.false_and]
  show (ptrValMask b &&& setPtrType b (encConsPtr b (BitVec.ofNat _ ix)) ((Kind.ptr k c).tag b))
    ||| k'.tag b ||| ptrBit b = _
  rw [this]
  rfl

theorem enc_eq_of_word_eq (b : Build) (v v' : V) (hv : v.Fits b) (hv' : v'.Fits b)
    (h : v.enc b = v'.enc b) : v.kind = v'.kind :=
  C12_tags_distinct b _ _ hv.1 hv'.1 (by rw [← (C12_type_of b v hv).1, h, (C12_type_of b v' hv').1])

/-- **C12, no confusion.**  Two representable values have the same word only if
they are the same value: neither types nor payloads are ever confused. -/
theorem C12_injective (b : Build) (v v' : V) (hv : v.Fits b) (hv' : v'.Fits b)
    (h : v.enc b = v'.enc b) : v = v' := by
  have hk := enc_eq_of_word_eq b v v' hv hv' h
  have hpw : payload b ≤ b.w := by cases b <;> decide
  have hp28 : 28 ≤ payload b := by cases b <;> decide
  have hpow : (2:Nat) ^ payload b ≤ 2 ^ b.w := Nat.pow_le_pow_right (by omega) hpw
  have h256 : (256:Nat) = 2 ^ 8 := rfl
  cases v <;> cases v' <;> first | (exfalso; revert hk; simp only [V.kind, reduceCtorEq, false_implies]; done) | skip
  case sym.sym n n' =>
    simp only [V.Fits] at hv hv'
    have := congrArg (fun w => (decSym b w).toNat) h
    simp only [V.enc, C11_symbol, BitVec.toNat_ofNat] at this
    rw [Nat.mod_eq_of_lt (show n < 2 ^ b.w by omega), Nat.mod_eq_of_lt (show n' < 2 ^ b.w by omega),
      Nat.mod_eq_of_lt hv.2, Nat.mod_eq_of_lt hv'.2] at this
    rw [this]
  case char.char n n' =>
    simp only [V.Fits] at hv hv'
    have := congrArg (fun w => (decChar b w).toNat) h
    simp only [V.enc, C11_char, BitVec.toNat_ofNat] at this
    rw [Nat.mod_eq_of_lt (show n < 2 ^ 8 by omega), Nat.mod_eq_of_lt (show n' < 2 ^ 8 by omega)] at this
    rw [this]
  case uint.uint n n' =>
    simp only [V.Fits] at hv hv'
    have := congrArg (fun w => (decU b w).toNat) h
    simp only [V.enc, C11_unsigned, BitVec.toNat_ofNat] at this
    rw [Nat.mod_eq_of_lt (show n < 2 ^ b.w by omega), Nat.mod_eq_of_lt (show n' < 2 ^ b.w by omega),
      Nat.mod_eq_of_lt hv.2, Nat.mod_eq_of_lt hv'.2] at this
    rw [this]
  case int.int z z' =>
    simp only [V.Fits] at hv hv'
    have := congrArg (fun w => (decI b w).toInt) h
    simp only [V.enc] at this
    have e : ∀ z : Int, -(2 ^ (payload b - 1)) ≤ z → z < 2 ^ (payload b - 1) →
        (decI b (encI b (BitVec.ofInt b.w z))).toInt = z := by
      intro z h1 h2
      have hz : (BitVec.ofInt b.w z).toInt = z := by
        rw [BitVec.toInt_ofInt]
        cases b <;> simp only [payload, Build.w] at * <;> apply Int.bmod_eq_of_le <;> omega
      rw [C11_signed b _ (by rw [hz]; exact h1) (by rw [hz]; exact h2), hz]
    rw [e z hv.2.1 hv.2.2, e z' hv'.2.1 hv'.2.2] at this
    rw [this]
  case i32u.i32u z z' =>
    simp only [V.Fits] at hv hv'
    cases b with
    | b32 => cases hv.1
    | b64 =>
      have := congrArg (fun w => (dec32On64 w).toInt) h
      simp only [V.enc, BitVec.setWidth_eq, (C11_unboxed32 _).1, BitVec.toInt_ofInt] at this
      rw [Int.bmod_eq_of_le (by omega) (by omega), Int.bmod_eq_of_le (by omega) (by omega)] at this
      rw [this]
  case u32u.u32u z z' =>
    simp only [V.Fits] at hv hv'
    cases b with
    | b32 => cases hv.1
    | b64 =>
      have := congrArg (fun w => (dec32On64 w).toNat) h
      simp only [V.enc, BitVec.setWidth_eq, (C11_unboxed32 _).2.1, BitVec.toNat_ofNat] at this
      rw [Nat.mod_eq_of_lt hv.2, Nat.mod_eq_of_lt hv'.2] at this
      rw [this]
  case floatu.floatu z z' =>
    simp only [V.Fits] at hv hv'
    cases b with
    | b32 => cases hv.1
    | b64 =>
      have := congrArg (fun w => (dec32On64 w).toNat) h
      simp only [V.enc, BitVec.setWidth_eq, (C11_unboxed32 _).2.2, BitVec.toNat_ofNat] at this
      rw [Nat.mod_eq_of_lt hv.2, Nat.mod_eq_of_lt hv'.2] at this
      rw [this]
  case ptr.ptr k c ix k' c' ix' =>
    have := congrArg (fun w => (decPtr b w).toNat) h
    rw [(C12_cell_index b k c ix hv).1, (C12_cell_index b k' c' ix' hv').1] at this
    cases hk
    rw [this]

/-- **C12, collector bit.**  Setting or clearing the mark changes neither the
type nor any decoded payload, of any word whatsoever; the mark read back is the
mark written; and marking then unmarking a word that was unmarked restores it. -/
theorem C12_gc_bit (b : Build) (x y : Word b) (hy : y = setGcMark b x ∨ y = clrGcMark b x) :
    typeOf b y = typeOf b x ∧ isPtr b y = isPtr b x ∧ decPtr b y = decPtr b x ∧
    decConsCellPtr b y = decConsCellPtr b x ∧ decHeap b y = decHeap b x ∧
    decI b y = decI b x ∧ decU b y = decU b x ∧ decChar b y = decChar b x ∧
    decSym b y = decSym b x ∧
    getGcMark b (setGcMark b x) = true ∧ getGcMark b (clrGcMark b x) = false ∧
    (getGcMark b x = false → clrGcMark b (setGcMark b x) = x) := by
  have hbit : ∀ i, i ≠ 1 → y.getLsbD i = x.getLsbD i := by
    intro i hi
    by_cases hw : i < b.w
    · rcases hy with rfl | rfl <;>
        simp only [setGcMark, clrGcMark, BitVec.getLsbD_or, BitVec.getLsbD_and, BitVec.getLsbD_not,
          bits_gcMask b i hw, hi, hw, decide_false, decide_true, Bool.or_false, Bool.not_false,
          Bool.and_true]
    · rw [BitVec.getLsbD_of_ge _ _ (by omega), BitVec.getLsbD_of_ge _ _ (by omega)]
  have hmask : ∀ m : Word b, m.getLsbD 1 = false → y &&& m = x &&& m := by
    intro m hm
    apply BitVec.eq_of_getLsbD_eq
    intro i hi
    simp only [BitVec.getLsbD_and]
    by_cases h1 : i = 1
    · subst h1; rw [hm]; simp
    · rw [hbit i h1]
  have hp := hmask (ptrBit b) (by cases b <;> decide)
  have hc := hmask (constBit b) (by cases b <;> decide)
  have hpv : ptrValMask b &&& y = ptrValMask b &&& x := by
    rw [BitVec.and_comm, hmask _ (by cases b <;> decide), BitVec.and_comm]
  have hd : decPtr b y = decPtr b x := by unfold decPtr; rw [hpv]
  have hvs := valShift_lt b
  have hmsb : y.msb = x.msb := by
    rw [BitVec.msb_eq_getLsbD_last, BitVec.msb_eq_getLsbD_last]
    exact hbit _ (by have := w_ge b; omega)
  have hsh : y >>> valShift b = x >>> valShift b := by
    apply BitVec.eq_of_getLsbD_eq
    intro i hi
    rw [BitVec.getLsbD_ushiftRight, BitVec.getLsbD_ushiftRight]
    exact hbit _ (by omega)
  have hgc : gcMask b ≠ 0 := by cases b <;> decide
  refine ⟨?_, ?_, hd, ?_, ?_, ?_, hsh, ?_, hsh, ?_, ?_, ?_⟩
  · unfold typeOf
    rw [hp, hmask _ (by cases b <;> decide), hmask _ (by cases b <;> decide)]
  · unfold isPtr; rw [hp]
  · unfold decConsCellPtr; rw [hd, hc]
  · unfold decHeap; rw [hc]
  · unfold decI
    apply BitVec.eq_of_getLsbD_eq
    intro i hi
    rw [BitVec.getLsbD_sshiftRight, BitVec.getLsbD_sshiftRight, hmsb, hbit _ (by omega)]
  · unfold decChar; rw [hsh]
  · have : (x ||| gcMask b) &&& gcMask b = gcMask b := by
      apply BitVec.eq_of_getLsbD_eq
      intro i hi
      simp only [BitVec.getLsbD_and, BitVec.getLsbD_or]
      cases (gcMask b).getLsbD i <;> simp
    unfold getGcMark setGcMark
    rw [this]
    simpa using hgc
  · have : (x &&& ~~~(gcMask b)) &&& gcMask b = 0 := by
      apply BitVec.eq_of_getLsbD_eq
      intro i hi
      simp only [BitVec.getLsbD_and, BitVec.getLsbD_not]
      cases (gcMask b).getLsbD i <;> simp
    unfold getGcMark clrGcMark
    rw [this]
    rfl
  · intro hx
    have hx : x &&& gcMask b = 0 := by simpa [getGcMark] using hx
    apply BitVec.eq_of_getLsbD_eq
    intro i hi
    have := congrArg (fun w => w.getLsbD i) hx
    simp only [BitVec.getLsbD_and, BitVec.getLsbD_zero] at this
    simp only [clrGcMark, setGcMark, BitVec.getLsbD_and, BitVec.getLsbD_or, BitVec.getLsbD_not, hi]
    cases hg : (gcMask b).getLsbD i <;> simp [hg] at this ⊢
    exact this

theorem unboxed_tab (b : Build) (k : Kind) (he : k.exists b = true) (hu : ∀ p c, k ≠ .ptr p c) :
    k.tag b &&& lowReservedBits b = k.tag b ∧ (k.tag b == 0) = decide (k = .sym) ∧
      (k.tag b != 0) = k.numeric := by
  revert he
  cases k <;> (try exact absurd rfl (hu _ _)) <;> cases b <;> decide

theorem boxed_tab (b : Build) (k : PtrKind) (c : Bool) (he : (Kind.ptr k c).exists b = true) :
    ((Kind.ptr k c).tag b &&& numberMask b == numberMask b) = (Kind.ptr k c).numeric ∧
    ((Kind.ptr k c).tag b &&& consTypeMask b == tCons b) =
      decide (Kind.ptr k c = .ptr .cons false ∨ Kind.ptr k c = .ptr .cons true) ∧
    (Kind.ptr k c).tag b &&& (~~~(constBit b) &&& ptrTypeMask b) = k.tag b := by
  revert he
  cases b <;> cases k <;> cases c <;> decide

/-- **C12, predicates.**  The type predicates answer by kind. -/
theorem C12_predicates (b : Build) (v : V) (hv : v.Fits b) :
    isNumber b (v.enc b) = v.kind.numeric ∧
    isSymbol b (v.enc b) = decide (v.kind = .sym) ∧
    isChar b (v.enc b) = decide (v.kind = .char) ∧
    isConsRw b (v.enc b) = decide (v.kind = .ptr .cons false) ∧
    isCons b (v.enc b) = decide (v.kind = .ptr .cons false ∨ v.kind = .ptr .cons true) ∧
    (isSymbolNil b (v.enc b) = true ↔ v = .sym 0) ∧
    (isError b (v.enc b) = true ↔ ∃ id, v = .sym id ∧ 0x20 ≤ id ∧ id ≤ 0x2F) ∧
    typeOfFunctional b (v.enc b) =
      (match v.kind with | .ptr k _ => k.tag b | k => k.tag b) := by
  have hty := C12_type_of b v hv
  have hnil : isSymbolNil b (v.enc b) = true ↔ v = .sym 0 := by
    have h0 : (V.sym 0).enc b = 0 := by cases b <;> decide
    constructor
    · intro h
      have : v.enc b = 0 := by simpa [isSymbolNil] using h
      exact C12_injective b _ _ hv ⟨by cases b <;> rfl, Nat.two_pow_pos _⟩ (by rw [this, h0])
    · rintro rfl
      simp [isSymbolNil, h0]
  have tagdec : ∀ k : Kind, k.exists b = true → (typeOf b (v.enc b) == k.tag b) = decide (v.kind = k) := by
    intro k hk
    rw [hty.1]
    by_cases h : v.kind = k
    · simp [h]
    · simp only [h, decide_false, beq_eq_false_iff_ne]
      exact fun h' => h (C12_tags_distinct b _ _ hv.1 hk h')
  rcases not_ptr_or v with hu | ⟨k, c, ix, rfl⟩
  · obtain ⟨x, hx⟩ := enc_unboxed b v hv.1 hu
    have htv := tag_val b v hv.1 hu
    have hlow := typeOf_low b x _ htv
    have htab := unboxed_tab b v.kind hv.1 (by
      intro p c h; cases v <;> cases h; exact absurd rfl (hu _ _ _))
    have hnp : (v.enc b &&& ptrBit b != 0) = false := by
      have := hlow.2; rw [← hx] at this; exact this
    have hvt : v.enc b &&& valTypeMask b = v.kind.tag b := by
      rw [hx, low_mask _ _ _ (by cases b <;> decide), htv]
    have hlr : v.enc b &&& lowReservedBits b = v.kind.tag b := by
      rw [hx, low_mask _ _ _ (by cases b <;> decide)]
      exact htab.1
    have hsym : isSymbol b (v.enc b) = decide (v.kind = .sym) := by
      unfold isSymbol
      rw [hlr]
      exact htab.2.1
    refine ⟨?_, hsym, ?_, ?_, ?_, hnil, ?_, ?_⟩
    · unfold isNumber
      rw [hnp, hvt]
      exact htab.2.2
    · exact tagdec .char (by cases b <;> rfl)
    · exact tagdec (.ptr .cons false) (by cases b <;> rfl)
    · unfold isCons isPtr
      rw [hnp]
      cases v <;> (try exact absurd rfl (hu _ _ _)) <;> simp [V.kind]
    · unfold isError
      rw [hsym]
      cases v <;> (try exact absurd rfl (hu _ _ _)) <;> simp only [V.kind, decide_false, Bool.false_and,
        reduceCtorEq, Bool.false_eq_true, false_and, exists_false]
      rename_i id
      have hid : id < 2 ^ payload b := hv.2
      have hlt : id < 2 ^ b.w := Nat.lt_of_lt_of_le hid
        (Nat.pow_le_pow_right (by omega) (by cases b <;> decide))
      have hdec : decSym b ((V.sym id).enc b) = BitVec.ofNat _ id := by
        apply BitVec.eq_of_toNat_eq
        simp only [V.enc, C11_symbol, BitVec.toNat_ofNat]
        rw [Nat.mod_eq_of_lt hlt, Nat.mod_eq_of_lt hid]
      rw [hdec]
      have hmask : (BitVec.ofNat b.w id &&& errorSymbolMask b).toNat = id / 16 * 16 := by
        have : BitVec.ofNat b.w id &&& errorSymbolMask b = (BitVec.ofNat b.w id >>> 4) <<< 4 := by
          apply BitVec.eq_of_getLsbD_eq
          intro i hi
          have : ∀ i, i < b.w → (errorSymbolMask b).getLsbD i = decide (4 ≤ i) := by
            cases b <;> decide
          rw [BitVec.getLsbD_and, this i hi, BitVec.getLsbD_shiftLeft, BitVec.getLsbD_ushiftRight]
          by_cases h4 : 4 ≤ i
          · simp only [h4, hi, show ¬ i < 4 by omega, show 4 + (i - 4) = i by omega, decide_true,
              decide_false, Bool.not_false, Bool.true_and, Bool.and_true]
          · simp [h4, show i < 4 by omega]
        rw [this, BitVec.toNat_shiftLeft, BitVec.toNat_ushiftRight, BitVec.toNat_ofNat,
          Nat.mod_eq_of_lt hlt, Nat.shiftLeft_eq, Nat.shiftRight_eq_div_pow]
        apply Nat.mod_eq_of_lt
        exact Nat.lt_of_le_of_lt (Nat.div_mul_le_self _ _) hlt
      have h32 : (BitVec.ofNat b.w 0x20).toNat = 32 := by cases b <;> rfl
      simp only [decide_true, Bool.true_and, beq_iff_eq, V.sym.injEq, exists_eq_left']
      constructor
      · intro h
        have := congrArg BitVec.toNat h
        rw [hmask, h32] at this
        omega
      · intro h
        apply BitVec.eq_of_toNat_eq
        rw [hmask, h32]
        omega
    · unfold typeOfFunctional
      rw [hnp, hvt]
      cases v <;> (try exact absurd rfl (hu _ _ _)) <;> rfl
  · have ht := tag_typeBits b k c hv.1
    have hix : ix < 2 ^ indexBits b := hv.2
    have hp : (V.ptr k c ix).enc b &&& ptrBit b = ptrBit b := ptr_isPtr b hix ht
    have htm : (V.ptr k c ix).enc b &&& ptrTypeMask b = (Kind.ptr k c).tag b := ptr_typeMask b hix ht
    have sub : ∀ m : Word b, m &&& ptrTypeMask b = m →
        (V.ptr k c ix).enc b &&& m = (Kind.ptr k c).tag b &&& m := by
      intro m hm
      have : m = ptrTypeMask b &&& m := by rw [BitVec.and_comm]; exact hm.symm
      conv => lhs; rw [this, ← BitVec.and_assoc, htm]
    have hex := hv.1
    simp only [V.kind] at hex
    have hsym : isSymbol b ((V.ptr k c ix).enc b) = false := by
      have h : (V.ptr k c ix).enc b &&& lowReservedBits b ≠ 0 := by
        intro h
        have h1 : ((V.ptr k c ix).enc b &&& lowReservedBits b) &&& ptrBit b = ptrBit b := by
          rw [BitVec.and_assoc, show lowReservedBits b &&& ptrBit b = ptrBit b by cases b <;> decide, hp]
        rw [h] at h1
        revert h1
        cases b <;> decide
      simpa [isSymbol] using h
    refine ⟨?_, ?_, ?_, ?_, ?_, hnil, ?_, ?_⟩
    · unfold isNumber
      rw [hp, ptrBit_ne, if_pos rfl, sub _ (by cases b <;> decide)]
      exact (boxed_tab b k c hex).1
    · rw [hsym]; simp [V.kind]
    · exact tagdec .char (by cases b <;> rfl)
    · exact tagdec (.ptr .cons false) (by cases b <;> rfl)
    · unfold isCons isPtr
      rw [hp, ptrBit_ne, sub _ (by cases b <;> decide), Bool.true_and]
      exact (boxed_tab b k c hex).2.1
    · unfold isError
      rw [hsym]
      simp
    · unfold typeOfFunctional
      rw [hp, ptrBit_ne, if_pos rfl, sub _ (by cases b <;> decide)]
      exact (boxed_tab b k c hex).2.2

/-- The internal continuation marker of the evaluator is a word that no
representable value has, even with the mark bit ignored. -/
theorem C12_continuation_marker (b : Build) (v : V) (hv : v.Fits b) :
    v.enc b ≠ contInternal b ∧ typeOf b (contInternal b) = tContInternal b := by
  refine ⟨?_, by cases b <;> decide⟩
  intro h
  have h1 := (C12_type_of b v hv).1
  rw [h] at h1
  have hex := hv.1
  revert h1 hex
  generalize v.kind = k
  cases b <;> rcases k with _ | _ | _ | _ | _ | _ | _ | ⟨k, _ | _⟩ <;> (try cases k) <;> decide

-- non-vacuity: values of all sorts fit
example : (V.ptr .lispArray false 1000).Fits .b32 ∧ (V.ptr .cons true 1000).Fits .b64 ∧
    (V.int (-5)).Fits .b32 ∧ (V.floatu 0x3f800000).Fits .b64 ∧ (V.sym 0x40000).Fits .b32 := by
  refine ⟨⟨rfl, ?_⟩, ⟨rfl, ?_⟩, ⟨rfl, ?_⟩, ⟨rfl, ?_⟩, ⟨rfl, ?_⟩⟩ <;> simp [payload, indexBits]

end Verif.Val
