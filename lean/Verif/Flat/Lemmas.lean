import Verif.Flat.Spec
import Verif.Val.Props

namespace Verif.Flat

open Verif.Val (Build payload)

/-! ## Big-endian words -/

theorem shiftIn_toNat {w : Nat} (tmp : BitVec w) (x : Byte) (hw : 8 ≤ w)
    (h : tmp.toNat * 256 < 2 ^ w) : (shiftIn tmp x).toNat = tmp.toNat * 256 + x.toNat := by
  have hx := x.isLt
  have hp : (2:Nat) ^ 8 ≤ 2 ^ w := Nat.pow_le_pow_right (by omega) hw
  unfold shiftIn
  rw [BitVec.toNat_or, BitVec.toNat_shiftLeft, BitVec.toNat_setWidth,
    Nat.mod_eq_of_lt (show x.toNat < 2 ^ w by omega), Nat.shiftLeft_eq,
    show tmp.toNat * 2 ^ 8 = tmp.toNat * 256 from rfl, Nat.mod_eq_of_lt h,
    show tmp.toNat * 256 = 2 ^ 8 * tmp.toNat by omega, Nat.two_pow_add_eq_or_of_lt hx]

theorem bigEndian_length (k n : Nat) : (bigEndian k n).length = k := by
  induction k with
  | zero => rfl
  | succ k ih => simp [bigEndian, ih]

theorem wordBytes_eq (w : BitVec 32) : wordBytes w = bigEndian 4 w.toNat := by
  simp only [wordBytes, bigEndian, List.cons.injEq, and_true]
  refine ⟨?_, ?_, ?_, ?_⟩ <;> apply BitVec.eq_of_toNat_eq <;>
    simp [BitVec.toNat_setWidth, Nat.shiftRight_eq_div_pow]

theorem dwordBytes_eq (w : BitVec 64) : dwordBytes w = bigEndian 8 w.toNat := by
  simp only [dwordBytes, bigEndian, List.cons.injEq, and_true]
  refine ⟨?_, ?_, ?_, ?_, ?_, ?_, ?_, ?_⟩ <;> apply BitVec.eq_of_toNat_eq <;>
    simp [BitVec.toNat_setWidth, Nat.shiftRight_eq_div_pow]

theorem extractWord_bigEndian (n : Nat) (hn : n < 2 ^ 32) (r : List Byte) :
    extractWord (bigEndian 4 n ++ r) = some (BitVec.ofNat 32 n, r) := by
  simp only [bigEndian, List.cons_append, List.nil_append, extractWord, Option.some.injEq,
    Prod.mk.injEq, and_true]
  apply BitVec.eq_of_toNat_eq
  have h0 : ((0 : BitVec 32) ||| (BitVec.ofNat 8 (n / 256 ^ 3)).setWidth 32).toNat = n / 256 ^ 3 := by
    simp; omega
  rw [shiftIn_toNat _ _ (by omega), shiftIn_toNat _ _ (by omega), shiftIn_toNat _ _ (by omega), h0]
  · simp only [BitVec.toNat_ofNat]; omega
  · rw [h0]; omega
  · rw [shiftIn_toNat _ _ (by omega), h0]
    · simp only [BitVec.toNat_ofNat]; omega
    · rw [h0]; omega
  · rw [shiftIn_toNat _ _ (by omega), shiftIn_toNat _ _ (by omega), h0]
    · simp only [BitVec.toNat_ofNat]; omega
    · rw [h0]; omega
    · rw [shiftIn_toNat _ _ (by omega), h0]
      · simp only [BitVec.toNat_ofNat]; omega
      · rw [h0]; omega

/-- One extraction step keeps the value equal to the prefix `n / 256 ^ k`. -/
theorem shiftIn_prefix {w n k : Nat} (hw : 8 ≤ w) (tmp : BitVec w) (hn : n < 2 ^ w)
    (h : tmp.toNat = n / 256 ^ (k + 1)) :
    (shiftIn tmp (BitVec.ofNat 8 (n / 256 ^ k))).toNat = n / 256 ^ k := by
  have e : n / 256 ^ (k + 1) = n / 256 ^ k / 256 := by
    rw [Nat.pow_succ, Nat.div_div_eq_div_mul]
  have h1 : n / 256 ^ k ≤ n := Nat.div_le_self _ _
  rw [shiftIn_toNat _ _ hw (by rw [h, e]; omega), h, e, BitVec.toNat_ofNat]
  omega

theorem extractDword_bigEndian (n : Nat) (hn : n < 2 ^ 64) (r : List Byte) :
    extractDword (bigEndian 8 n ++ r) = some (BitVec.ofNat 64 n, r) := by
  simp only [bigEndian, List.cons_append, List.nil_append, extractDword, Option.some.injEq,
    Prod.mk.injEq, and_true]
  apply BitVec.eq_of_toNat_eq
  have h0 : ((0 : BitVec 64) ||| (BitVec.ofNat 8 (n / 256 ^ 7)).setWidth 64).toNat = n / 256 ^ 7 := by
    simp; omega
  have h8 := shiftIn_prefix (w := 64) (by omega) _ hn (k := 0)
    (shiftIn_prefix (by omega) _ hn (shiftIn_prefix (by omega) _ hn (shiftIn_prefix (by omega) _ hn
      (shiftIn_prefix (by omega) _ hn (shiftIn_prefix (by omega) _ hn
        (shiftIn_prefix (by omega) _ hn h0))))))
  rw [h8, BitVec.toNat_ofNat]
  simp [Nat.mod_eq_of_lt hn]

/-! ## Writers -/

theorem writeByte_ok {size : Nat} {out : List Byte} {x : Byte} (h : out.length + 1 ≤ size) :
    writeByte ⟨size, out⟩ x = (⟨size, out ++ [x]⟩, true) := by
  simp [writeByte, h]

theorem writeBytes_ok {size : Nat} {out xs : List Byte} (h : out.length + xs.length ≤ size) :
    writeBytes ⟨size, out⟩ xs = (⟨size, out ++ xs⟩, true) := by
  simp [writeBytes, h]

theorem writeWord_ok {size : Nat} {out : List Byte} {w : BitVec 32} (h : out.length + 4 ≤ size) :
    writeWord ⟨size, out⟩ w = (⟨size, out ++ bigEndian 4 w.toNat⟩, true) := by
  simp [writeWord, h, wordBytes_eq]

theorem writeDword_ok {size : Nat} {out : List Byte} {w : BitVec 64} (h : out.length + 8 ≤ size) :
    writeDword ⟨size, out⟩ w = (⟨size, out ++ bigEndian 8 w.toNat⟩, true) := by
  simp [writeDword, h, dwordBytes_eq]

theorem tagWord_ok {size : Nat} {out : List Byte} {t : Byte} {w : BitVec 32}
    (h : out.length + 5 ≤ size) :
    (andThen (writeByte ⟨size, out⟩ t) fun v => writeWord v w) =
      (⟨size, out ++ t :: bigEndian 4 w.toNat⟩, true) := by
  rw [writeByte_ok (by omega)]
  simp only [andThen, if_true]
  rw [writeWord_ok (by simp; omega)]
  simp

theorem tagDword_ok {size : Nat} {out : List Byte} {t : Byte} {w : BitVec 64}
    (h : out.length + 9 ≤ size) :
    (andThen (writeByte ⟨size, out⟩ t) fun v => writeDword v w) =
      (⟨size, out ++ t :: bigEndian 8 w.toNat⟩, true) := by
  rw [writeByte_ok (by omega)]
  simp only [andThen, if_true]
  rw [writeDword_ok (by simp; omega)]
  simp

theorem ser_pos (b : Build) (syms : Syms) {n : Nat} {v : FV} (h : Serialisable b syms n v) :
    0 < (ser b syms v).length := by
  cases h <;> simp [ser]
  case sym h _ _ => simp [h]
  all_goals (cases b <;> simp)

/-! ## Flattening a serialisable value -/

theorem sizeElems_ok (b : Build) (syms : Syms) (maxDepth depth : Nat) :
    ∀ (es : List FV), (∀ e ∈ es, sizeInternal b syms maxDepth (depth + 1) e =
        .ok ((ser b syms e).length : Int)) → ∀ sum : Int,
      sizeInternal.sizeElems b syms maxDepth depth es sum =
        .ok (sum + ((ser.serElems b syms es).length : Int)) := by
  intro es
  induction es with
  | nil => intro _ sum; simp [sizeInternal.sizeElems, ser.serElems, pure, Except.pure]
  | cons e es ih =>
    intro h sum
    simp only [sizeInternal.sizeElems, h e (by simp), bind, Except.bind]
    rw [ih (fun x hx => h x (by simp [hx])) _]
    simp [ser.serElems]
    omega

theorem size_ok (b : Build) (syms : Syms) (maxDepth : Nat) {n : Nat} {v : FV}
    (h : Serialisable b syms n v) : ∀ depth, depth + n ≤ maxDepth →
    sizeInternal b syms maxDepth depth v = .ok ((ser b syms v).length : Int) := by
  induction h with
  | @cons n a d ha hd iha ihd =>
    intro depth hdep
    have h1 := ser_pos b syms ha
    have h2 := ser_pos b syms hd
    simp only [sizeInternal, show ¬ depth > maxDepth by omega, if_false, iha (depth + 1) (by omega),
      ihd (depth + 1) (by omega), bind, Except.bind, pure, Except.pure]
    rw [if_pos (by omega), if_pos (by omega)]
    simp [ser]
    omega
  | @lispArray n es hne hlen hes ih =>
    intro depth hdep
    simp only [sizeInternal, show ¬ depth > maxDepth by omega, if_false]
    rw [sizeElems_ok b syms maxDepth depth es (fun e he => ih e he (depth + 1) (by omega))]
    simp [ser, bigEndian_length]
    omega
  | sym h1 h2 h3 =>
    intro depth hdep
    simp [sizeInternal, show ¬ depth > maxDepth by omega, h1, ser, pure, Except.pure]; omega
  | array h1 h2 =>
    intro depth hdep
    simp [sizeInternal, show ¬ depth > maxDepth by omega, List.length_pos_iff, h1, ser, pure, Except.pure,
      bigEndian_length]; omega
  | int | uint =>
    intro depth hdep
    cases b <;> simp [sizeInternal, show ¬ depth > maxDepth by omega, ser, pure, Except.pure,
      bigEndian_length]
  | _ =>
    intro depth hdep
    simp [sizeInternal, show ¬ depth > maxDepth by omega, ser, pure, Except.pure,
      bigEndian_length]

theorem flattenElems_ok (b : Build) (syms : Syms) : ∀ (es : List FV),
    (∀ e ∈ es, ∀ size out, out.length + (ser b syms e).length ≤ size →
      flattenC b syms ⟨size, out⟩ e = (⟨size, out ++ ser b syms e⟩, 0)) →
    ∀ size out, out.length + (ser.serElems b syms es).length ≤ size →
      flattenC.flattenElems b syms ⟨size, out⟩ es = (⟨size, out ++ ser.serElems b syms es⟩, 0) := by
  intro es
  induction es with
  | nil => intro _ size out _; simp [flattenC.flattenElems, ser.serElems]
  | cons e es ih =>
    intro h size out hl
    simp only [ser.serElems, List.length_append] at hl
    simp only [flattenC.flattenElems, h e (by simp) size out (by omega), if_true]
    rw [ih (fun x hx => h x (by simp [hx])) size _ (by simp; omega)]
    simp [ser.serElems]

theorem code_ok {x : Buf} : code (x, true) = (x, 0) := rfl

theorem flattenC_ok (b : Build) (syms : Syms) {n : Nat} {v : FV}
    (h : Serialisable b syms n v) : ∀ size out, out.length + (ser b syms v).length ≤ size →
    flattenC b syms ⟨size, out⟩ v = (⟨size, out ++ ser b syms v⟩, 0) := by
  induction h with
  | @cons n a d ha hd iha ihd =>
    intro size out hl
    simp only [ser, List.length_cons, List.length_append] at hl
    have e : fCons ⟨size, out⟩ = (⟨size, out ++ [0x01]⟩, true) := writeByte_ok (by omega)
    simp only [flattenC, e, if_true]
    rw [iha size _ (by simp; omega)]
    simp only [if_true]
    rw [ihd size _ (by simp; omega)]
    simp [ser]
  | @lispArray n es hne hlen hes ih =>
    intro size out hl
    simp only [ser, List.length_cons, List.length_append, bigEndian_length] at hl
    have e : fLispArray ⟨size, out⟩ (BitVec.ofNat 32 es.length) = _ := tagWord_ok (by omega)
    simp only [flattenC, e, if_true]
    rw [flattenElems_ok b syms es (fun e he => ih e he) size _ (by simp [bigEndian_length]; omega)]
    simp [ser, Nat.mod_eq_of_lt (show es.length < 2 ^ 32 by omega)]
  | @sym n id s h1 h2 h3 =>
    intro size out hl
    simp [ser, h1] at hl
    have e : fSymString ⟨size, out⟩ (some s) = (⟨size, out ++ 0x03 :: (s ++ [0])⟩, true) := by
      unfold fSymString
      simp only []
      rw [writeByte_ok (by omega)]
      simp only [andThen, if_true]
      rw [writeBytes_ok (by simp; omega)]
      simp
    simp only [flattenC, h1, e, code_ok, ser]
  | @array n bs h1 h2 =>
    intro size out hl
    simp only [ser, List.length_cons, List.length_append, bigEndian_length] at hl
    have e : fLbmArray ⟨size, out⟩ bs = (⟨size, out ++ 0x0D :: (bigEndian 4 bs.length ++ bs)⟩, true) := by
      unfold fLbmArray
      rw [tagWord_ok (by omega)]
      simp only [andThen, if_true]
      rw [writeBytes_ok (by simp [bigEndian_length]; omega)]
      simp [Nat.mod_eq_of_lt h2]
    simp only [flattenC, e, code_ok, List.length_pos_iff, ne_eq, h1, not_false_eq_true, if_true, ser]
  | @byte n c =>
    intro size out hl
    simp only [ser, List.length_cons, List.length_nil] at hl
    have e : fB ⟨size, out⟩ c = (⟨size, out ++ [0x04, c]⟩, true) := by
      unfold fB
      rw [writeByte_ok (by omega)]
      simp only [andThen, if_true]
      rw [writeByte_ok (by simp; omega)]
      simp
    simp only [flattenC, e, code_ok, ser]
  | @int n z h1 h2 =>
    intro size out hl
    cases b
    · simp only [ser, List.length_cons, bigEndian_length] at hl
      have e : fI .b32 ⟨size, out⟩ z = _ := tagWord_ok (by omega)
      simp only [flattenC, e, code_ok, ser, BitVec.toNat_ofInt]
      rfl
    · simp only [ser, List.length_cons, bigEndian_length] at hl
      have e : fI .b64 ⟨size, out⟩ z = _ := tagDword_ok (by omega)
      simp only [flattenC, e, code_ok, ser, BitVec.toNat_ofInt]
      rfl
  | @uint n m h1 =>
    intro size out hl
    cases b
    · simp only [ser, List.length_cons, bigEndian_length] at hl
      have e : fU .b32 ⟨size, out⟩ m = _ := tagWord_ok (by omega)
      simp only [payload] at h1
      simp only [flattenC, e, code_ok, ser, BitVec.toNat_ofNat,
        Nat.mod_eq_of_lt (show m < 2 ^ 32 by omega)]
    · simp only [ser, List.length_cons, bigEndian_length] at hl
      have e : fU .b64 ⟨size, out⟩ m = _ := tagDword_ok (by omega)
      simp only [payload] at h1
      simp only [flattenC, e, code_ok, ser, BitVec.toNat_ofNat,
        Nat.mod_eq_of_lt (show m < 2 ^ 64 by omega)]
  | @i32 n x =>
    intro size out hl
    simp only [ser, List.length_cons, bigEndian_length] at hl
    have e : fI32 ⟨size, out⟩ x = _ := tagWord_ok (by omega)
    simp only [flattenC, e, code_ok, ser]
  | @u32 n x =>
    intro size out hl
    simp only [ser, List.length_cons, bigEndian_length] at hl
    have e : fU32 ⟨size, out⟩ x = _ := tagWord_ok (by omega)
    simp only [flattenC, e, code_ok, ser]
  | @float n x =>
    intro size out hl
    simp only [ser, List.length_cons, bigEndian_length] at hl
    have e : fFloat ⟨size, out⟩ x = _ := tagWord_ok (by omega)
    simp only [flattenC, e, code_ok, ser]
  | @i64 n x =>
    intro size out hl
    simp only [ser, List.length_cons, bigEndian_length] at hl
    have e : fI64 ⟨size, out⟩ x = _ := tagDword_ok (by omega)
    simp only [flattenC, e, code_ok, ser]
  | @u64 n x =>
    intro size out hl
    simp only [ser, List.length_cons, bigEndian_length] at hl
    have e : fU64 ⟨size, out⟩ x = _ := tagDword_ok (by omega)
    simp only [flattenC, e, code_ok, ser]
  | @double n x =>
    intro size out hl
    simp only [ser, List.length_cons, bigEndian_length] at hl
    have e : fDouble ⟨size, out⟩ x = _ := tagDword_ok (by omega)
    simp only [flattenC, e, code_ok, ser]

end Verif.Flat
