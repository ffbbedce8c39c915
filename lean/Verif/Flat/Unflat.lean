import Verif.Flat.Lemmas

namespace Verif.Flat

open Verif.Val (Build payload)

theorem cString_ok {s : List Byte} (h : (0 : Byte) ∉ s) (rest : List Byte) :
    cString (s ++ [0] ++ rest) = some (s, rest) := by
  induction s with
  | nil => simp [cString]
  | cons x s ih =>
    simp only [List.mem_cons, not_or] at h
    simp only [List.cons_append, cString, if_neg (fun e : x = 0 => h.1 e.symm)]
    rw [ih h.2]

theorem emod_lt (w : Nat) (z : Int) : (z % 2 ^ w).toNat < 2 ^ w := by
  have h0 : ((2 ^ w : Nat) : Int) = 2 ^ w := by push_cast; rfl
  have h1 : (0:Int) < 2 ^ w := by rw [← h0]; exact_mod_cast Nat.two_pow_pos w
  have := Int.emod_lt_of_pos z h1
  have := Int.emod_nonneg z (by omega : (2:Int) ^ w ≠ 0)
  omega

theorem ofNat_emod (w : Nat) (z : Int) : BitVec.ofNat w (z % 2 ^ w).toNat = BitVec.ofInt w z := by
  have h0 : ((2 ^ w : Nat) : Int) = 2 ^ w := by push_cast; rfl
  apply BitVec.eq_of_toNat_eq
  rw [BitVec.toNat_ofInt, BitVec.toNat_ofNat, Nat.mod_eq_of_lt (emod_lt w z), h0]

theorem int32_back (b' : Build) (z : Int) (h1 : -(2 ^ 27) ≤ z) (h2 : z < 2 ^ 27) :
    (Val.decI b' (Val.encI b' ((BitVec.ofInt 32 z).signExtend b'.w))).toInt = z := by
  have e : ((BitVec.ofInt 32 z).signExtend b'.w).toInt = z := by
    rw [BitVec.toInt_signExtend_of_le (by cases b' <;> decide), BitVec.toInt_ofInt]
    apply Int.bmod_eq_of_le <;> omega
  rw [Val.C11_signed, e]
  · rw [e]; cases b' <;> simp only [payload] <;> omega
  · rw [e]; cases b' <;> simp only [payload] <;> omega

theorem int64_back (z : Int) (h1 : -(2 ^ 55) ≤ z) (h2 : z < 2 ^ 55) :
    (Val.decI .b64 (Val.encI .b64 (BitVec.ofInt 64 z))).toInt = z := by
  have e : (BitVec.ofInt 64 z).toInt = z := by
    rw [BitVec.toInt_ofInt]
    apply Int.bmod_eq_of_le <;> omega
  rw [Val.C11_signed, e]
  · rw [e]; simp only [payload]; omega
  · rw [e]; simp only [payload]; omega

theorem uint32_back (b' : Build) (m : Nat) (h : m < 2 ^ 28) :
    (Val.decU b' (Val.encU b' ((BitVec.ofNat 32 m).setWidth b'.w))).toNat = m := by
  rw [Val.C11_unsigned]
  simp only [BitVec.toNat_setWidth, BitVec.toNat_ofNat]
  cases b' <;> simp only [payload, Build.w] <;> omega

theorem uint64_back (m : Nat) (h : m < 2 ^ 56) :
    (Val.decU .b64 (Val.encU .b64 (BitVec.ofNat 64 m))).toNat = m := by
  rw [Val.C11_unsigned, BitVec.toNat_ofNat]
  show m % 2 ^ 64 % 2 ^ 56 = m
  omega

theorem allocatedElems_ok (b : Build) (n : Nat) (h : n < 2 ^ 30) :
    allocatedElems b (BitVec.ofNat 32 n) = n := by
  cases b <;> simp only [allocatedElems, BitVec.toNat_ofNat] <;> omega

theorem nodes_pos (v : FV) : 0 < nodes v := by
  cases v <;> simp [nodes] <;> omega

theorem unflatElems_ok (b b' : Build) (syms : Syms) (rec : Nat → List Byte → Res) :
    ∀ (es : List FV),
    (∀ e ∈ es, ∀ budget rest, nodes e ≤ budget →
      ∃ budget', rec budget (ser b syms e ++ rest) = .ok (portable b b' e) rest budget' ∧
        budget ≤ budget' + nodes e) →
    ∀ cap i acc budget rest, i + es.length ≤ cap → nodes.nodesElems es ≤ budget →
      ∃ budget', unflatElems rec cap es.length i acc budget (ser.serElems b syms es ++ rest) =
        .ok (.lispArray (acc.reverse ++ portable.elems b b' es)) rest budget' ∧
        budget ≤ budget' + nodes.nodesElems es := by
  intro es
  induction es with
  | nil =>
    intro _ cap i acc budget rest _ _
    exact ⟨budget, by simp [unflatElems, ser.serElems, portable.elems], by omega⟩
  | cons e es ih =>
    intro h cap i acc budget rest hcap hb
    simp only [List.length_cons] at hcap
    simp only [nodes.nodesElems] at hb
    obtain ⟨b1, hr, hb1⟩ := h e (by simp) budget (ser.serElems b syms es ++ rest) (by omega)
    obtain ⟨b2, hr2, hb2⟩ := ih (fun x hx => h x (by simp [hx])) cap (i + 1) (portable b b' e :: acc)
      b1 rest (by omega) (by omega)
    refine ⟨b2, ?_, by simp only [nodes.nodesElems]; omega⟩
    simp only [List.length_cons, unflatElems, ser.serElems, List.append_assoc, hr,
      if_pos (show i < cap by omega)]
    rw [hr2]
    simp [portable.elems]

theorem alloc_ok {budget : Nat} (k : Nat → Res) (h : 0 < budget) :
    alloc budget k = k (budget - 1) := by
  cases budget with
  | zero => omega
  | succ n => rfl

theorem elems_len_pos {b : Build} {syms : Syms} {n : Nat} {es : List FV} :
    (∀ e ∈ es, Serialisable b syms n e) → ∀ e ∈ es,
    (ser b syms e).length ≤ (ser.serElems b syms es).length := by
  induction es with
  | nil => simp
  | cons x es ih =>
    intro h e he
    simp only [ser.serElems, List.length_append]
    rcases List.mem_cons.1 he with rfl | he
    · omega
    · have := ih (fun y hy => h y (by simp [hy])) e he
      omega

/-- Reading back what was written. -/
theorem unflat_ser (b b' : Build) (syms : Syms) {n : Nat} {v : FV}
    (h : Serialisable b syms n v) :
    ∀ fuel budget rest, (ser b syms v).length ≤ fuel → nodes v ≤ budget →
      ∃ budget', unflat b' syms fuel budget (ser b syms v ++ rest) =
        .ok (portable b b' v) rest budget' ∧ budget ≤ budget' + nodes v := by
  induction h with
  | @cons n a d ha hd iha ihd =>
    intro fuel budget rest hf hb
    simp only [ser, List.length_cons, List.length_append] at hf
    simp only [nodes] at hb
    obtain ⟨fuel, rfl⟩ : ∃ k, fuel = k + 1 := ⟨fuel - 1, by omega⟩
    obtain ⟨b1, e1, hb1⟩ := iha fuel budget (ser b syms d ++ rest) (by omega) (by omega)
    obtain ⟨b2, e2, hb2⟩ := ihd fuel b1 rest (by omega) (by omega)
    refine ⟨b2 - 1, ?_, by simp only [nodes]; omega⟩
    simp only [ser, List.cons_append, List.append_assoc, unflat, if_true, e1, e2]
    rw [alloc_ok _ (by omega)]
    rfl
  | @lispArray n es hne hlen hes ih =>
    intro fuel budget rest hf hb
    simp only [ser, List.length_cons, List.length_append, bigEndian_length] at hf
    simp only [nodes] at hb
    obtain ⟨fuel, rfl⟩ : ∃ k, fuel = k + 1 := ⟨fuel - 1, by omega⟩
    obtain ⟨budget, rfl⟩ : ∃ k, budget = k + 1 := ⟨budget - 1, by omega⟩
    have hle := elems_len_pos hes
    obtain ⟨b1, e1, hb1⟩ := unflatElems_ok b b' syms (unflat b' syms fuel) es
      (fun e he budget rest hb => ih e he fuel budget rest (by have := hle e he; omega) hb)
      es.length 0 [] budget rest (by omega) (by omega)
    refine ⟨b1, ?_, by simp only [nodes]; omega⟩
    have hpos : 0 < es.length := List.length_pos_iff.2 hne
    simp only [ser, List.cons_append, List.append_assoc, unflat]
    rw [if_neg (by decide), if_pos trivial, extractWord_bigEndian _ (by omega)]
    simp only [allocatedElems_ok _ _ hlen, BitVec.toNat_ofNat,
      Nat.mod_eq_of_lt (show es.length < 2 ^ 32 by omega), if_neg (show es.length ≠ 0 by omega)]
    rw [e1]
    simp [portable]
  | @sym n id s h1 h2 h3 =>
    intro fuel budget rest hf hb
    simp [ser, h1] at hf
    obtain ⟨fuel, rfl⟩ : ∃ k, fuel = k + 1 := ⟨fuel - 1, by omega⟩
    refine ⟨budget, ?_, by omega⟩
    have hc := cString_ok h2 rest
    simp only [List.append_assoc, List.cons_append, List.nil_append] at hc
    have hc : cString (s ++ 0#8 :: rest) = some (s, rest) := hc
    simp [ser, h1, unflat, hc, h3, portable]
  | @array n bs h1 h2 =>
    intro fuel budget rest hf hb
    simp only [ser, List.length_cons, List.length_append, bigEndian_length] at hf
    simp only [nodes] at hb
    obtain ⟨fuel, rfl⟩ : ∃ k, fuel = k + 1 := ⟨fuel - 1, by omega⟩
    refine ⟨budget - 1, ?_, by simp only [nodes]; omega⟩
    simp only [ser, List.cons_append, List.append_assoc, unflat]
    simp [extractWord_bigEndian _ h2, alloc_ok _ (show 0 < budget by omega), portable,
      Nat.mod_eq_of_lt h2]
  | byte =>
    intro fuel budget rest hf hb
    obtain ⟨fuel, rfl⟩ : ∃ k, fuel = k + 1 := ⟨fuel - 1, by simp [ser] at hf; omega⟩
    exact ⟨budget, by simp [ser, unflat, extractByte, portable], by omega⟩
  | @int n z h1 h2 =>
    intro fuel budget rest hf hb
    simp only [nodes] at hb
    cases b with
    | b32 =>
      obtain ⟨fuel, rfl⟩ : ∃ k, fuel = k + 1 := ⟨fuel - 1, by simp [ser] at hf; omega⟩
      refine ⟨budget, ?_, by omega⟩
      simp only [payload] at h1 h2
      have := int32_back b' z (by omega) (by omega)
      obtain ⟨k, hk⟩ : ∃ k, k = (z % 2 ^ 32).toNat := ⟨_, rfl⟩
      have hw : extractWord (bigEndian 4 k ++ rest) = some (BitVec.ofInt 32 z, rest) := by
        rw [hk, extractWord_bigEndian _ (emod_lt 32 z), ofNat_emod]
      have hs : ser .b32 syms (.int z) = 0x05 :: bigEndian 4 k := by rw [hk]; rfl
      rw [hs]
      simp [unflat, hw, this, portable]
    | b64 =>
      obtain ⟨fuel, rfl⟩ : ∃ k, fuel = k + 1 := ⟨fuel - 1, by simp [ser] at hf; omega⟩
      simp only [payload] at h1 h2
      have := int64_back z (by omega) (by omega)
      cases b' with
      | b32 =>
        obtain ⟨budget, rfl⟩ : ∃ k, budget = k + 1 := ⟨budget - 1, by omega⟩
        refine ⟨budget, ?_, by simp only [nodes]; omega⟩
        obtain ⟨k, hk⟩ : ∃ k, k = (z % 2 ^ 64).toNat := ⟨_, rfl⟩
        have hw : extractDword (bigEndian 8 k ++ rest) = some (BitVec.ofInt 64 z, rest) := by
          rw [hk, extractDword_bigEndian _ (emod_lt 64 z), ofNat_emod]
        have hs : ser .b64 syms (.int z) = 0x0E :: bigEndian 8 k := by rw [hk]; rfl
        rw [hs]
        simp [unflat, hw, portable]
      | b64 =>
        refine ⟨budget, ?_, by omega⟩
        obtain ⟨k, hk⟩ : ∃ k, k = (z % 2 ^ 64).toNat := ⟨_, rfl⟩
        have hw : extractDword (bigEndian 8 k ++ rest) = some (BitVec.ofInt 64 z, rest) := by
          rw [hk, extractDword_bigEndian _ (emod_lt 64 z), ofNat_emod]
        have hs : ser .b64 syms (.int z) = 0x0E :: bigEndian 8 k := by rw [hk]; rfl
        rw [hs]
        simp [unflat, hw, this, portable]
  | @uint n m h1 =>
    intro fuel budget rest hf hb
    simp only [nodes] at hb
    cases b with
    | b32 =>
      obtain ⟨fuel, rfl⟩ : ∃ k, fuel = k + 1 := ⟨fuel - 1, by simp [ser] at hf; omega⟩
      refine ⟨budget, ?_, by omega⟩
      simp only [payload] at h1
      have := uint32_back b' m h1
      simp [ser, unflat, extractWord_bigEndian m (by omega), this, portable]
    | b64 =>
      obtain ⟨fuel, rfl⟩ : ∃ k, fuel = k + 1 := ⟨fuel - 1, by simp [ser] at hf; omega⟩
      simp only [payload] at h1
      have := uint64_back m h1
      cases b' with
      | b32 =>
        obtain ⟨budget, rfl⟩ : ∃ k, budget = k + 1 := ⟨budget - 1, by omega⟩
        refine ⟨budget, ?_, by simp only [nodes]; omega⟩
        simp [ser, unflat, extractDword_bigEndian m (by omega), portable]
      | b64 =>
        refine ⟨budget, ?_, by omega⟩
        simp [ser, unflat, extractDword_bigEndian m (by omega), this, portable]
  | @i32 n x | @u32 n x | @float n x =>
    intro fuel budget rest hf hb
    simp only [nodes] at hb
    obtain ⟨fuel, rfl⟩ : ∃ k, fuel = k + 1 := ⟨fuel - 1, by simp [ser] at hf; omega⟩
    obtain ⟨budget, rfl⟩ : ∃ k, budget = k + 1 := ⟨budget - 1, by omega⟩
    cases b' with
    | b32 =>
      refine ⟨budget, ?_, by simp only [nodes]; omega⟩
      simp [ser, unflat, extractWord_bigEndian _ x.isLt, alloc32, alloc, portable]
    | b64 =>
      refine ⟨budget + 1, ?_, by simp only [nodes]; omega⟩
      simp [ser, unflat, extractWord_bigEndian _ x.isLt, alloc32, portable]
  | @i64 n x | @u64 n x | @double n x =>
    intro fuel budget rest hf hb
    simp only [nodes] at hb
    obtain ⟨fuel, rfl⟩ : ∃ k, fuel = k + 1 := ⟨fuel - 1, by simp [ser] at hf; omega⟩
    obtain ⟨budget, rfl⟩ : ∃ k, budget = k + 1 := ⟨budget - 1, by omega⟩
    refine ⟨budget, ?_, by simp only [nodes]; omega⟩
    simp [ser, unflat, extractDword_bigEndian _ x.isLt, alloc, portable]

end Verif.Flat
