import Verif.Flat.Props
import Verif.Mem.Props

/-!
# Flat values made by the host (C133)

`lbm_start_flatten`, the functions `f_*`, `lbm_finish_flatten` (`src/lbm_flat_value.c:33-242`).
-/

namespace Verif.Flat

open Verif.Val (Build payload)

/-- `f_sym` (lbm_flat_value.c:121-130). -/
def fSym (b : Build) (v : Buf) (id : Nat) : Buf × Bool :=
  match b with
  | .b32 => andThen (writeByte v 0x02) fun v => writeWord v (BitVec.ofNat 32 id)
  | .b64 => andThen (writeByte v 0x02) fun v => writeDword v (BitVec.ofNat 64 id)

/-- A call of the host. -/
inductive Put where
  | cons
  | lispArray (n : Nat)
  | sym (id : Nat)
  | name (s : List Byte)
  | byte (c : Byte)
  | int (z : Int)
  | uint (n : Nat)
  | i32 (x : BitVec 32)
  | u32 (x : BitVec 32)
  | float (x : BitVec 32)
  | i64 (x : BitVec 64)
  | u64 (x : BitVec 64)
  | double (x : BitVec 64)
  | array (bs : List Byte)

/-- The function that is called (lbm_flat_value.c:104-242). -/
def put (b : Build) (v : Buf) : Put → Buf × Bool
  | .cons => fCons v
  | .lispArray n => fLispArray v (BitVec.ofNat 32 n)
  | .sym id => fSym b v id
  | .name s => fSymString v (some s)
  | .byte c => fB v c
  | .int z => fI b v z
  | .uint n => fU b v n
  | .i32 x => fI32 v x
  | .u32 x => fU32 v x
  | .float x => fFloat v x
  | .i64 x => fI64 v x
  | .u64 x => fU64 v x
  | .double x => fDouble v x
  | .array bs => fLbmArray v bs

/-- Calls one after the other, with their answers. -/
def puts (b : Build) (v : Buf) : List Put → Buf × List Bool
  | [] => (v, [])
  | c :: cs => ((puts b (put b v c).1 cs).1, (put b v c).2 :: (puts b (put b v c).1 cs).2)

/-- What the host keeps: the address of the buffer, its size and the position in bytes (`lbm_flat_value_t`, lbm_flat_value.h:25-29). -/
structure HostBuf where
  addr : Nat
  size : Nat
  pos : Nat

/-- `lbm_start_flatten` (lbm_flat_value.c:33-43). `none`: the allocation does not return. -/
def startFlatten (m : Mem.Mem) (n : Nat) : Option (Mem.Mem × Option HostBuf) :=
  match Mem.mallocReserve m n with
  | some (m', some p) => some (m', some ⟨p, n, 0⟩)
  | some (m', none) => some (m', none)
  | none => none

/-- `lbm_finish_flatten` (lbm_flat_value.c:45-55). `lbm_memory_shrink` answers 0 or 1, so that the answer is true in any case. -/
def finishFlatten (m : Mem.Mem) (v : HostBuf) : Mem.Mem × HostBuf × Bool :=
  let words := Mem.bytesToWords m.w v.pos
  if v.size ≤ words * (m.w / 8) then (m, v, true)
  else ((Mem.shrink m v.addr words).1, { v with size := words * (m.w / 8) }, true)

/-! ## Specification -/

/-- The bytes that a call writes: a tag and the value in big-endian order. -/
def Put.bytes (b : Build) : Put → List Byte
  | .cons => [0x01]
  | .lispArray n => 0x1F :: bigEndian 4 (n % 2 ^ 32)
  | .sym id => match b with
    | .b32 => 0x02 :: bigEndian 4 (id % 2 ^ 32)
    | .b64 => 0x02 :: bigEndian 8 (id % 2 ^ 64)
  | .name s => 0x03 :: (s ++ [0])
  | .byte c => [0x04, c]
  | .int z => match b with
    | .b32 => 0x05 :: bigEndian 4 (z % 2 ^ 32).toNat
    | .b64 => 0x0E :: bigEndian 8 (z % 2 ^ 64).toNat
  | .uint n => match b with
    | .b32 => 0x06 :: bigEndian 4 (n % 2 ^ 32)
    | .b64 => 0x0F :: bigEndian 8 (n % 2 ^ 64)
  | .i32 x => 0x07 :: bigEndian 4 x.toNat
  | .u32 x => 0x08 :: bigEndian 4 x.toNat
  | .float x => 0x09 :: bigEndian 4 x.toNat
  | .i64 x => 0x0A :: bigEndian 8 x.toNat
  | .u64 x => 0x0B :: bigEndian 8 x.toNat
  | .double x => 0x0C :: bigEndian 8 x.toNat
  | .array bs => 0x0D :: (bigEndian 4 (bs.length % 2 ^ 32) ++ bs)

/-- The calls for a value: first the pair or array, then its parts in order. -/
def calls (syms : Syms) : FV → List Put
  | .cons a d => .cons :: (calls syms a ++ calls syms d)
  | .lispArray es => .lispArray es.length :: elems es
  | .sym id => match syms.nameOf id with
    | some s => [.name s]
    | none => []
  | .byte c => [.byte c]
  | .int z => [.int z]
  | .uint n => [.uint n]
  | .i32 x => [.i32 x]
  | .u32 x => [.u32 x]
  | .float x => [.float x]
  | .i64 x => [.i64 x]
  | .u64 x => [.u64 x]
  | .double x => [.double x]
  | .array bs => [.array bs]
  | .freedArray => []
  | .other => []
where
  elems : List FV → List Put
  | [] => []
  | e :: es => calls syms e ++ elems es

/-! ## Proofs -/

theorem put_wr (b : Build) (v : Buf) (c : Put) : Wr (c.bytes b).length v (put b v c) := by
  have hw : ∀ t w, Wr 5 v (andThen (writeByte v t) fun v => writeWord v w) := fun t w => wr_then (wr_byte v t) (fun v => wr_word v w)
  have hd : ∀ t w, Wr 9 v (andThen (writeByte v t) fun v => writeDword v w) := fun t w => wr_then (wr_byte v t) (fun v => wr_dword v w)
  cases c with
  | cons => exact wr_byte v _
  | lispArray n => exact hw _ _
  | sym id => cases b <;> first | exact hw _ _ | exact hd _ _
  | name s =>
    have := wr_then (wr_byte v 0x03) (fun v => wr_bytes v (s ++ [0]))
    rw [Nat.add_comm] at this
    exact this
  | byte c => exact wr_then (wr_byte v _) (fun v => wr_byte v _)
  | int z => cases b <;> first | exact hw _ _ | exact hd _ _
  | uint n => cases b <;> first | exact hw _ _ | exact hd _ _
  | i32 x | u32 x | float x => exact hw _ _
  | i64 x | u64 x | double x => exact hd _ _
  | array bs =>
    have := wr_then (hw 0x0D (BitVec.ofNat 32 bs.length)) (fun v => wr_bytes v bs)
    simp only [Put.bytes, List.length_cons, List.length_append, bigEndian_length]
    rw [show 4 + bs.length + 1 = 5 + bs.length by omega]
    exact this

theorem put_ok (b : Build) {size : Nat} {out : List Byte} (c : Put) (h : out.length + (c.bytes b).length ≤ size) :
    put b ⟨size, out⟩ c = (⟨size, out ++ c.bytes b⟩, true) := by
  cases c with
  | cons => exact writeByte_ok h
  | lispArray n =>
    simp only [Put.bytes, List.length_cons, bigEndian_length] at h
    have e : fLispArray ⟨size, out⟩ (BitVec.ofNat 32 n) = _ := tagWord_ok (by omega)
    simp only [put, e, Put.bytes, BitVec.toNat_ofNat]
  | sym id =>
    cases b <;> simp only [Put.bytes, List.length_cons, bigEndian_length] at h
    · have e : fSym .b32 ⟨size, out⟩ id = _ := tagWord_ok (by omega)
      simp only [put, e, Put.bytes, BitVec.toNat_ofNat]
    · have e : fSym .b64 ⟨size, out⟩ id = _ := tagDword_ok (by omega)
      simp only [put, e, Put.bytes, BitVec.toNat_ofNat]
  | name s =>
    simp only [Put.bytes, List.length_cons, List.length_append, List.length_nil] at h
    simp only [put, fSymString]
    rw [writeByte_ok (by omega)]
    simp only [andThen, if_true]
    rw [writeBytes_ok (by simp; omega)]
    simp [Put.bytes]
  | byte c =>
    simp only [Put.bytes, List.length_cons, List.length_nil] at h
    simp only [put, fB]
    rw [writeByte_ok (by omega)]
    simp only [andThen, if_true]
    rw [writeByte_ok (by simp; omega)]
    simp [Put.bytes]
  | int z =>
    cases b <;> simp only [Put.bytes, List.length_cons, bigEndian_length] at h
    · have e : fI .b32 ⟨size, out⟩ z = _ := tagWord_ok (by omega)
      simp only [put, e, Put.bytes, BitVec.toNat_ofInt]; rfl
    · have e : fI .b64 ⟨size, out⟩ z = _ := tagDword_ok (by omega)
      simp only [put, e, Put.bytes, BitVec.toNat_ofInt]; rfl
  | uint n =>
    cases b <;> simp only [Put.bytes, List.length_cons, bigEndian_length] at h
    · have e : fU .b32 ⟨size, out⟩ n = _ := tagWord_ok (by omega)
      simp only [put, e, Put.bytes, BitVec.toNat_ofNat]
    · have e : fU .b64 ⟨size, out⟩ n = _ := tagDword_ok (by omega)
      simp only [put, e, Put.bytes, BitVec.toNat_ofNat]
  | i32 x | u32 x | float x =>
    simp only [Put.bytes, List.length_cons, bigEndian_length] at h
    exact tagWord_ok (by omega)
  | i64 x | u64 x | double x =>
    simp only [Put.bytes, List.length_cons, bigEndian_length] at h
    exact tagDword_ok (by omega)
  | array bs =>
    simp only [Put.bytes, List.length_cons, List.length_append, bigEndian_length] at h
    simp only [put, fLbmArray]
    rw [tagWord_ok (by omega)]
    simp only [andThen, if_true]
    rw [writeBytes_ok (by simp [bigEndian_length]; omega)]
    simp [Put.bytes]

/-- C133: no sequence of calls, whatever the answers were, writes outside of the buffer or changes what was written before. -/
theorem C133_inside (b : Build) (v : Buf) (hv : v.out.length ≤ v.size) (cs : List Put) :
    (puts b v cs).1.size = v.size ∧ (puts b v cs).1.out.length ≤ v.size ∧ v.out <+: (puts b v cs).1.out := by
  induction cs generalizing v with
  | nil => exact ⟨rfl, hv, List.prefix_refl _⟩
  | cons c cs ih =>
    have h := put_wr b v c
    obtain ⟨h1, h2, h3⟩ := ih (put b v c).1 (by rw [h.size]; exact h.safe hv)
    rw [h.size] at h1 h2
    exact ⟨h1, h2, h.app.trans h3⟩

/-- C133: all calls are answered with true exactly if the bytes of all of them fit; then the buffer holds these bytes, in order. -/
theorem C133_all (b : Build) (v : Buf) (hv : v.out.length ≤ v.size) (cs : List Put) :
    ((∀ r ∈ (puts b v cs).2, r = true) ↔ v.out.length + (cs.flatMap (Put.bytes b)).length ≤ v.size) ∧
    ((∀ r ∈ (puts b v cs).2, r = true) → (puts b v cs).1.out = v.out ++ cs.flatMap (Put.bytes b)) := by
  induction cs generalizing v with
  | nil => simpa [puts] using hv
  | cons c cs ih =>
    have hw := put_wr b v c
    by_cases hf : v.out.length + (c.bytes b).length ≤ v.size
    · have hp : put b v c = (⟨v.size, v.out ++ c.bytes b⟩, true) := put_ok b c hf
      obtain ⟨h1, h2⟩ := ih ⟨v.size, v.out ++ c.bytes b⟩ (by simpa using hf)
      simp only [puts, hp, List.mem_cons, forall_eq_or_imp, true_and, List.flatMap_cons, List.length_append] at h1 h2 ⊢
      exact ⟨h1.trans (by omega), fun h => by rw [h2 h, List.append_assoc]⟩
    · have hp : (put b v c).2 = false := by
        cases hc : (put b v c).2 with
        | false => rfl
        | true =>
          have := hw.len hc
          have := hw.safe hv
          omega
      simp only [puts, List.mem_cons, forall_eq_or_imp, hp, List.flatMap_cons, List.length_append]
      refine ⟨⟨fun h => by simp at h, fun h => by omega⟩, fun h => by simp at h⟩

theorem calls_bytes (b : Build) (syms : Syms) {n : Nat} {v : FV} (h : Serialisable b syms n v) : (calls syms v).flatMap (Put.bytes b) = ser b syms v := by
  induction h with
  | cons ha hd iha ihd => simp [calls, ser, Put.bytes, iha, ihd]
  | @lispArray n es hne hlen hes ih =>
    have key : ∀ l : List FV, (∀ e ∈ l, (calls syms e).flatMap (Put.bytes b) = ser b syms e) → (calls.elems syms l).flatMap (Put.bytes b) = ser.serElems b syms l := by
      intro l
      induction l with
      | nil => intro _; rfl
      | cons e l ihl => intro hl; simp [calls.elems, ser.serElems, hl e (by simp), ihl (fun e he => hl e (by simp [he]))]
    simp [calls, ser, Put.bytes, key es ih, Nat.mod_eq_of_lt (show es.length < 2 ^ 32 by omega)]
  | sym h1 h2 h3 => simp [calls, ser, h1, Put.bytes]
  | byte | i32 | u32 | float | i64 | u64 | double => simp [calls, ser, Put.bytes]
  | int h1 h2 => cases b <;> simp [calls, ser, Put.bytes]
  | @uint n m h1 =>
    cases b <;> simp only [payload] at h1 <;> simp only [calls, ser, Put.bytes, List.flatMap_cons, List.flatMap_nil, List.append_nil]
    · rw [Nat.mod_eq_of_lt (by omega)]
    · rw [Nat.mod_eq_of_lt (by omega)]
  | array h1 h2 => simp [calls, ser, Put.bytes, Nat.mod_eq_of_lt h2]

/-- C133: the calls for a value, in an empty buffer with enough room, all succeed; and unflattening the buffer, with anything behind what was written, gives the value. -/
theorem C133_value (b : Build) (syms : Syms) (n size b1 b2 : Nat) (v : FV) (rest : List Byte) (h : Serialisable b syms n v)
    (hroom : ((calls syms v).flatMap (Put.bytes b)).length ≤ size) (hmem : nodes v ≤ b1) :
    (∀ r ∈ (puts b ⟨size, []⟩ (calls syms v)).2, r = true) ∧
    ∃ left, unflattenValue b syms b1 b2 ((puts b ⟨size, []⟩ (calls syms v)).1.out ++ rest) = .ok v rest left := by
  obtain ⟨h1, h2⟩ := C133_all b ⟨size, []⟩ (Nat.zero_le _) (calls syms v)
  have hall := h1.2 (by simpa using hroom)
  refine ⟨hall, ?_⟩
  obtain ⟨bytes, left, e1, e2⟩ := C13_self_delimiting b syms n n b1 b2 v rest h (Nat.le_refl _) hmem
  rw [(flattenValue_ok b syms n h (Nat.le_refl _)).1] at e1
  cases e1
  rw [h2 hall, List.nil_append, calls_bytes b syms h]
  exact ⟨left, e2⟩

/-- C133: the bytes are the ones that flattening the value gives. -/
theorem C133_same (b : Build) (syms : Syms) (n maxDepth size : Nat) (v : FV) (h : Serialisable b syms n v) (hn : n ≤ maxDepth) (hroom : ((calls syms v).flatMap (Put.bytes b)).length ≤ size) :
    flattenValue b syms maxDepth v = .ok (puts b ⟨size, []⟩ (calls syms v)).1.out := by
  obtain ⟨h1, h2⟩ := C133_all b ⟨size, []⟩ (Nat.zero_le _) (calls syms v)
  rw [(flattenValue_ok b syms maxDepth h hn).1, h2 (h1.2 (by simpa using hroom)), List.nil_append, calls_bytes b syms h]

/-- C133: a symbol that is put by its identifier comes back as that symbol (`sym_id` has fewer bits than a word). -/
theorem C133_sym (b : Build) (syms : Syms) (id size b1 b2 : Nat) (rest : List Byte) (hid : id < 2 ^ payload b) (hroom : 9 ≤ size) :
    (put b ⟨size, []⟩ (.sym id)).2 = true ∧ unflattenValue b syms b1 b2 ((put b ⟨size, []⟩ (.sym id)).1.out ++ rest) = .ok (.sym id) rest b1 := by
  have hl : ((Put.sym id).bytes b).length ≤ 9 := by cases b <;> simp [Put.bytes, bigEndian_length]
  rw [put_ok b (.sym id) (by simp; omega)]
  refine ⟨rfl, ?_⟩
  have e := Val.C11_symbol b
  cases b with
  | b32 =>
    have h32 : id < 2 ^ 32 := Nat.lt_of_lt_of_le hid (by decide)
    simp only [unflattenValue, Put.bytes, List.nil_append, List.cons_append, unflat, Nat.mod_eq_of_lt h32]
    simp [extractWord_bigEndian id h32]
    rw [e, BitVec.toNat_ofNat, Nat.mod_eq_of_lt h32, Nat.mod_eq_of_lt hid]
  | b64 =>
    have h64 : id < 2 ^ 64 := Nat.lt_of_lt_of_le hid (by decide)
    simp only [unflattenValue, Put.bytes, List.nil_append, List.cons_append, unflat, Nat.mod_eq_of_lt h64]
    simp [extractDword_bigEndian id h64]
    rw [e, BitVec.toNat_ofNat, Nat.mod_eq_of_lt h64, Nat.mod_eq_of_lt hid]

/-- The buffer of the host is a live block that has room for its size. -/
def Owns (w : Nat) (live : List Mem.Block) (v : HostBuf) (k : Nat) : Prop := (v.addr, k) ∈ live ∧ v.size ≤ k * (w / 8) ∧ v.pos ≤ v.size

theorem words_cover (w n : Nat) (hw8 : 8 ≤ w) : n ≤ Mem.bytesToWords w n * (w / 8) ∧ Mem.bytesToWords w n * (w / 8) < n + w / 8 ∧ (0 < n → 1 ≤ Mem.bytesToWords w n) := by
  unfold Mem.bytesToWords
  have hpos : 0 < w / 8 := Nat.div_pos hw8 (by decide)
  generalize w / 8 = q at *
  have hdm := Nat.div_add_mod n q
  have hlt := Nat.mod_lt n hpos
  split
  · rename_i hz
    rw [hz, Nat.add_zero] at hdm
    refine ⟨by rw [Nat.add_zero, Nat.mul_comm]; omega, by rw [Nat.add_zero, Nat.mul_comm]; omega, fun hn => ?_⟩
    rcases Nat.eq_zero_or_pos (n / q) with h | h
    · rw [h] at hdm; omega
    · omega
  · exact ⟨by rw [Nat.add_mul, Nat.mul_comm (n / q)]; omega, by rw [Nat.add_mul, Nat.mul_comm (n / q)]; omega, fun _ => Nat.le_add_left _ _⟩

open Verif.Mem in
/-- C133 for the memory, at the start: the buffer is a new block of at least the size that was asked for. -/
theorem C133_start {valid w size m live n m' v} (h0 : 0 < size) (hw : size < 2 ^ w) (hw8 : 8 ≤ w) (h : Reach valid w size m live) (hn : n < 2 ^ w)
    (hs : startFlatten m n = some (m', some v)) : ∃ k, Reach valid w size m' ((v.addr, k) :: live) ∧ Owns w ((v.addr, k) :: live) v k ∧ v.size = n ∧ v.pos = 0 ∧ k * (w / 8) < n + w / 8 ∧ ∀ x ∈ live, Block.disjoint (v.addr, k) x := by
  unfold startFlatten at hs
  split at hs
  · rename_i m1 p hm
    cases hs
    have hr := Reach.mallocReserve h hn hm
    obtain ⟨hc1, hc3, -⟩ := words_cover w n hw8
    refine ⟨bytesToWords w n, hr, ⟨by simp, hc1, Nat.zero_le _⟩, rfl, rfl, hc3, ?_⟩
    · intro x hx
      have := (C01_blocks_disjoint h0 hw hr).1
      exact (List.pairwise_cons.1 this).1 x hx
  · cases hs
  · cases hs

open Verif.Mem in
/-- C133 for the memory, at the end: the answer is true; the buffer is still a live block at the same address, not larger than before, that has room for what was written; its size is the bytes that were written, up to a part of a word; the block as well if it was not larger than needed before and something was written; no other block is touched. -/
theorem C133_finish {valid w size m live v k} (h0 : 0 < size) (hw : size < 2 ^ w) (hw8 : 8 ≤ w) (h : Reach valid w size m live) (ho : Owns w live v k) :
    ∃ k' live', k' ≤ k ∧ live'.Perm ((v.addr, k') :: live.erase (v.addr, k)) ∧ Reach valid w size (finishFlatten m v).1 live' ∧
      Owns w live' (finishFlatten m v).2.1 k' ∧ (finishFlatten m v).2.1.size < v.pos + w / 8 ∧ (k * (w / 8) < v.size + w / 8 → 0 < v.pos → k' * (w / 8) < v.pos + w / 8) ∧
      (finishFlatten m v).2.1.addr = v.addr ∧ (finishFlatten m v).2.1.pos = v.pos ∧ (finishFlatten m v).2.2 = true := by
  obtain ⟨hb, hsz, hpos⟩ := ho
  have hmw : m.w = w := by obtain ⟨_, hh⟩ := reach_inv h0 hw h; exact hh.hw
  have hperm : live.Perm ((v.addr, k) :: live.erase (v.addr, k)) := List.perm_cons_erase hb
  unfold finishFlatten
  simp only [hmw]
  obtain ⟨hc1, hc3, hc2⟩ := words_cover w v.pos hw8
  by_cases hle : v.size ≤ bytesToWords w v.pos * (w / 8)
  · rw [if_pos hle]
    refine ⟨k, live, Nat.le_refl _, hperm, h, ⟨hb, hsz, hpos⟩, by simp only; omega, fun hk hp => ?_, rfl, rfl, rfl⟩
    have : k * (w / 8) < (bytesToWords w v.pos + 1) * (w / 8) := by rw [Nat.add_mul, Nat.one_mul]; omega
    have := Nat.mul_le_mul_right (w / 8) (Nat.lt_succ_iff.1 (Nat.lt_of_mul_lt_mul_right this))
    omega
  · rw [if_neg hle]
    have hlt : bytesToWords w v.pos * (w / 8) < k * (w / 8) := by omega
    have hwk : bytesToWords w v.pos < k := Nat.lt_of_mul_lt_mul_right hlt
    by_cases hz : bytesToWords w v.pos = 0
    · rw [C04_shrink_noop h0 hw h hb (Or.inl hz)]
      exact ⟨k, live, Nat.le_refl _, hperm, h, ⟨hb, by simp only; omega, hc1⟩, hc3, fun _ hp => by have := hc2 hp; omega, rfl, rfl, rfl⟩
    · obtain ⟨m', e, -, hr⟩ := C04_shrink h0 hw h hb (by omega) hwk
      rw [e]
      exact ⟨bytesToWords w v.pos, _, by omega, List.Perm.refl _, hr, ⟨by simp, Nat.le_refl _, hc1⟩, hc3, fun _ _ => hc3, rfl, rfl, rfl⟩

/-- The calls for a list with a symbol, a number and an array, on 32 bit. -/
example : ∃ left, unflattenValue .b32 exSyms 100 0 ((puts .b32 ⟨100, []⟩ (calls exSyms exVal)).1.out ++ [1, 2]) = .ok exVal [1, 2] left :=
  (C133_value .b32 exSyms 3 100 100 0 exVal [1, 2] (exVal_ser .b32) (by decide +kernel) (by decide +kernel)).2
example : ∃ m v, startFlatten (Mem.init 32 64 0) 10 = some (m, some v) := ⟨_, _, rfl⟩

end Verif.Flat
