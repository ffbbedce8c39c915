import Verif.Buf.Lemmas

/-!
# Properties of byte buffers: C45, C46
-/

namespace Verif.Buf

open Verif.Val (Build payload)
open Verif.Arith

variable {b : Build} {F : FOps} {le : Nat}

theorem Elem.n_eq (e : Elem) : e.n = e.width := by cases e <;> rfl
theorem Elem.n_bd (e : Elem) : 1 ≤ e.n ∧ e.n ≤ 4 := by cases e <;> decide

theorem index_eq {i : Num b} (hi : i.ty.int = true) {idx : Nat} (hv : i.val = idx) (hs : idx < 2 ^ 32) :
    (decAsU32 F (.num i)).setWidth b.w = BitVec.ofNat b.w idx := by
  rw [decAsU32_eq F i hi, hv]
  apply BitVec.eq_of_toNat_eq
  rw [BitVec.ofInt_natCast, BitVec.toNat_setWidth, BitVec.toNat_ofNat, BitVec.toNat_ofNat, Nat.mod_eq_of_lt hs]

theorem dec_eq (e : Elem) {x : Num b} (hx : x.ty.int = true) : (e.dec F (.num x)).setWidth 32 = BitVec.ofInt 32 x.val := by
  have hw : 32 ≤ b.w := by rcases w_cases b with h | h <;> omega
  have h1 := decAsI32_eq F x hx
  have h2 := decAsU32_eq F x hx
  cases e <;> simp only [Elem.dec, h1, h2]
  all_goals
    first
    | rw [BitVec.setWidth_setWidth_of_le _ hw, BitVec.setWidth_eq]
    | rw [setWidth_toInt hw, BitVec.toInt_signExtend_of_le hw, ← ofInt_eq_of_toInt]

theorem order_append {m : Mem} {a i x : Arg b} {ord : List (Arg b)} {be : Bool} (h : Order le ord be) :
    decodeAppend F le m (a :: i :: x :: ord) = decodeAppend.go F m a i x be := by
  rcases h with ⟨rfl, rfl⟩ | ⟨e, rfl, he⟩
  · rfl
  · simp only [decodeAppend]
    congr 1
    cases e with
    | arr => simp only [isLE]; cases be <;> simp at he ⊢
    | v v =>
      cases v with
      | sym n => simp only [isLE]; simp only [Arg.v.injEq, V.sym.injEq] at he; cases be <;> simp at he ⊢ <;> omega
      | _ => simp only [isLE]; cases be <;> simp at he ⊢

theorem order_get {m : Mem} {a i : Arg b} {ord : List (Arg b)} {be : Bool} (h : Order le ord be) :
    decodeGet F le m (a :: i :: ord) = decodeGet.go F m a i be := by
  rcases h with ⟨rfl, rfl⟩ | ⟨e, rfl, he⟩
  · rfl
  · simp only [decodeGet]
    congr 1
    cases e with
    | arr => simp only [isLE]; cases be <;> simp at he ⊢
    | v v =>
      cases v with
      | sym n => simp only [isLE]; simp only [Arg.v.injEq, V.sym.injEq] at he; cases be <;> simp at he ⊢ <;> omega
      | _ => simp only [isLE]; cases be <;> simp at he ⊢

theorem enc_reads {e : Elem} {x : BitVec b.w} {z : Int} (hx : (x.toNat : Int) = z % 2 ^ (8 * e.n)) (hfit : e = .i32 → InRange b .i (e.wrap z)) :
    Reads e z (e.enc true x) := by
  have hw : 32 ≤ b.w := by rcases w_cases b with h | h <;> omega
  have key : ∀ k : Nat, k = 8 * e.n → x.setWidth k = BitVec.ofInt k z := by
    intro k hk
    apply BitVec.eq_of_toNat_eq
    have h1 := toNat_ofInt' k z
    have h2 : (x.setWidth k).toNat = x.toNat % 2 ^ k := BitVec.toNat_setWidth ..
    rw [h2]
    have : ((x.toNat % 2 ^ k : Nat) : Int) = z % 2 ^ k := by
      rw [Int.natCast_emod, hx, hk, Int.natCast_pow]; exact Int.emod_emod_of_dvd _ (Int.dvd_refl _)
    omega
  have fits : ∀ z' : Int, z' = e.wrap z → InRange b .i z' → Reads e z (.num (encI (BitVec.ofInt b.w z')) : V b) ∨ e = .u32 := by
    intro z' hz' hr
    by_cases hu : e = .u32
    · exact .inr hu
    · refine .inl ⟨ofZ b .i z', by rw [encI_ofInt], ?_, ?_⟩
      · rw [(ofZ_is (b := b) (t := .i) rfl z').2, hz']
        simp only [wrap, Ty.signed, if_true, Ty.bits]
        rw [hz'] at hr
        simp only [InRange, Ty.signed, if_true, Ty.bits] at hr
        rw [Int.bmod_eq_of_le]
        · cases b <;> simp [payload] at hr ⊢ <;> omega
        · cases b <;> simp [payload] at hr ⊢ <;> omega
      · rw [ofZ_ty, if_neg hu]
  cases e
  case i8 =>
    have h := key 8 rfl
    have hb := Int.bmod_lt (x := z) (m := 256) (by omega)
    have hb2 := Int.le_bmod (x := z) (m := 256) (by omega)
    rcases fits (Int.bmod z (2 ^ 8)) rfl (by cases b <;> simp [InRange, Ty.signed, Ty.bits, payload] <;> omega) with h' | h'
    · simp only [Elem.enc, h]
      rwa [ofInt_toInt_se, BitVec.toInt_ofInt]
    · cases h'
  case i16 =>
    have h := key 16 rfl
    have hb := Int.bmod_lt (x := z) (m := 65536) (by omega)
    have hb2 := Int.le_bmod (x := z) (m := 65536) (by omega)
    rcases fits (Int.bmod z (2 ^ 16)) rfl (by cases b <;> simp [InRange, Ty.signed, Ty.bits, payload] <;> omega) with h' | h'
    · simp only [Elem.enc, h]
      rwa [ofInt_toInt_se, BitVec.toInt_ofInt]
    · cases h'
  case i32 =>
    have h := key 32 rfl
    rcases fits (Int.bmod z (2 ^ 32)) rfl (hfit rfl) with h' | h'
    · simp only [Elem.enc, h]
      rwa [ofInt_toInt_se, BitVec.toInt_ofInt]
    · cases h'
  case u8 =>
    have h := key 8 rfl
    rcases fits (z % 2 ^ 8) rfl (by cases b <;> simp [InRange, Ty.signed, Ty.bits, payload] <;> omega) with h' | h'
    · simp only [Elem.enc, h]
      rwa [ofInt_toNat_sw, toNat_ofInt']
    · cases h'
  case u16 =>
    have h := key 16 rfl
    rcases fits (z % 2 ^ 16) rfl (by cases b <;> simp [InRange, Ty.signed, Ty.bits, payload] <;> omega) with h' | h'
    · simp only [Elem.enc, h]
      rwa [ofInt_toNat_sw, toNat_ofInt']
    · cases h'
  case u24 =>
    rcases fits (z % 2 ^ 24) rfl (by cases b <;> simp [InRange, Ty.signed, Ty.bits, payload] <;> omega) with h' | h'
    · simp only [Elem.enc]
      have h1 : (x.setWidth 32).toInt = z % 2 ^ 24 := by
        rw [BitVec.toInt_eq_toNat_cond, BitVec.toNat_setWidth]
        simp only [Elem.n, Nat.reduceMul] at hx
        rw [Nat.mod_eq_of_lt (by omega), if_pos (by omega), hx]
      rwa [ofInt_toInt_se, h1]
    · cases h'
  case u32 =>
    have h := key 32 rfl
    refine ⟨.u32 (x.setWidth 32), by simp only [Elem.enc, enc_ok], ?_, rfl⟩
    simp only [Num.val, h]
    rw [toNat_ofInt']; rfl

/-! ## C45: typed accesses -/

/-- `(bufset-x array index value [byte-order])` with an index inside of the array: the bytes of the value are stored in the given order, and
nothing else changes. The index is any integer below 2^32, the value any integer. -/
theorem C45_set (e : Elem) {m : Mem} {id : Nat} {d : List Byte} (hm : m id = some d) (hd : d.length < 2 ^ b.w) {i x : Num b} (hi : i.ty.int = true)
    (hx : x.ty.int = true) {idx : Nat} (hidx : i.val = idx) (h32 : idx < 2 ^ 32) (hin : idx + e.width ≤ d.length) {ord : List (Arg b)} {be : Bool}
    (hord : Order le ord be) :
    ∃ m' d', bufset F le e m (.arr id false :: .v (.num i) :: .v (.num x) :: ord) = .ret m' (.sym symTRUE) ∧ OnlyArr m m' id ∧ m' id = some d' ∧
      SameElse d d' idx e.width ∧ Holds d' idx e.width be x.val := by
  rw [← Elem.n_eq] at *
  obtain ⟨d', h1, h2, h3⟩ := append_ok (b := b) (be := be) (v := e.dec F (.num x)) e.n_bd hd hin (dec_eq e hx)
  refine ⟨m.set id d', d', ?_, fun j hj => by simp [Mem.set, hj], by simp [Mem.set], h3, h2⟩
  simp only [bufset, order_append hord, decodeAppend.go, rw, hm, Option.map_some, Arg.isNumber, V.isNumber, Arg.val, Bool.and_self, if_true,
    index_eq hi hidx h32, h1]

/-- `(bufget-x array index [byte-order])` where the array holds the bytes of `z`: the result is `z` reduced to the width of the element. An `i32` has to fit
in an integer value (28 bits on 32-bit builds). The memory does not change. -/
theorem C45_get_partial (e : Elem) {m : Mem} {id : Nat} {d : List Byte} (hm : m id = some d) (hd : d.length < 2 ^ b.w) {i : Num b} (hi : i.ty.int = true)
    {idx : Nat} (hidx : i.val = idx) (h32 : idx < 2 ^ 32) {ord : List (Arg b)} {be : Bool} (hord : Order le ord be) {z : Int} (h : Holds d idx e.width be z)
    (hfit : e = .i32 → InRange b .i (e.wrap z)) (const : Bool) :
    ∃ r, bufget F le true e m (.arr id const :: .v (.num i) :: ord) = .ret m r ∧ Reads e z r := by
  rw [← Elem.n_eq] at *
  obtain ⟨x, h1, h2⟩ := get_ok (b := b) e.n_bd hd h
  refine ⟨e.enc true x, ?_, enc_reads h2 hfit⟩
  simp only [bufget, order_get hord, decodeGet.go, rd, hm, Arg.isNumber, V.isNumber, Arg.val, if_true, index_eq hi hidx h32, h1]

/-- What is written can be read back. -/
theorem C45_roundtrip_partial (e : Elem) {m : Mem} {id : Nat} {d : List Byte} (hm : m id = some d) (hd : d.length < 2 ^ b.w) {i x : Num b} (hi : i.ty.int = true)
    (hx : x.ty.int = true) {idx : Nat} (hidx : i.val = idx) (h32 : idx < 2 ^ 32) (hin : idx + e.width ≤ d.length) {ord : List (Arg b)} {be : Bool}
    (hord : Order le ord be) (hfit : e = .i32 → InRange b .i (e.wrap x.val)) :
    ∃ m' r, bufset F le e m (.arr id false :: .v (.num i) :: .v (.num x) :: ord) = .ret m' (.sym symTRUE) ∧
      bufget F le true e m' (.arr id false :: .v (.num i) :: ord) = .ret m' r ∧ Reads e x.val r := by
  obtain ⟨m', d', h1, _, h3, h4, h5⟩ := C45_set (F := F) e hm hd hi hx hidx h32 hin hord
  obtain ⟨r, h6, h7⟩ := C45_get_partial (F := F) e h3 (by rw [h4.1]; exact hd) hi hidx h32 hord h5 hfit false
  exact ⟨m', r, h1, h6, h7⟩

theorem last_out {d : List Byte} {idx n : Nat} (hn : 1 ≤ n ∧ n ≤ 4) (h32 : idx < 2 ^ 32) (hout : d.length < idx + n) (hwrap : b = .b32 → idx + n ≤ 2 ^ 32) :
    ¬ (BitVec.ofNat b.w idx + BitVec.ofNat b.w (n - 1)).toNat < d.length := by
  simp only [BitVec.toNat_add, BitVec.toNat_ofNat, Nat.add_mod_mod, Nat.mod_add_mod]
  cases b with
  | b32 =>
    have := hwrap rfl
    simp only [Build.w]
    rw [Nat.mod_eq_of_lt (by omega)]; omega
  | b64 =>
    simp only [Build.w]
    rw [Nat.mod_eq_of_lt (by omega)]; omega

/-- An index outside of the array (below 2^32) is rejected and nothing changes. Partial: on 32-bit builds the access must not extend beyond the end of the address
space. -/
theorem C45_outside_partial (e : Elem) {m : Mem} {id : Nat} {d : List Byte} (hm : m id = some d) {i x : Num b} (hi : i.ty.int = true)
    {idx : Nat} (hidx : i.val = idx) (h32 : idx < 2 ^ 32) (hout : d.length < idx + e.width) (hwrap : b = .b32 → idx + e.width ≤ 2 ^ 32) {ord : List (Arg b)} {be : Bool}
    (hord : Order le ord be) (ok : Bool) :
    bufset F le e m (.arr id false :: .v (.num i) :: .v (.num x) :: ord) = .ret m (.sym symEERROR) ∧
      bufget F le ok e m (.arr id false :: .v (.num i) :: ord) = .ret m (.sym symEERROR) := by
  rw [← Elem.n_eq] at *
  have := last_out (b := b) e.n_bd h32 hout hwrap
  constructor
  · simp only [bufset, order_append hord, decodeAppend.go, rw, hm, Option.map_some, Arg.isNumber, V.isNumber, Arg.val, Bool.and_self, if_true,
      index_eq hi hidx h32, appendBytes, if_neg this]
  · simp only [bufget, order_get hord, decodeGet.go, rd, hm, Arg.isNumber, V.isNumber, Arg.val, if_true, index_eq hi hidx h32, getUint, if_neg this]

/-- Writes to an array that has been freed or is in constant memory are rejected. -/
theorem C45_not_writable (e : Elem) {m : Mem} {a : Arg b} (ha : ∀ id d, a = .arr id false → m id ≠ some d) (args : List (Arg b)) :
    ∃ err, bufset F le e m (a :: args) = .ret m (.sym err) ∧ (err = symTERROR ∨ err = symEERROR) := by
  have hrw : rw m a = none := by
    cases a with
    | v => rfl
    | arr id c =>
      cases c
      · simp only [rw]
        cases hm : m id with
        | none => rfl
        | some d => exact absurd hm (ha id d rfl)
      · rfl
  match args with
  | [] => exact ⟨_, rfl, .inr rfl⟩
  | [_] => exact ⟨_, rfl, .inr rfl⟩
  | [_, _] => exact ⟨symTERROR, by simp [bufset, decodeAppend, decodeAppend.go, hrw], .inl rfl⟩
  | [_, _, _] => exact ⟨symTERROR, by simp [bufset, decodeAppend, decodeAppend.go, hrw], .inl rfl⟩
  | _ :: _ :: _ :: _ :: _ => exact ⟨_, rfl, .inr rfl⟩

/-- Example: `(bufset-i16 a 1 -2)` on a buffer of four bytes. -/
example : ∃ m' r, bufset noFp 99 .i16 (fun _ => some [0, 0, 0, 0]) [.arr 0 false, .v (.num (.i 1)), .v (.num (.i (-2) : Num .b32))] =
      .ret m' (.sym symTRUE) ∧ bufget noFp 99 true .i16 m' [.arr 0 false, .v (.num (.i 1))] = .ret m' r ∧ Reads (b := .b32) .i16 (-2) r :=
  C45_roundtrip_partial (b := .b32) .i16 (d := [0, 0, 0, 0]) (idx := 1) (be := true) (x := .i (-2 : BitVec 28)) rfl (by decide) rfl rfl rfl (by decide) (by decide) (.inl ⟨rfl, rfl⟩)
    (by decide)

/-- Not true of the code: on 32-bit builds an access of two or four bytes at the index -1 passes the test for the bounds and goes outside of the buffer. -/
theorem C45_wrap_violated (d : List Byte) (hd : 1 ≤ d.length) (hd2 : d.length < 2 ^ 32 - 1) (x : Num .b32) :
    bufset F le .i16 (fun _ => some d) [.arr 0 false, .v (.num (.i (-1) : Num .b32)), .v (.num x)] = .ub := by
  have h1 : (decAsU32 F (.num (.i (-1)) : V .b32)).setWidth Build.b32.w = BitVec.ofNat 32 (2 ^ 32 - 1) := by
    rw [decAsU32_eq F _ rfl]; decide
  simp only [bufset, decodeAppend, decodeAppend.go, rw, Option.map_some, Arg.isNumber, V.isNumber, Arg.val, Bool.and_self, if_true, h1, appendBytes, Elem.n]
  have h2 : (BitVec.ofNat 32 (2 ^ 32 - 1) + BitVec.ofNat Build.b32.w (2 - 1)).toNat = 0 := by decide
  have h3 : (BitVec.ofNat 32 (2 ^ 32 - 1) + 1).toNat = 0 := by decide
  have h4 : (BitVec.ofNat 32 (2 ^ 32 - 1)).toNat = 2 ^ 32 - 1 := by decide
  rw [h2]
  simp only [put]
  rw [h3, h4]
  have : ¬ (2 ^ 32 - 1 < d.length) := by omega
  simp only [show 0 < d.length by omega, if_true, Option.bind_some, List.length_set]
  rw [if_neg this]
  rfl

/-- Not true of the code: the index is reduced modulo 2^32, so an index of 2^32 is accepted as 0. -/
theorem C45_index_violated : ∃ m', bufset F le .u8 (fun _ => some [0]) [.arr 0 false, .v (.num (.i64 (4294967296 : BitVec 64))), .v (.num (.i (7 : BitVec (payload b))))] =
    .ret m' (.sym symTRUE) ∧ m' 0 = some [7] := by
  cases b
  · exact ⟨_, rfl, by simp only [Mem.set, if_true]; rfl⟩
  · exact ⟨_, rfl, by simp only [Mem.set, if_true]; rfl⟩

/-- Not true of the code: on 32-bit builds an `i32` element of 2^27 or more cannot be read back. -/
theorem C45_i32_violated : bufget F le true .i32 (fun _ => some [8, 0, 0, 0]) [.arr 0 false, .v (.num (.i 0 : Num .b32))] =
    .ret (fun _ => some [8, 0, 0, 0]) (.num (.i (-134217728))) ∧ Holds [8, 0, 0, 0] 0 4 true 134217728 := by
  refine ⟨rfl, fun k hk => ?_⟩
  have : k = 0 ∨ k = 1 ∨ k = 2 ∨ k = 3 := by omega
  rcases this with rfl | rfl | rfl | rfl <;> decide

theorem sizes_set {m : Mem} {id : Nat} {d d' : List Byte} (hm : m id = some d) (h : d'.length = d.length) : SameSizes m (m.set id d') := by
  intro i
  by_cases hi : i = id
  · subst hi; simp [Mem.set, hm, h]
  · simp [Mem.set, hi]

theorem rw_some {m : Mem} {a : Arg b} {id : Nat} {d : List Byte} (h : rw m a = some (id, d)) : m id = some d := by
  cases a with
  | v => cases h
  | arr j c =>
    cases c
    · simp only [rw] at h
      cases hm : m j with
      | none => rw [hm] at h; cases h
      | some x => rw [hm] at h; cases h; exact hm
    · cases h

/-- Whatever the arguments are, on 64-bit builds a write never leaves the buffers and keeps their sizes. -/
theorem C45_set_safe_partial (e : Elem) {m : Mem} (hm : ∀ id d, m id = some d → d.length < 2 ^ 64) (args : List (Arg .b64)) :
    ∃ m' r, bufset F le e m args = .ret m' r ∧ SameSizes m m' := by
  simp only [bufset]
  have hdec : ∀ x, decodeAppend F le m args = .inl x → m x.1 = some x.2.1 ∧ x.2.2.1.toNat < 2 ^ 32 := by
    intro x hx
    have hgo : ∀ a i v be, decodeAppend.go F m a i v be = .inl x → m x.1 = some x.2.1 ∧ x.2.2.1.toNat < 2 ^ 32 := by
      intro a i v be h
      unfold decodeAppend.go at h
      split at h
      · rename_i id d hrw
        split at h
        · cases h
          refine ⟨rw_some hrw, ?_⟩
          simp only [BitVec.toNat_setWidth]
          have := (decAsU32 F i.val).isLt
          exact Nat.lt_of_le_of_lt (Nat.mod_le _ _) this
        · cases h
      · cases h
    unfold decodeAppend at hx
    split at hx
    · exact hgo _ _ _ _ hx
    · exact hgo _ _ _ _ hx
    · cases hx
  cases hd : decodeAppend F le m args with
  | inr err => exact ⟨m, _, rfl, fun _ => rfl⟩
  | inl x =>
    obtain ⟨id, d, index, be, x⟩ := x
    obtain ⟨h1, h2⟩ := hdec _ hd
    simp only at h1 h2 ⊢
    by_cases hin : index.toNat + e.n ≤ d.length
    · obtain ⟨d', h3, _, h5⟩ := append_ok (b := .b64) (be := be) (idx := index.toNat) (v := e.dec F x.val) (z := ((e.dec F x.val).setWidth 32).toInt) e.n_bd (hm _ _ h1) hin
        (by rw [BitVec.ofInt_toInt])
      rw [BitVec.ofNat_toNat, BitVec.setWidth_eq] at h3
      rw [h3]
      exact ⟨_, _, rfl, sizes_set h1 h5.1⟩
    · have := last_out (b := .b64) (d := d) e.n_bd h2 (by omega) (by intro h; cases h)
      rw [BitVec.ofNat_toNat, BitVec.setWidth_eq] at this
      simp only [appendBytes, if_neg this]
      exact ⟨m, _, rfl, fun _ => rfl⟩

/-! ## C46: operations on regions of a buffer -/

theorem memset_ok {d : List Byte} {st len : Nat} {c : Byte} (h : st + len ≤ d.length) : ∃ d', memset d st c len = some d' ∧ Filled d d' st len c := by
  refine ⟨_, if_pos h, ⟨?_, ?_⟩, ?_⟩
  · simp; omega
  · intro j hj
    rw [List.append_assoc]
    rcases hj with hj | hj
    · rw [List.getElem?_append_left (by simp; omega), List.getElem?_take, if_pos hj]
    · rw [List.getElem?_append_right (by simp; omega), List.getElem?_append_right (by simp; omega), List.getElem?_drop]
      congr 1; simp; omega
  · intro k hk
    rw [List.append_assoc, List.getElem?_append_right (by simp; omega), List.getElem?_append_left (by simp; omega), List.getElem?_replicate, if_pos (by simp; omega)]

theorem memcpy_ok {d s : List Byte} {i j len : Nat} {same : Bool} (h : i + len ≤ d.length ∧ j + len ≤ s.length) (hs : same = true → i + len ≤ j ∨ j + len ≤ i ∨ len = 0) :
    ∃ d', memcpy d i s j len same = some d' ∧ Copied d d' i s j len := by
  have hno : ¬ (same && decide (i < j + len) && decide (j < i + len)) = true := by
    cases same with
    | false => simp
    | true =>
      rcases hs rfl with h' | h' | h' <;> simp <;> omega
  refine ⟨_, by unfold memcpy; rw [if_pos h, if_neg hno], ⟨?_, ?_⟩, ?_⟩
  · simp; omega
  · intro k hk
    rw [List.append_assoc]
    rcases hk with hk | hk
    · rw [List.getElem?_append_left (by simp; omega), List.getElem?_take, if_pos hk]
    · rw [List.getElem?_append_right (by simp; omega), List.getElem?_append_right (by simp; omega), List.getElem?_drop]
      congr 1; simp; omega
  · intro k hk
    rw [List.append_assoc, List.getElem?_append_right (by simp; omega), List.getElem?_append_left (by simp; omega), List.getElem?_take, if_pos (by simp; omega), List.getElem?_drop]
    congr 1; simp; omega

theorem offset_eq {x : Num b} (hx : x.ty.int = true) : (decAsU32 F (.num x)).toNat = asOffset x.val := by
  rw [decAsU32_eq F x hx]
  have := toNat_ofInt' 32 x.val
  simp only [asOffset]
  omega

theorem asOffset_lt (z : Int) : asOffset z < 2 ^ 32 := by simp only [asOffset]; omega

theorem clear_byte {x : Num b} (hx : x.ty.int = true) : (decAsU32 F (.num x)).setWidth 8 = BitVec.ofInt 8 x.val := by
  rw [decAsU32_eq F x hx, setWidth_ofInt (by omega)]

theorem sub32 {n s : Nat} (hn : n < 2 ^ 32) (hs : s ≤ n) {v : BitVec 32} (hv : v.toNat = s) : (BitVec.ofNat 32 n - v).toNat = n - s := by
  rw [BitVec.toNat_sub, BitVec.toNat_ofNat, hv]; omega

/-- `(bufclear array [byte [start [len]]])` with integer arguments and a start inside of the buffer: exactly the bytes from `start` on, `len` of them but not
beyond the end of the buffer (all up to the end by default), are set to the low byte of `byte`. Negative numbers are read as large ones. Partial: the buffer has less than
2^32 bytes. -/
theorem C46_bufclear_partial {m : Mem} {id : Nat} {d : List Byte} (hm : m id = some d) (hd : d.length < 2 ^ 32) {args : List (Arg b)} {c : Int} {st len : Option Int}
    (ha : ClearArgs args c st len) (hst : ∀ s, st = some s → asOffset s < d.length) :
    ∃ m' d', bufclear F m (.arr id false :: args) = .ret m' (.sym symTRUE) ∧ OnlyArr m m' id ∧ m' id = some d' ∧
      Filled d d' (asOffset (st.getD 0)) (match len with
        | none => d.length - asOffset (st.getD 0)
        | some l => min (asOffset l) (d.length - asOffset (st.getD 0))) (BitVec.ofInt 8 c) := by
  cases ha with
  | none =>
    obtain ⟨d', h1, h2⟩ := memset_ok (d := d) (st := 0) (len := d.length) (c := 0) (by omega)
    refine ⟨m.set id d', d', ?_, fun j hj => by simp [Mem.set, hj], by simp [Mem.set], h2⟩
    have : (BitVec.ofNat 32 d.length - 0).toNat = d.length := by rw [sub32 hd (Nat.zero_le _) rfl]; rfl
    simp only [bufclear, List.length_cons, List.length_nil, List.getElem?_cons_zero, Option.bind_some, rw, hm, Option.map_some, optNum, List.getElem?_cons_succ,
      List.getElem?_nil, Option.all_none, if_true, Option.getD_none, this]
    simp only [Nat.reduceAdd, Nat.reduceLeDiff, and_self, if_true]
    rw [show ((0 : BitVec 32).toNat) = 0 from rfl, show ((0 : BitVec 32).setWidth 8) = 0 from rfl, h1]
  | @byte x hc =>
    obtain ⟨d', h1, h2⟩ := memset_ok (d := d) (st := 0) (len := d.length) (c := BitVec.ofInt 8 x.val) (by omega)
    refine ⟨m.set id d', d', ?_, fun j hj => by simp [Mem.set, hj], by simp [Mem.set], h2⟩
    have : (BitVec.ofNat 32 d.length - 0).toNat = d.length := by rw [sub32 hd (Nat.zero_le _) rfl]; rfl
    simp only [bufclear, List.length_cons, List.length_nil, List.getElem?_cons_zero, Option.bind_some, rw, hm, Option.map_some, optNum, List.getElem?_cons_succ,
      List.getElem?_nil, Option.all_none, if_true, Option.getD_none, this, Arg.isNumber, V.isNumber, Arg.val, Option.getD_some, clear_byte hc]
    simp only [Nat.reduceAdd, Nat.reduceLeDiff, and_self, if_true]
    rw [show ((0 : BitVec 32).toNat) = 0 from rfl, h1]
  | @start x s hc hs =>
    have hs' := hst _ rfl
    obtain ⟨d', h1, h2⟩ := memset_ok (d := d) (st := asOffset s.val) (len := d.length - asOffset s.val) (c := BitVec.ofInt 8 x.val) (by omega)
    refine ⟨m.set id d', d', ?_, fun j hj => by simp [Mem.set, hj], by simp [Mem.set], h2⟩
    have h3 := sub32 hd (Nat.le_of_lt hs') (offset_eq (F := F) hs)
    simp only [bufclear, List.length_cons, List.length_nil, List.getElem?_cons_zero, Option.bind_some, rw, hm, Option.map_some, optNum, List.getElem?_cons_succ,
      List.getElem?_nil, Option.all_some, if_true, Arg.isNumber, V.isNumber, Arg.val, Option.getD_some, clear_byte hc, offset_eq hs, h3, decide_eq_true hs']
    simp only [Nat.reduceAdd, Nat.reduceLeDiff, and_self, if_true]
    rw [h1]
  | @len x s l hc hs hl =>
    have hs' := hst _ rfl
    obtain ⟨d', h1, h2⟩ := memset_ok (d := d) (st := asOffset s.val) (len := min (asOffset l.val) (d.length - asOffset s.val)) (c := BitVec.ofInt 8 x.val) (by omega)
    refine ⟨m.set id d', d', ?_, fun j hj => by simp [Mem.set, hj], by simp [Mem.set], h2⟩
    have h3 := sub32 hd (Nat.le_of_lt hs') (offset_eq (F := F) hs)
    have h4 : (if (decAsU32 F (.num l)).toNat ≤ (BitVec.ofNat 32 d.length - decAsU32 F (.num s)).toNat then decAsU32 F (.num l) else
        BitVec.ofNat 32 d.length - decAsU32 F (.num s)).toNat = min (asOffset l.val) (d.length - asOffset s.val) := by
      rw [h3, offset_eq hl]
      split <;> simp only [offset_eq hl, h3] <;> omega
    simp only [bufclear, List.length_cons, List.length_nil, List.getElem?_cons_zero, Option.bind_some, rw, hm, Option.map_some, optNum, List.getElem?_cons_succ,
      List.getElem?_nil, Option.all_some, if_true, Arg.isNumber, V.isNumber, Arg.val, Option.getD_some, clear_byte hc, offset_eq hs, decide_eq_true hs', h4]
    simp only [Nat.reduceAdd, Nat.reduceLeDiff, and_self, if_true]
    rw [h1]

/-- A start outside of the buffer is rejected. -/
theorem C46_bufclear_outside {m : Mem} {id : Nat} {d : List Byte} (hm : m id = some d) {args : List (Arg b)} {c s : Int} {len : Option Int}
    (ha : ClearArgs args c (some s) len) (hs : d.length ≤ asOffset s) : bufclear F m (.arr id false :: args) = .ret m (.sym symTERROR) := by
  cases ha with
  | @start x s hc hs' =>
    simp [bufclear, rw, hm, optNum, Arg.isNumber, V.isNumber, Arg.val, offset_eq hs', hs]
    intro h; omega
  | @len x s l hc hs' hl =>
    simp [bufclear, rw, hm, optNum, Arg.isNumber, V.isNumber, Arg.val, offset_eq hs', hs]
    intro h; omega

/-- Whatever the arguments are, `bufclear` never leaves the buffers and keeps their sizes. Partial: the buffers have less than 2^32 bytes. -/
theorem C46_bufclear_safe_partial {m : Mem} (hm : ∀ id d, m id = some d → d.length < 2 ^ 32) (args : List (Arg b)) :
    ∃ m' r, bufclear F m args = .ret m' r ∧ SameSizes m m' := by
  unfold bufclear
  split
  case isFalse => exact ⟨_, _, rfl, fun _ => rfl⟩
  split
  · exact ⟨_, _, rfl, fun _ => rfl⟩
  rename_i id d h0
  have hid : m id = some d := by
    cases ha : args[0]? with
    | none => rw [ha] at h0; cases h0
    | some a => rw [ha] at h0; exact rw_some h0
  have hlt := hm _ _ hid
  split
  · exact ⟨_, _, rfl, fun _ => rfl⟩
  rename_i c _
  extract_lets byte
  split
  · exact ⟨_, _, rfl, fun _ => rfl⟩
  rename_i st _
  split
  case isFalse => exact ⟨_, _, rfl, fun _ => rfl⟩
  rename_i hst
  extract_lets start len
  have hs : start.toNat ≤ d.length := by
    cases st with
    | none => exact Nat.zero_le _
    | some s => exact Nat.le_of_lt (of_decide_eq_true hst)
  have hl : len.toNat = d.length - start.toNat := sub32 hlt hs rfl
  split
  · exact ⟨_, _, rfl, fun _ => rfl⟩
  rename_i l _
  extract_lets len2
  have hl2 : len2.toNat ≤ d.length - start.toNat := by
    cases l with
    | none => exact Nat.le_of_eq hl
    | some l =>
      show (if l.toNat ≤ len.toNat then l else len).toNat ≤ _
      split <;> omega
  obtain ⟨d', h1, h2⟩ := memset_ok (d := d) (st := start.toNat) (len := len2.toNat) (c := byte) (by omega)
  rw [h1]
  exact ⟨_, _, rfl, sizes_set hid h2.1.1⟩

/-- Not true of the code: on 64-bit builds the size of the buffer is reduced modulo 2^32; nothing is cleared in a buffer of 2^32 bytes. -/
theorem C46_bufclear_violated {m : Mem} {id : Nat} {d : List Byte} (hm : m id = some d) (hd : d.length = 2 ^ 32) :
    ∃ m', bufclear F m [.arr (b := .b64) id false] = .ret m' (.sym symTRUE) ∧ m' id = some d := by
  refine ⟨m.set id d, ?_, by simp [Mem.set]⟩
  have : (BitVec.ofNat 32 (2 ^ 32) - 0 : BitVec 32).toNat = 0 := by decide
  simp only [bufclear, List.length_cons, List.length_nil, List.getElem?_cons_zero, Option.bind_some, rw, hm, Option.map_some, optNum, List.getElem?_cons_succ,
      List.getElem?_nil, Option.all_none, if_true, Option.getD_none, hd, this]
  simp [memset]

/-- `(bufcpy dest start1 source start2 len)` with offsets inside of the two buffers: `len` bytes, but not beyond the end of either buffer, are copied; nothing else changes.
Partial: the two regions do not overlap within one buffer. -/
theorem C46_bufcpy_partial {m : Mem} {id1 id2 : Nat} {const : Bool} {d s : List Byte} (hd : m id1 = some d) (hs : m id2 = some s) {i j l : Num b} (hi : i.ty.int = true)
    (hj : j.ty.int = true) (hl : l.ty.int = true) (hi' : asOffset i.val < d.length) (hj' : asOffset j.val < s.length) {n : Nat}
    (hn : n = min (asOffset l.val) (min (d.length - asOffset i.val) (s.length - asOffset j.val)))
    (hov : id1 = id2 → asOffset i.val + n ≤ asOffset j.val ∨ asOffset j.val + n ≤ asOffset i.val) :
    ∃ m' d', bufcpy F m [.arr id1 false, .v (.num i), .arr id2 const, .v (.num j), .v (.num l)] = .ret m' (.sym symTRUE) ∧ OnlyArr m m' id1 ∧ m' id1 = some d' ∧
      Copied d d' (asOffset i.val) s (asOffset j.val) n := by
  obtain ⟨d', h1, h2⟩ := memcpy_ok (d := d) (s := s) (i := asOffset i.val) (j := asOffset j.val) (len := n) (same := decide (id2 = id1)) (by omega)
    (fun h => by
      have := hov (of_decide_eq_true h).symm
      omega)
  refine ⟨m.set id1 d', d', ?_, fun j hj => by simp [Mem.set, hj], by simp [Mem.set], h2⟩
  have e1 := offset_eq (F := F) hi
  have e2 := offset_eq (F := F) hj
  have e3 := offset_eq (F := F) hl
  have b3 := asOffset_lt l.val
  have hrd : rd m (.arr id2 const : Arg b) = some s := by simp only [rd, hs]
  simp only [bufcpy, rw, hd, hrd, Option.map_some, Arg.isNumber, V.isNumber, Bool.and_self, if_true, Arg.val, e1, e2, hi', hj', and_self, e3]
  have a1 : (if d.length - asOffset i.val < asOffset l.val then BitVec.ofNat 32 d.length - decAsU32 F (.num i) else decAsU32 F (.num l)).toNat =
      min (asOffset l.val) (d.length - asOffset i.val) := by
    split
    · rw [BitVec.toNat_sub, BitVec.toNat_ofNat, e1]; omega
    · rw [e3]; omega
  generalize (if d.length - asOffset i.val < asOffset l.val then BitVec.ofNat 32 d.length - decAsU32 F (.num i) else decAsU32 F (.num l)) = t at *
  have a2 : (if s.length - asOffset j.val < t.toNat then BitVec.ofNat 32 s.length - decAsU32 F (.num j) else t).toNat = n := by
    split
    · rw [BitVec.toNat_sub, BitVec.toNat_ofNat, e2]; omega
    · omega
  rw [a2, h1]

/-- With an offset outside of its buffer nothing is copied. -/
theorem C46_bufcpy_outside {m : Mem} {id1 id2 : Nat} {const : Bool} {d s : List Byte} (hd : m id1 = some d) (hs : m id2 = some s) {i j l : Num b} (hi : i.ty.int = true)
    (hj : j.ty.int = true) (hout : d.length ≤ asOffset i.val ∨ s.length ≤ asOffset j.val) :
    bufcpy F m [.arr id1 false, .v (.num i), .arr id2 const, .v (.num j), .v (.num l)] = .ret m (.sym symTRUE) := by
  have e1 := offset_eq (F := F) hi
  have e2 := offset_eq (F := F) hj
  have hrd : rd m (.arr id2 const : Arg b) = some s := by simp only [rd, hs]
  simp only [bufcpy, rw, hd, hrd, Option.map_some, Arg.isNumber, V.isNumber, Bool.and_self, if_true, Arg.val, e1, e2]
  rw [if_neg (by omega)]

/-- Not true of the code: copying between overlapping regions of one buffer uses `memcpy`, which is undefined. -/
theorem C46_bufcpy_violated : bufcpy F (fun _ => some [1, 2, 3, 4]) [.arr 0 false, .v (.num (.char 1)), .arr 0 false, .v (.num (.char 0)), .v (.num (.char 2 : Num b))] = .ub := by
  cases b <;> rfl

/-- `(bufset-bit array pos bit)` with integer arguments: the bit at `pos` becomes 1 exactly if `bit` is not a multiple of 2^32; all other bits, and everything if
`pos` is outside of the buffer, keep their values. -/
theorem C46_bufset_bit {m : Mem} {id : Nat} {d : List Byte} (hm : m id = some d) {p v : Num b} (hp : p.ty.int = true) (hv : v.ty.int = true) :
    ∃ m' d', bufsetBit F m [.arr id false, .v (.num p), .v (.num v)] = .ret m' (.sym symTRUE) ∧ OnlyArr m m' id ∧ m' id = some d' ∧ d'.length = d.length ∧
      ∀ q, bitOf d' q = if q = asOffset p.val ∧ q / 8 < d.length then some (decide (asOffset v.val ≠ 0)) else bitOf d q := by
  have e1 := offset_eq (F := F) hp
  have e2 := offset_eq (F := F) hv
  by_cases hin : asOffset p.val / 8 < d.length
  · refine ⟨_, _, by simp only [bufsetBit, rw, hm, Option.map_some, Arg.isNumber, V.isNumber, Bool.and_self, if_true, Arg.val, e1, List.getElem?_eq_getElem hin]; rfl,
      fun j hj => by simp [Mem.set, hj], by simp only [Mem.set, if_true]; rfl, by simp, ?_⟩
    intro q
    simp only [bitOf]
    by_cases hq : q / 8 = asOffset p.val / 8
    · rw [hq, List.getElem?_set_self hin, List.getElem?_eq_getElem hin]
      simp only [Option.map_some]
      have hb : (decAsU32 F (.num v) ≠ 0) ↔ asOffset v.val ≠ 0 := by
        rw [← e2]; exact not_congr ⟨fun h => by rw [h]; rfl, fun h => BitVec.eq_of_toNat_eq h⟩
      have h8 : q % 8 < 8 := Nat.mod_lt _ (by omega)
      have p8 : asOffset p.val % 8 < 8 := Nat.mod_lt _ (by omega)
      have hqp : q = asOffset p.val ↔ q % 8 = asOffset p.val % 8 := by omega
      simp only [hqp, hin, and_true]
      simp only [hb]
      generalize q % 8 = x at *
      generalize asOffset p.val % 8 = y at *
      generalize d[asOffset p.val / 8] = z
      have one : ∀ k, (1 : BitVec 32).getLsbD k = decide (k = 0) := fun k => by simp
      simp only [BitVec.getLsbD_or, BitVec.getLsbD_and, BitVec.getLsbD_setWidth, BitVec.getLsbD_not, BitVec.getLsbD_shiftLeft, one, h8, decide_true, Bool.true_and,
        show x < 32 by omega]
      by_cases hxy : x = y
      · subst hxy
        by_cases hv0 : asOffset v.val = 0 <;> simp [hv0]
      · have hxy' : x < y ∨ 0 < x - y ∧ ¬ x < y := by omega
        rcases hxy' with hl | hl
        · simp [hl, hxy]
        · have h0 : ¬ (x - y = 0) := by omega
          by_cases hv0 : asOffset v.val = 0 <;> simp [hl, h0, hxy, hv0]
    · rw [List.getElem?_set_ne (fun h => hq h.symm), if_neg (fun h => hq (by rw [h.1]))]
  · refine ⟨m, d, ?_, fun _ _ => rfl, hm, rfl, ?_⟩
    · simp only [bufsetBit, rw, hm, Option.map_some, Arg.isNumber, V.isNumber, Bool.and_self, if_true, Arg.val, e1]
      rw [List.getElem?_eq_none (by omega)]
    · intro q
      rw [if_neg (fun h => hin (by rw [← h.1]; exact h.2))]

/-- Example: setting bit 9 of two bytes. -/
example : ∃ m' d', bufsetBit noFp (fun _ => some [0, 0]) [.arr 0 false, .v (.num (.i 9)), .v (.num (.i 1 : Num .b32))] = .ret m' (.sym symTRUE) ∧ m' 0 = some d' ∧
    bitOf d' 9 = some true ∧ bitOf d' 8 = some false := by
  obtain ⟨m', d', h1, _, h3, _, h5⟩ := C46_bufset_bit (F := noFp) (m := fun _ => some [0, 0]) (id := 0) (d := [0, 0]) rfl (p := (.i 9 : Num .b32)) (v := .i 1) rfl rfl
  exact ⟨m', d', h1, h3, by rw [h5]; decide, by rw [h5]; decide⟩

/-- Example: `(bufclear a 7 1 10)` on three bytes. -/
example : ∃ m', bufclear noFp (fun _ => some [1, 2, 3]) [.arr 0 false, .v (.num (.i 7)), .v (.num (.i 1)), .v (.num (.i 10 : Num .b64))] = .ret m' (.sym symTRUE) ∧
    m' 0 = some [1, 7, 7] := ⟨_, rfl, rfl⟩

/-- Example: `(bufcpy a 0 a 2 2)`: two regions of one buffer that do not overlap. -/
example : ∃ m', bufcpy noFp (fun _ => some [1, 2, 3, 4]) [.arr 0 false, .v (.num (.i 0)), .arr 0 false, .v (.num (.i 2)), .v (.num (.i 2 : Num .b64))] = .ret m' (.sym symTRUE) ∧
    m' 0 = some [3, 4, 3, 4] := ⟨_, rfl, rfl⟩

/-- `(buflen array)` is the number of bytes. Partial: it fits in an integer (2^27 on 32-bit builds). -/
theorem C46_buflen_partial {m : Mem} {id : Nat} {const : Bool} {d : List Byte} (hm : m id = some d) (hd : InRange b .i d.length) :
    ∃ n : Num b, buflen m [.arr id const] = .ret m (.num n) ∧ n.val = d.length ∧ n.ty = .i := by
  refine ⟨ofZ b .i d.length, ?_, ?_, ?_⟩
  · rw [← encI_ofInt]; simp only [buflen, rd, hm, BitVec.ofInt_natCast]
  · rw [(ofZ_is (b := b) (t := .i) rfl _).2]
    simp only [InRange, Ty.signed, if_true, Ty.bits] at hd
    simp only [wrap, Ty.signed, if_true, Ty.bits]
    rw [Int.bmod_eq_of_le]
    · cases b <;> simp [payload] at hd ⊢ <;> omega
    · cases b <;> simp [payload] at hd ⊢ <;> omega
  · rw [ofZ_ty]

end Verif.Buf
