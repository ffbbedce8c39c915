import Verif.Arith.Ops

namespace Verif.Arith

open Verif.Val (Build payload)

theorem ofInt_inj {w : Nat} {x y : Int} (hw : 0 < w) (hx : -(2 ^ (w - 1)) ≤ x ∧ x < 2 ^ (w - 1))
    (hy : -(2 ^ (w - 1)) ≤ y ∧ y < 2 ^ (w - 1)) (h : BitVec.ofInt w x = BitVec.ofInt w y) : x = y := by
  have := congrArg BitVec.toInt h
  rwa [toInt_ofInt_fits hw hx.1 hx.2, toInt_ofInt_fits hw hy.1 hy.2] at this

theorem pow_pos' (w : Nat) : (0 : Int) < 2 ^ w := Int.pow_pos (by omega)

theorem two_pow_pred {w : Nat} (hw : 0 < w) : (2 : Int) ^ w = 2 * 2 ^ (w - 1) := by
  conv => lhs; rw [show w = (w - 1) + 1 by omega]
  rw [Int.pow_succ]; omega

theorem intMin_eq {w : Nat} (hw : 0 < w) : BitVec.intMin w = BitVec.ofInt w (-(2 ^ (w - 1))) := by
  apply BitVec.eq_of_toInt_eq
  have hp := pow_pos' (w - 1)
  rw [toInt_ofInt_fits hw (by omega) (by omega), BitVec.toInt_intMin_of_pos hw]

theorem neg_one_eq (w : Nat) : -1#w = BitVec.ofInt w (-1) := by
  rw [BitVec.ofInt_neg]; simp

theorem no_trap {w : Nat} {x y : Int} (hw : 1 < w) (hx : -(2 ^ (w - 1)) ≤ x ∧ x < 2 ^ (w - 1))
    (hy : -(2 ^ (w - 1)) ≤ y ∧ y < 2 ^ (w - 1)) (hq : x.tdiv y < 2 ^ (w - 1)) :
    ¬ (BitVec.ofInt w x = BitVec.intMin w ∧ BitVec.ofInt w y = -1#w) := by
  rintro ⟨h1, h2⟩
  have hp := pow_pos' (w - 1)
  rw [intMin_eq (by omega)] at h1
  rw [neg_one_eq] at h2
  have e1 := ofInt_inj (by omega) hx (by omega) h1
  have e2 := ofInt_inj (by omega) hy (by omega) h2
  subst e1 e2
  have : (-(2 ^ (w - 1)) : Int).tdiv (-1) = 2 ^ (w - 1) := by
    rw [Int.tdiv_neg, Int.tdiv_one]; omega
  omega

theorem sdiv_ofInt {w : Nat} {x y : Int} (hw : 1 < w)
    (hx : -(2 ^ (w - 1)) ≤ x ∧ x < 2 ^ (w - 1)) (hy : -(2 ^ (w - 1)) ≤ y ∧ y < 2 ^ (w - 1))
    (hq : -(2 ^ (w - 1)) ≤ x.tdiv y ∧ x.tdiv y < 2 ^ (w - 1)) :
    sdiv' (BitVec.ofInt w x) (BitVec.ofInt w y) = some (BitVec.ofInt w (x.tdiv y)) := by
  rw [sdiv', if_neg (no_trap hw hx hy hq.2)]
  congr 1
  apply BitVec.eq_of_toInt_eq
  rw [BitVec.toInt_sdiv, toInt_ofInt_fits (by omega) hx.1 hx.2, toInt_ofInt_fits (by omega) hy.1 hy.2,
    BitVec.toInt_ofInt]

theorem srem_ofInt {w : Nat} {x y : Int} (hw : 1 < w)
    (hx : -(2 ^ (w - 1)) ≤ x ∧ x < 2 ^ (w - 1)) (hy : -(2 ^ (w - 1)) ≤ y ∧ y < 2 ^ (w - 1))
    (hq : x.tdiv y < 2 ^ (w - 1)) :
    srem' (BitVec.ofInt w x) (BitVec.ofInt w y) = some (BitVec.ofInt w (x.tmod y)) := by
  rw [srem', if_neg (no_trap hw hx hy hq)]
  congr 1
  conv => lhs; rw [ofInt_eq_of_toInt (BitVec.srem _ _)]
  rw [BitVec.toInt_srem, toInt_ofInt_fits (by omega) hx.1 hx.2,
    toInt_ofInt_fits (by omega) hy.1 hy.2]

theorem udiv_ofInt {w : Nat} (x y : Int) :
    BitVec.ofInt w x / BitVec.ofInt w y = BitVec.ofInt w ((x % 2 ^ w).tdiv (y % 2 ^ w)) := by
  have hx := toNat_ofInt' w x
  have hy := toNat_ofInt' w y
  conv => lhs; rw [ofInt_eq_of_toNat (_ / _)]
  rw [BitVec.toNat_udiv, ← hx, ← hy, Int.natCast_ediv, Int.tdiv_eq_ediv_of_nonneg (by omega)]

theorem umod_ofInt {w : Nat} (x y : Int) :
    BitVec.ofInt w x % BitVec.ofInt w y = BitVec.ofInt w ((x % 2 ^ w).tmod (y % 2 ^ w)) := by
  have hx := toNat_ofInt' w x
  have hy := toNat_ofInt' w y
  conv => lhs; rw [ofInt_eq_of_toNat (_ % _)]
  rw [BitVec.toNat_umod, ← hx, ← hy, Int.natCast_emod, Int.tmod_eq_emod_of_nonneg (by omega)]

theorem ofInt_zero_iff {w : Nat} (z : Int) : BitVec.ofInt w z = 0 ↔ z % 2 ^ w = 0 := by
  have h := toNat_ofInt' w z
  constructor
  · intro e; rw [e] at h; simpa using h.symm
  · intro e
    apply BitVec.eq_of_toNat_eq
    rw [e] at h
    simp only [BitVec.ofNat_eq_ofNat, BitVec.toNat_ofNat, Nat.zero_mod]
    omega

variable {b : Build} (F : FOps)

/-- The zero test of the `i` case looks at the raw word. -/
theorem decIRaw_zero (y : Num b) (hy : y.ty.int = true) (hi : idx b y.ty ≤ idx b .i) :
    decIRaw (.num y) = 0 ↔ y.val = 0 := by
  have hw := le_w b
  have key : decIRaw (.num y) = BitVec.ofInt b.w y.val ∧
      -(2 ^ (b.w - 1)) ≤ y.val ∧ y.val < 2 ^ (b.w - 1) := by
    refine ⟨?_, fits_signed y.ty .i _ hy rfl hi (val_range y hy)⟩
    cases y <;> simp [Ty.int, Num.ty] at hy <;> simp only [decIRaw, Num.val]
    case char x => exact ofInt_toNat_sw x
    case i x => rfl
    case u x => exact absurd (show idx b .u ≤ idx b .i from hi) (by cases b <;> decide)
    case i32 x => rfl
    case u32 x => exact ofInt_toNat_sw x
    case i64 x => exact absurd (show idx b .i64 ≤ idx b .i from hi) (by cases b <;> decide)
    case u64 x => exact absurd (show idx b .u64 ≤ idx b .i from hi) (by cases b <;> decide)
  have hp := pow_pos' (b.w - 1)
  rw [key.1]
  constructor
  · intro h
    exact ofInt_inj (w := b.w) (by omega) key.2 (by omega) (by simpa using h)
  · intro h; rw [h]; simp

theorem fits_zero_iff {w : Nat} (z : Int) (hw : 0 < w) (h : -(2 ^ (w - 1)) ≤ z ∧ z < 2 ^ (w - 1)) :
    BitVec.ofInt w z = 0 ↔ z = 0 := by
  have hp := pow_pos' (w - 1)
  constructor
  · intro e; exact ofInt_inj hw h (by omega) (by simpa using e)
  · rintro rfl; simp

/-- The operands are handled exactly as `wrap` at the promoted type says, except
that at type `u` the code keeps the whole word of a negative operand. -/
def UOk (b : Build) (t : Ty) (x y : Num b) : Prop :=
  t = .u → InRange b .u x.val ∧ InRange b .u y.val

theorem wrap_signed {t : Ty} {y : Num b} (ht : t.signed = true) (htt : t.int = true)
    (hy : y.ty.int = true) (hi : idx b y.ty ≤ idx b t) (hne : t ≠ .i) : wrap b t y.val = y.val := by
  apply wrap_eq _ _ htt
  have := fits_signed y.ty t _ hy ht hi (val_range y hy)
  rw [InRange, if_pos ht]
  cases t <;> simp_all [CFits, cBits]

theorem wrap_i {y : Num b} (hy : y.ty.int = true) (hi : idx b y.ty ≤ idx b .i) :
    wrap b .i y.val = y.val := by
  apply wrap_eq _ _ rfl
  have hr := val_range y hy
  cases b <;> generalize y.ty = s at * <;> cases s <;> simp [Ty.int] at hy <;>
    first
    | (exact absurd hi (by decide))
    | (simp [InRange, Ty.signed, Ty.bits, payload] at *; omega)

/-- At a signed promoted type wrapping changes nothing. -/
theorem wrap_signed' {t : Ty} {y : Num b} (ht : t.signed = true)
    (hy : y.ty.int = true) (hi : idx b y.ty ≤ idx b t) : wrap b t y.val = y.val := by
  cases t <;> simp [Ty.signed] at ht
  · exact wrap_i hy hi
  · exact wrap_signed rfl rfl hy hi (by decide)
  · exact wrap_signed rfl rfl hy hi (by decide)

theorem u_mod {z : Int} (h : InRange b .u z) : z % 2 ^ b.w = z := by
  cases b <;> simp [InRange, Ty.signed, Ty.bits, payload] at h <;> simp only [Build.w] <;> omega

theorem u_wrap {z : Int} (h : InRange b .u z) : wrap b .u z = z := wrap_eq _ _ rfl h

theorem mod2_int (x y : Num b) (hx : x.ty.int = true) (hy : y.ty.int = true)
    (t : Ty) (htd : t = bigger b x.ty y.ty) (hu : UOk b t x y)
    (h0 : ¬ wrap b t y.val = 0)
    (h64 : t = .u → b = .b64 → ¬ y.val % 2 ^ 32 = 0)
    (hno : NoOverflow b t ((wrap b t x.val).tdiv (wrap b t y.val))) :
    mod2 F true (.num x) (.num y) =
      some (.num (ofZ b t ((wrap b t x.val).tmod (wrap b t y.val)))) := by
  simp only [mod2, promoteV, promote_int _ _ hx hy, ← htd]
  have hl : idx b x.ty ≤ idx b t := htd ▸ idx_bigger_left (b := b) x.ty y.ty
  have hr : idx b y.ty ≤ idx b t := htd ▸ idx_bigger_right (b := b) x.ty y.ty
  have ht : t.int = true := htd ▸ bigger_int (b := b) hx hy
  clear htd
  have hw := le_w b
  cases t <;> simp [Ty.int] at ht <;>
    simp only [enc_ok, decAsIW_eq F y hy, decAsUW_eq F y hy, decAsU32_eq F y hy,
      decAsI32_eq F y hy, decAsI64_eq F y hy, decAsU64_eq F y hy, decAsIW_eq F x hx,
      decAsUW_eq F x hx, decAsU32_eq F x hx, decAsI32_eq F x hx, decAsI64_eq F x hx,
      decAsU64_eq F x hx]
  case char =>
    have ex := idx_char b _ hl
    have ey := idx_char b _ hr
    rw [decCharRaw_eq y ey, decCharRaw_eq x ex]
    have rx := val_range x hx
    have ry := val_range y hy
    rw [ex] at rx; rw [ey] at ry
    rw [wrap_eq _ _ rfl ry] at h0 ⊢
    rw [wrap_eq _ _ rfl rx]
    simp [InRange, Ty.signed, Ty.bits] at rx ry
    rw [if_neg (by rw [ofInt_zero_iff]; omega)]
    rw [show (BitVec.ofInt 8 x.val).setWidth 32 = BitVec.ofInt 32 x.val by
      rw [ofInt_toNat_sw, toNat_ofInt']; rw [Int.emod_eq_of_lt (by omega) (by omega)]]
    have hb : x.val.tdiv y.val ≤ x.val := by
      rw [Int.tdiv_eq_ediv_of_nonneg rx.1]; exact Int.ediv_le_self _ rx.1
    rw [srem_ofInt (by omega) (by omega) (by omega) (by omega)]
    simp only [Option.map_some, enc_ok, ofZ, setWidth_ofInt (show 8 ≤ 32 by omega)]
  case i =>
    rw [wrap_i hy hr] at h0 hno ⊢
    rw [wrap_i hx hl] at hno ⊢
    rw [if_neg (fun h => h0 ((decIRaw_zero y hy hr).1 h))]
    rw [srem_ofInt (w := b.w) (by omega) (fits_signed _ .i _ hx rfl hl (val_range x hx))
      (fits_signed _ .i _ hy rfl hr (val_range y hy)) (hno rfl).2]
    simp only [Option.map_some, enc_ok, encI_ofInt]
  case u =>
    obtain ⟨ux, uy⟩ := hu rfl
    rw [u_wrap uy] at h0 ⊢
    rw [u_wrap ux]
    rw [if_neg]
    · rw [umod_ofInt, u_mod ux, u_mod uy, encU_ofInt]
    · rw [ofInt_zero_iff]
      intro hz
      cases b
      · apply h0
        simp [InRange, Ty.signed, Ty.bits, payload] at uy
        omega
      · exact h64 rfl rfl hz
  case i32 =>
    have fx := fits_signed _ .i32 _ hx rfl hl (val_range x hx)
    have fy := fits_signed _ .i32 _ hy rfl hr (val_range y hy)
    rw [wrap_signed' rfl hy hr] at h0 hno ⊢
    rw [wrap_signed' rfl hx hl] at hno ⊢
    rw [if_neg (fun h => h0 ((fits_zero_iff (w := 32) _ (by omega) fy).1 h))]
    rw [srem_ofInt (w := 32) (by omega) fx fy (hno rfl).2]; rfl
  case u32 =>
    rw [if_neg (by rw [ofInt_zero_iff]; exact h0), umod_ofInt]; rfl
  case i64 =>
    have fx := fits_signed _ .i64 _ hx rfl hl (val_range x hx)
    have fy := fits_signed _ .i64 _ hy rfl hr (val_range y hy)
    rw [wrap_signed' rfl hy hr] at h0 hno ⊢
    rw [wrap_signed' rfl hx hl] at hno ⊢
    rw [if_neg (fun h => h0 ((fits_zero_iff (w := 64) _ (by omega) fy).1 h))]
    rw [srem_ofInt (w := 64) (by omega) fx fy (hno rfl).2]; rfl
  case u64 =>
    rw [if_neg (by rw [ofInt_zero_iff]; exact h0), umod_ofInt]; rfl

/-- The dividends of the 64-bit cases fit in 32 bits. -/
def DividendOk (b : Build) (t : Ty) (x : Num b) : Prop :=
  (t = .i64 → -(2 ^ 31) ≤ x.val ∧ x.val < 2 ^ 31) ∧ (t = .u64 → 0 ≤ x.val ∧ x.val < 2 ^ 32)

theorem div2_int (x y : Num b) (hx : x.ty.int = true) (hy : y.ty.int = true)
    (t : Ty) (htd : t = bigger b x.ty y.ty) (hu : UOk b t x y)
    (h0 : ¬ wrap b t y.val = 0)
    (h64 : t = .u → b = .b64 → ¬ y.val % 2 ^ 32 = 0) (hd : DividendOk b t x)
    (hno : NoOverflow b t ((wrap b t x.val).tdiv (wrap b t y.val))) :
    div2 F true (.num x) (.num y) =
      some (.num (ofZ b t ((wrap b t x.val).tdiv (wrap b t y.val)))) := by
  simp only [div2, promoteV, promote_int _ _ hx hy, ← htd]
  have hl : idx b x.ty ≤ idx b t := htd ▸ idx_bigger_left (b := b) x.ty y.ty
  have hr : idx b y.ty ≤ idx b t := htd ▸ idx_bigger_right (b := b) x.ty y.ty
  have ht : t.int = true := htd ▸ bigger_int (b := b) hx hy
  clear htd
  have hw := le_w b
  cases t <;> simp [Ty.int] at ht <;>
    simp only [enc_ok, decAsIW_eq F y hy, decAsUW_eq F y hy, decAsU32_eq F y hy,
      decAsI32_eq F y hy, decAsI64_eq F y hy, decAsU64_eq F y hy, decAsIW_eq F x hx,
      decAsUW_eq F x hx, decAsU32_eq F x hx, decAsI32_eq F x hx]
  case char =>
    rw [decCharRaw_eq y (idx_char b _ hr), decCharRaw_eq x (idx_char b _ hl)]
    rw [if_neg (by rw [ofInt_zero_iff]; exact h0), udiv_ofInt]; rfl
  case i =>
    rw [wrap_i hy hr] at h0 hno ⊢
    rw [wrap_i hx hl] at hno ⊢
    rw [if_neg (fun h => h0 ((decIRaw_zero y hy hr).1 h))]
    rw [sdiv_ofInt (w := b.w) (by omega) (fits_signed _ .i _ hx rfl hl (val_range x hx))
      (fits_signed _ .i _ hy rfl hr (val_range y hy)) (hno rfl)]
    simp only [Option.map_some, enc_ok, encI_ofInt]
  case u =>
    obtain ⟨ux, uy⟩ := hu rfl
    rw [u_wrap uy] at h0 ⊢
    rw [u_wrap ux]
    rw [if_neg]
    · rw [udiv_ofInt, u_mod ux, u_mod uy, encU_ofInt]
    · rw [ofInt_zero_iff]
      intro hz
      cases b
      · apply h0
        simp [InRange, Ty.signed, Ty.bits, payload] at uy
        omega
      · exact h64 rfl rfl hz
  case i32 =>
    have fx := fits_signed _ .i32 _ hx rfl hl (val_range x hx)
    have fy := fits_signed _ .i32 _ hy rfl hr (val_range y hy)
    rw [wrap_signed' rfl hy hr] at h0 hno ⊢
    rw [wrap_signed' rfl hx hl] at hno ⊢
    rw [if_neg (fun h => h0 ((fits_zero_iff (w := 32) _ (by omega) fy).1 h))]
    rw [sdiv_ofInt (w := 32) (by omega) fx fy (hno rfl)]; rfl
  case u32 =>
    rw [if_neg (by rw [ofInt_zero_iff]; exact h0), udiv_ofInt]; rfl
  case i64 =>
    have fx := fits_signed _ .i64 _ hx rfl hl (val_range x hx)
    have fy := fits_signed _ .i64 _ hy rfl hr (val_range y hy)
    have hd1 := hd.1 rfl
    rw [wrap_signed' rfl hy hr] at h0 hno ⊢
    rw [wrap_signed' rfl hx hl] at hno ⊢
    rw [if_neg (fun h => h0 ((fits_zero_iff (w := 64) _ (by omega) fy).1 h))]
    rw [ofInt_toInt_se, toInt_ofInt_fits (by omega) (by simpa using hd1.1) (by simpa using hd1.2)]
    rw [sdiv_ofInt (w := 64) (by omega) fx fy (hno rfl)]; rfl
  case u64 =>
    have hd1 := hd.2 rfl
    rw [if_neg (by rw [ofInt_zero_iff]; exact h0)]
    rw [show (BitVec.ofInt 32 x.val).setWidth 64 = BitVec.ofInt 64 x.val by
      rw [ofInt_toNat_sw, toNat_ofInt']; rw [Int.emod_eq_of_lt (by omega) (by omega)]]
    rw [udiv_ofInt]; rfl

/-- A zero divisor is reported. -/
theorem div2_zero (x y : Num b) (hx : x.ty.int = true) (hy : y.ty.int = true) (h0 : y.val = 0)
    (ok : Bool) : div2 F ok (.num x) (.num y) = some (.sym symDIVZERO) ∧
      mod2 F ok (.num x) (.num y) = some (.sym symDIVZERO) := by
  simp only [div2, mod2, promoteV, promote_int _ _ hx hy]
  have hr : idx b y.ty ≤ idx b (bigger b x.ty y.ty) := idx_bigger_right (b := b) x.ty y.ty
  have ht : (bigger b x.ty y.ty).int = true := bigger_int (b := b) hx hy
  generalize bigger b x.ty y.ty = t at *
  have z : ∀ w, BitVec.ofInt w y.val = 0 := fun w => by rw [h0]; simp
  cases t <;> simp [Ty.int] at ht <;>
    simp only [decAsU32_eq F y hy, decAsI32_eq F y hy, decAsI64_eq F y hy, decAsU64_eq F y hy, z,
      if_true, and_self]
  case char => rw [decCharRaw_eq y (idx_char b _ hr), z]; simp
  case i => rw [if_pos ((decIRaw_zero y hy hr).2 h0), if_pos ((decIRaw_zero y hy hr).2 h0)]; simp

/-! ### Comparison -/

theorem cmpS_ofInt {w : Nat} {x y : Int} (hw : 0 < w) (hx : -(2 ^ (w - 1)) ≤ x ∧ x < 2 ^ (w - 1))
    (hy : -(2 ^ (w - 1)) ≤ y ∧ y < 2 ^ (w - 1)) :
    cmpS (BitVec.ofInt w x) (BitVec.ofInt w y) = (if y < x then 1 else 0) - (if x < y then 1 else 0) := by
  simp only [cmpS, BitVec.slt, toInt_ofInt_fits hw hx.1 hx.2, toInt_ofInt_fits hw hy.1 hy.2,
    decide_eq_true_eq]

theorem cmpU_ofInt {w : Nat} (x y : Int) :
    cmpU (BitVec.ofInt w x) (BitVec.ofInt w y) =
      (if y % 2 ^ w < x % 2 ^ w then 1 else 0) - (if x % 2 ^ w < y % 2 ^ w then 1 else 0) := by
  have hx := toNat_ofInt' w x
  have hy := toNat_ofInt' w y
  simp only [cmpU, BitVec.ult, decide_eq_true_eq, ← hx, ← hy, Int.ofNat_lt]

/-- The sign of the difference. -/
def sign (x y : Int) : Int := (if y < x then 1 else 0) - (if x < y then 1 else 0)

theorem compare_int (x y : Num b) (hx : x.ty.int = true) (hy : y.ty.int = true)
    (t : Ty) (htd : t = bigger b x.ty y.ty) (hu : UOk b t x y) :
    compareNum F (.num x) (.num y) = sign (wrap b t x.val) (wrap b t y.val) := by
  simp only [compareNum, promoteV, promote_int _ _ hx hy, ← htd]
  have hl : idx b x.ty ≤ idx b t := htd ▸ idx_bigger_left (b := b) x.ty y.ty
  have hr : idx b y.ty ≤ idx b t := htd ▸ idx_bigger_right (b := b) x.ty y.ty
  have ht : t.int = true := htd ▸ bigger_int (b := b) hx hy
  clear htd
  have hw := le_w b
  cases t <;> simp [Ty.int] at ht <;>
    simp only [decAsIW_eq F y hy, decAsUW_eq F y hy, decAsU32_eq F y hy,
      decAsI32_eq F y hy, decAsI64_eq F y hy, decAsU64_eq F y hy, decAsIW_eq F x hx,
      decAsUW_eq F x hx, decAsU32_eq F x hx, decAsI32_eq F x hx, decAsI64_eq F x hx,
      decAsU64_eq F x hx]
  case char =>
    rw [decCharRaw_eq y (idx_char b _ hr), decCharRaw_eq x (idx_char b _ hl), cmpU_ofInt]; rfl
  case i =>
    rw [wrap_i hy hr, wrap_i hx hl]
    exact cmpS_ofInt (by omega) (fits_signed _ .i _ hx rfl hl (val_range x hx))
      (fits_signed _ .i _ hy rfl hr (val_range y hy))
  case u =>
    obtain ⟨ux, uy⟩ := hu rfl
    rw [u_wrap ux, u_wrap uy, cmpU_ofInt, u_mod ux, u_mod uy]; rfl
  case i32 =>
    rw [wrap_signed' rfl hy hr, wrap_signed' rfl hx hl]
    exact cmpS_ofInt (w := 32) (by omega) (fits_signed _ .i32 _ hx rfl hl (val_range x hx))
      (fits_signed _ .i32 _ hy rfl hr (val_range y hy))
  case u32 => rw [cmpU_ofInt]; rfl
  case i64 =>
    rw [wrap_signed' rfl hy hr, wrap_signed' rfl hx hl]
    exact cmpS_ofInt (w := 64) (by omega) (fits_signed _ .i64 _ hx rfl hl (val_range x hx))
      (fits_signed _ .i64 _ hy rfl hr (val_range y hy))
  case u64 => rw [cmpU_ofInt]; rfl

end Verif.Arith
