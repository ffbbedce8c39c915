import Verif.Arith.Lemmas

namespace Verif.Arith

open Verif.Val (Build payload)

variable {b : Build} (F : FOps) (wrapv : Bool)

/-- What the caller must guarantee when signed overflow is undefined. -/
def Ok (b : Build) (wrapv : Bool) (t : Ty) (z : Int) : Prop := wrapv = true ∨ NoOverflow b t z

theorem cBits_pos (b : Build) (t : Ty) : 0 < cBits b t := by cases b <;> cases t <;> decide

/-- The side condition of the signed operations. -/
theorem signed_side {x y : Num b} {t : Ty} {z : Int} {wrapv : Bool}
    (ht : t.signed = true) (hx : x.ty.int = true) (hy : y.ty.int = true)
    (hix : idx b x.ty ≤ idx b t) (hiy : idx b y.ty ≤ idx b t) (hok : Ok b wrapv t z) :
    wrapv = true ∨ (0 < cBits b t ∧
      (-(2 ^ (cBits b t - 1)) ≤ x.val ∧ x.val < 2 ^ (cBits b t - 1)) ∧
      (-(2 ^ (cBits b t - 1)) ≤ y.val ∧ y.val < 2 ^ (cBits b t - 1)) ∧
      -(2 ^ (cBits b t - 1)) ≤ z ∧ z < 2 ^ (cBits b t - 1)) := by
  rcases hok with h | h
  · exact .inl h
  · exact .inr ⟨cBits_pos b t, fits_signed _ _ _ hx ht hix (val_range x hx),
      fits_signed _ _ _ hy ht hiy (val_range y hy), (h ht).1, (h ht).2⟩

theorem addSwitch_int (x y : Num b) (hx : x.ty.int = true) (hy : y.ty.int = true)
    (hi : idx b y.ty ≤ idx b x.ty) (hok : Ok b wrapv x.ty (x.val + y.val)) :
    addSwitch F wrapv true (.num x) (.num y) = some (.num (ofZ b x.ty (x.val + y.val))) := by
  have side := fun ht : x.ty.signed = true =>
    signed_side (x := x) (y := y) ht hx hy (Nat.le_refl _) hi hok
  cases x <;> simp [Ty.int, Num.ty] at hx <;>
    simp only [addSwitch, Num.ty, enc_ok, decAsIW_eq F y hy, decAsUW_eq F y hy, decAsU32_eq F y hy,
      decAsI32_eq F y hy, decAsI64_eq F y hy, decAsU64_eq F y hy]
  case char x =>
    rw [decCharRaw_eq y (idx_char b _ hi)]
    simp only [ofZ, Num.val, BitVec.ofInt_add, ← ofInt_eq_of_toNat]
  case i x =>
    rw [decI_eq, sadd_ofInt (w := b.w) wrapv x.toInt y.val (side rfl)]
    simp only [Option.map_some, encI_ofInt]; rfl
  case u x => rw [decU_eq, ← BitVec.ofInt_add, encU_ofInt]; rfl
  case i32 x =>
    have := sadd_ofInt (w := 32) wrapv x.toInt y.val (side rfl)
    rw [BitVec.ofInt_toInt] at this
    rw [this]; rfl
  case u32 x => simp only [ofZ, Num.val, BitVec.ofInt_add, ← ofInt_eq_of_toNat]
  case i64 x =>
    have := sadd_ofInt (w := 64) wrapv x.toInt y.val (side rfl)
    rw [BitVec.ofInt_toInt] at this
    rw [this]; rfl
  case u64 x => simp only [ofZ, Num.val, BitVec.ofInt_add, ← ofInt_eq_of_toNat]

theorem bigger_comm (s t : Ty) : bigger b s t = bigger b t s := by
  rw [bigger_def, bigger_def]
  by_cases h1 : idx b s < idx b t
  · rw [if_pos h1, if_neg (by omega)]
  · by_cases h2 : idx b t < idx b s
    · rw [if_neg h1, if_pos h2]
    · rw [if_neg h1, if_neg h2]; exact idx_inj b _ _ (by omega)

/-- The operands in promotion order. -/
theorem swap_cases (x y : Num b) (hx : x.ty.int = true) (hy : y.ty.int = true) :
    ∃ p q : Num b, promoteSwap (.num x) (.num y) = (.num p, .num q) ∧
      (p = x ∧ q = y ∨ p = y ∧ q = x) ∧ p.ty = bigger b x.ty y.ty ∧ idx b q.ty ≤ idx b p.ty := by
  rw [promoteSwap_int x y hx hy, bigger_def]
  split
  · rename_i h; exact ⟨y, x, rfl, .inr ⟨rfl, rfl⟩, rfl, by omega⟩
  · rename_i h; exact ⟨x, y, rfl, .inl ⟨rfl, rfl⟩, rfl, by omega⟩

theorem add2_int (x y : Num b) (hx : x.ty.int = true) (hy : y.ty.int = true)
    (hok : Ok b wrapv (bigger b x.ty y.ty) (x.val + y.val)) :
    let p := promoteSwap (.num x) (.num y)
    addSwitch F wrapv true p.1 p.2 =
      some (.num (ofZ b (bigger b x.ty y.ty) (x.val + y.val))) := by
  obtain ⟨p, q, e, h, ht, hi⟩ := swap_cases x y hx hy
  simp only [e]
  have hv : p.val + q.val = x.val + y.val := by
    rcases h with ⟨rfl, rfl⟩ | ⟨rfl, rfl⟩ <;> omega
  have hp : p.ty.int = true := by rcases h with ⟨rfl, rfl⟩ | ⟨rfl, rfl⟩ <;> assumption
  have hq : q.ty.int = true := by rcases h with ⟨rfl, rfl⟩ | ⟨rfl, rfl⟩ <;> assumption
  rw [addSwitch_int F wrapv p q hp hq hi (by rw [ht, hv]; exact hok), ht, hv]

theorem mulSwitch_int (x y : Num b) (hx : x.ty.int = true) (hy : y.ty.int = true)
    (hok : Ok b wrapv (bigger b x.ty y.ty) (x.val * y.val)) :
    mul2 F wrapv true (.num x) (.num y) =
      some (.num (ofZ b (bigger b x.ty y.ty) (x.val * y.val))) := by
  obtain ⟨p, q, e, h, ht, hi⟩ := swap_cases x y hx hy
  have hv : p.val * q.val = x.val * y.val := by
    rcases h with ⟨rfl, rfl⟩ | ⟨rfl, rfl⟩
    · rfl
    · exact Int.mul_comm _ _
  have hp : p.ty.int = true := by rcases h with ⟨rfl, rfl⟩ | ⟨rfl, rfl⟩ <;> assumption
  have hq : q.ty.int = true := by rcases h with ⟨rfl, rfl⟩ | ⟨rfl, rfl⟩ <;> assumption
  simp only [mul2, V.isNumber, Bool.and_self, if_true, e]
  rw [← ht, ← hv] at hok ⊢
  have side := fun ht : p.ty.signed = true =>
    signed_side (x := p) (y := q) ht hp hq (Nat.le_refl _) hi hok
  clear h e ht hv
  cases p <;> simp [Ty.int, Num.ty] at hp <;>
    simp only [Num.ty, enc_ok, decAsIW_eq F q hq, decAsUW_eq F q hq, decAsU32_eq F q hq,
      decAsI32_eq F q hq, decAsI64_eq F q hq, decAsU64_eq F q hq]
  case char x =>
    rw [decCharRaw_eq q (idx_char b _ hi)]
    simp only [ofZ, Num.val, BitVec.ofInt_mul, ← ofInt_eq_of_toNat]
  case i x =>
    rw [decI_eq, smul_ofInt (w := b.w) wrapv x.toInt q.val (side rfl)]
    simp only [Option.map_some, encI_ofInt]; rfl
  case u x => rw [decU_eq, ← BitVec.ofInt_mul, encU_ofInt]; rfl
  case i32 x =>
    have := smul_ofInt (w := 32) wrapv x.toInt q.val (side rfl)
    rw [BitVec.ofInt_toInt] at this
    rw [this]; rfl
  case u32 x => simp only [ofZ, Num.val, BitVec.ofInt_mul, ← ofInt_eq_of_toNat]
  case i64 x =>
    have := smul_ofInt (w := 64) wrapv x.toInt q.val (side rfl)
    rw [BitVec.ofInt_toInt] at this
    rw [this]; rfl
  case u64 x => simp only [ofZ, Num.val, BitVec.ofInt_mul, ← ofInt_eq_of_toNat]

theorem ofInt_sub' (w : Nat) (x y : Int) :
    BitVec.ofInt w x - BitVec.ofInt w y = BitVec.ofInt w (x - y) := by
  rw [BitVec.sub_eq_add_neg, Int.sub_eq_add_neg, BitVec.ofInt_add, BitVec.ofInt_neg]

theorem idx_bigger_left (s t : Ty) : idx b s ≤ idx b (bigger b s t) := by
  rw [bigger_def]; split <;> omega
theorem idx_bigger_right (s t : Ty) : idx b t ≤ idx b (bigger b s t) := by
  rw [bigger_def]; split <;> omega

theorem sub2_int (x y : Num b) (hx : x.ty.int = true) (hy : y.ty.int = true)
    (hok : Ok b wrapv (bigger b x.ty y.ty) (x.val - y.val)) :
    sub2 F wrapv true (.num x) (.num y) =
      some (.num (ofZ b (bigger b x.ty y.ty) (x.val - y.val))) := by
  simp only [sub2, promoteV, promote_int _ _ hx hy]
  have hl := idx_bigger_left (b := b) x.ty y.ty
  have hr := idx_bigger_right (b := b) x.ty y.ty
  have ht := bigger_int (b := b) hx hy
  have side := fun hs : (bigger b x.ty y.ty).signed = true => signed_side hs hx hy hl hr hok
  generalize bigger b x.ty y.ty = t at *
  cases t <;> simp [Ty.int] at ht <;>
    simp only [enc_ok, decAsIW_eq F y hy, decAsUW_eq F y hy, decAsU32_eq F y hy,
      decAsI32_eq F y hy, decAsI64_eq F y hy, decAsU64_eq F y hy, decAsIW_eq F x hx,
      decAsUW_eq F x hx, decAsU32_eq F x hx, decAsI32_eq F x hx, decAsI64_eq F x hx,
      decAsU64_eq F x hx]
  case char =>
    rw [decCharRaw_eq y (idx_char b _ hr), decCharRaw_eq x (idx_char b _ hl), ofInt_sub']; rfl
  case i => rw [ssub_ofInt (w := b.w) wrapv x.val y.val (side rfl)]; simp only [Option.map_some, encI_ofInt]
  case u => rw [ofInt_sub', encU_ofInt]
  case i32 => rw [ssub_ofInt (w := 32) wrapv _ _ (side rfl)]; rfl
  case u32 => rw [ofInt_sub']; rfl
  case i64 => rw [ssub_ofInt (w := 64) wrapv _ _ (side rfl)]; rfl
  case u64 => rw [ofInt_sub']; rfl

/-! ### n-ary operations as folds -/

/-- One exact step at the promoted type. -/
def stepZ (f : Int → Int → Int) (acc v : Num b) : Num b :=
  ofZ b (bigger b acc.ty v.ty) (f acc.val v.val)

theorem stepZ_int {f : Int → Int → Int} {acc v : Num b} (ha : acc.ty.int = true)
    (hv : v.ty.int = true) : (stepZ f acc v).ty.int = true := by
  rw [stepZ, ofZ_ty]; exact bigger_int ha hv

/-- No step overflows C's arithmetic. -/
def GoodRun (b : Build) (wrapv : Bool) (f : Int → Int → Int) : Num b → List (Num b) → Prop
  | _, [] => True
  | acc, v :: vs => Ok b wrapv (bigger b acc.ty v.ty) (f acc.val v.val) ∧
      GoodRun b wrapv f (stepZ f acc v) vs

theorem goodRun_wrap (f : Int → Int → Int) (acc : Num b) (vs : List (Num b)) :
    GoodRun b true f acc vs := by
  induction vs generalizing acc with
  | nil => trivial
  | cons v vs ih => exact ⟨.inl rfl, ih _⟩

theorem addLoop_int (ok : Nat → Bool) (hok : ∀ k, ok k = true) (acc : Num b) (vs : List (Num b))
    (ha : acc.ty.int = true) (hv : ∀ v ∈ vs, v.ty.int = true)
    (hg : GoodRun b wrapv (· + ·) acc vs) :
    addLoop F wrapv ok (.num acc) (vs.map .num) = some (.num (vs.foldl (stepZ (· + ·)) acc)) := by
  induction vs generalizing acc with
  | nil => rfl
  | cons v vs ih =>
    have hv1 := hv v (by simp)
    have h := add2_int F wrapv acc v ha hv1 hg.1
    simp only [List.map_cons, addLoop, V.isNumber, if_true, hok]
    obtain ⟨p, q, e, -⟩ := swap_cases acc v ha hv1
    simp only [e] at h ⊢
    rw [h]
    simp only [reduceCtorEq, and_false, if_false, List.foldl_cons]
    exact ih _ (stepZ_int ha hv1) (fun w hw => hv w (by simp [hw])) hg.2

theorem opLoop_int (op : Bool → V b → V b → Option (V b)) (f : Int → Int → Int)
    (hop : ∀ x y : Num b, x.ty.int = true → y.ty.int = true →
      Ok b wrapv (bigger b x.ty y.ty) (f x.val y.val) →
      op true (.num x) (.num y) = some (.num (stepZ f x y)))
    (ok : Nat → Bool) (hok : ∀ k, ok k = true) (acc : Num b) (vs : List (Num b))
    (ha : acc.ty.int = true) (hv : ∀ v ∈ vs, v.ty.int = true)
    (hg : GoodRun b wrapv f acc vs) :
    opLoop op ok (.num acc) (vs.map .num) = some (.num (vs.foldl (stepZ f) acc)) := by
  induction vs generalizing acc with
  | nil => rfl
  | cons v vs ih =>
    have hv1 := hv v (by simp)
    simp only [List.map_cons, opLoop, hok, hop acc v ha hv1 hg.1, List.foldl_cons]
    exact ih _ (stepZ_int ha hv1) (fun w hw => hv w (by simp [hw])) hg.2

theorem foldl_ty (f : Int → Int → Int) (acc : Num b) (vs : List (Num b)) :
    (vs.foldl (stepZ f) acc).ty = biggest b acc.ty vs := by
  induction vs generalizing acc with
  | nil => rfl
  | cons v vs ih =>
    simp only [List.foldl_cons, ih, biggest]
    rw [show (stepZ f acc v).ty = bigger b acc.ty v.ty from ofZ_ty _ _]

/-- Widths grow with the type order. -/
theorem bits_mono (s t : Ty) (hs : s.int = true) (ht : t.int = true)
    (h : idx b s ≤ idx b t) : s.bits b ≤ t.bits b := by
  cases b <;> cases s <;> cases t <;> simp [Ty.int] at hs ht <;>
    first | (exact absurd h (by decide)) | decide

theorem pow_dvd {m n : Nat} (h : m ≤ n) : (2 : Int) ^ m ∣ 2 ^ n :=
  ⟨2 ^ (n - m), by rw [← Int.pow_add, Nat.add_sub_cancel' h]⟩

theorem wrap_mod (t : Ty) (z : Int) : wrap b t z % 2 ^ t.bits b = z % 2 ^ t.bits b := by
  rw [wrap]
  split
  · have h := Int.bmod_emod (x := z) (m := 2 ^ t.bits b)
    simpa using h
  · exact Int.emod_emod_of_dvd _ (Int.dvd_refl _)

theorem wrap_mod_le (t : Ty) (z : Int) {k : Nat} (h : k ≤ t.bits b) :
    wrap b t z % 2 ^ k = z % 2 ^ k := by
  have h1 := congrArg (· % (2 : Int) ^ k) (wrap_mod (b := b) t z)
  simpa only [Int.emod_emod_of_dvd _ (pow_dvd h)] using h1

theorem wrap_range (t : Ty) (z : Int) (ht : t.int = true) : InRange b t (wrap b t z) := by
  have h := ofZ_is (b := b) ht z
  have h2 := val_range (ofZ b t z) (by rw [h.1]; exact ht)
  rw [h.1, h.2] at h2; exact h2

theorem wrap_eq (t : Ty) (z : Int) (ht : t.int = true) (h : InRange b t z) : wrap b t z = z := by
  rw [wrap]
  rw [InRange] at h
  by_cases hs : t.signed = true
  · rw [if_pos hs] at h ⊢
    have hw : 0 < t.bits b := by cases b <;> cases t <;> decide
    have := toInt_ofInt_fits hw h.1 h.2
    rw [BitVec.toInt_ofInt] at this
    exact this
  · rw [if_neg hs] at h ⊢
    exact Int.emod_eq_of_lt h.1 h.2

/-- Congruent integers wrap alike. -/
theorem wrap_congr (t : Ty) (z z' : Int) (ht : t.int = true)
    (h : z % 2 ^ t.bits b = z' % 2 ^ t.bits b) : wrap b t z = wrap b t z' := by
  rw [wrap, wrap]
  split
  · show Int.bmod z ((2 ^ t.bits b : Nat)) = Int.bmod z' ((2 ^ t.bits b : Nat))
    rw [← Int.emod_bmod (x := z), ← Int.emod_bmod (x := z')]
    have e : ((2 ^ t.bits b : Nat) : Int) = 2 ^ t.bits b := by simp
    rw [e, h]
  · exact h

/-- A function on integers that respects congruence. -/
def ModCompat (f : Int → Int → Int) : Prop :=
  ∀ (k : Nat) (x x' y : Int), x % 2 ^ k = x' % 2 ^ k → f x y % 2 ^ k = f x' y % 2 ^ k

theorem add_compat : ModCompat (· + ·) := by
  intro k x x' y h
  show (x + y) % _ = (x' + y) % _
  rw [Int.add_emod, h, ← Int.add_emod]
theorem sub_compat : ModCompat (· - ·) := by
  intro k x x' y h
  show (x - y) % _ = (x' - y) % _
  rw [Int.sub_emod, h, ← Int.sub_emod]
theorem mul_compat : ModCompat (· * ·) := by
  intro k x x' y h
  show (x * y) % _ = (x' * y) % _
  rw [Int.mul_emod, h, ← Int.mul_emod]

theorem stepZ_val (f : Int → Int → Int) (acc v : Num b) (ha : acc.ty.int = true)
    (hv : v.ty.int = true) : (stepZ f acc v).val = wrap b (bigger b acc.ty v.ty) (f acc.val v.val) :=
  (ofZ_is (bigger_int ha hv) _).2

/-- The fold is right modulo any width not above that of the accumulator. -/
theorem foldl_mod {f : Int → Int → Int} (hf : ModCompat f) (acc : Num b) (vs : List (Num b))
    (ha : acc.ty.int = true) (hv : ∀ v ∈ vs, v.ty.int = true) {k : Nat} (hk : k ≤ acc.ty.bits b)
    (z : Int) (hz : acc.val % 2 ^ k = z % 2 ^ k) :
    (vs.foldl (stepZ f) acc).val % 2 ^ k = ((vals vs).foldl f z) % 2 ^ k := by
  induction vs generalizing acc z with
  | nil => exact hz
  | cons v vs ih =>
    have hv1 := hv v (by simp)
    have hk' : k ≤ (bigger b acc.ty v.ty).bits b :=
      Nat.le_trans hk (bits_mono _ _ ha (bigger_int ha hv1) (idx_bigger_left _ _))
    simp only [List.foldl_cons, vals, List.map_cons]
    refine ih _ (stepZ_int ha hv1) (fun w hw => hv w (by simp [hw])) ?_ _ ?_
    · rw [stepZ, ofZ_ty]; exact hk'
    · rw [stepZ_val f acc v ha hv1, wrap_mod_le _ _ hk']
      exact hf k _ _ _ hz

/-- Every prefix of the computation is in range of the type it has reached. -/
def ExactRun (b : Build) (f : Int → Int → Int) : Ty → Int → List (Num b) → Prop
  | _, _, [] => True
  | t, z, v :: vs => InRange b (bigger b t v.ty) (f z v.val) ∧
      ExactRun b f (bigger b t v.ty) (f z v.val) vs

theorem inRange_noOverflow (t : Ty) (z : Int) (ht : t.int = true) (h : InRange b t z) :
    NoOverflow b t z := by
  intro hs
  exact fits_signed t t z ht hs (Nat.le_refl _) h

theorem exactRun_good {f : Int → Int → Int} (acc : Num b) (vs : List (Num b))
    (ha : acc.ty.int = true) (hv : ∀ v ∈ vs, v.ty.int = true)
    (h : ExactRun b f acc.ty acc.val vs) :
    GoodRun b wrapv f acc vs ∧ (vs.foldl (stepZ f) acc).val = (vals vs).foldl f acc.val := by
  induction vs generalizing acc with
  | nil => exact ⟨trivial, rfl⟩
  | cons v vs ih =>
    have hv1 := hv v (by simp)
    have e : (stepZ f acc v).val = f acc.val v.val := by
      rw [stepZ_val f acc v ha hv1, wrap_eq _ _ (bigger_int ha hv1) h.1]
    have et : (stepZ f acc v).ty = bigger b acc.ty v.ty := ofZ_ty _ _
    have := ih (stepZ f acc v) (stepZ_int ha hv1) (fun w hw => hv w (by simp [hw]))
      (by rw [e, et]; exact h.2)
    refine ⟨⟨.inr (inRange_noOverflow _ _ (bigger_int ha hv1) h.1), this.1⟩, ?_⟩
    simp only [List.foldl_cons, vals, List.map_cons, ← e]
    exact this.2

/-- If the first type is the largest the fold is exactly the wrapped result. -/
theorem foldl_biggest {f : Int → Int → Int} (hf : ModCompat f) (acc : Num b) (vs : List (Num b))
    (ha : acc.ty.int = true) (hv : ∀ v ∈ vs, v.ty.int = true ∧ bigger b acc.ty v.ty = acc.ty) :
    Is (vs.foldl (stepZ f) acc) acc.ty ((vals vs).foldl f acc.val) := by
  have hty : biggest b acc.ty vs = acc.ty := by
    clear ha
    induction vs with
    | nil => rfl
    | cons v vs ih =>
      simp only [biggest, List.foldl_cons, (hv v (by simp)).2]
      exact ih (fun w hw => hv w (by simp [hw]))
  have ht := foldl_ty f acc vs
  rw [hty] at ht
  refine ⟨ht, ?_⟩
  have h1 := foldl_mod hf acc vs ha (fun v h => (hv v h).1) (Nat.le_refl _) acc.val rfl
  have h2 := val_range (vs.foldl (stepZ f) acc) (by rw [ht]; exact ha)
  rw [ht] at h2
  rw [← wrap_eq acc.ty _ ha h2]
  exact wrap_congr _ _ _ ha h1

end Verif.Arith
