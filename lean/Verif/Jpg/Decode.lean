import Verif.Jpg.Safe
import Verif.Jpg.Block

/-!
# Lemmas: decoding stays inside of its memory; the pixels
-/

namespace Verif.Jpg

/-- Without undefined behaviour, and with `P` for a value. -/
def R.Safe {α : Type} (r : R α) (P : α → Prop) : Prop :=
  match r with
  | .ok a => P a
  | .err _ => True
  | .ub => False

theorem R.Safe.bind {α β : Type} {r : R α} {f : α → R β} {P : α → Prop} {Q : β → Prop} (h : r.Safe P) (hf : ∀ a, r = .ok a → P a → (f a).Safe Q) : (r.bind f).Safe Q := by
  cases r with
  | ok a => exact hf a rfl h
  | err e => trivial
  | ub => exact h

theorem huffext_safe {s : In} (h : s.Ok) {t : Table} (ht : t.Ok) : (huffext s t).Safe fun (v, s1) => v ∈ t.data ∧ s1.Ok := by
  rcases huffext_any h ht with ⟨v, s1, he, h1, h2⟩ | ⟨e, he⟩ <;> rw [he]
  · exact ⟨h1, h2⟩
  · trivial

theorem bitext_safe {s : In} (h : s.Ok) {n : Nat} (hn : n ≤ 16) : (bitext s n).Safe fun (_, s1) => s1.Ok := by
  rcases bitext_spec h hn with ⟨v, s1, he, _, h1, _⟩ | ⟨he, _⟩ <;> rw [he]
  · exact h1
  · trivial

theorem nextByte_safe {s : In} (h : s.Ok) : (nextByte s).Safe fun (d, s1) => d < 256 ∧ s1.Ok := by
  rcases nextByte_spec h with ⟨_, he⟩ | ⟨d, s1, he, _, h1, h2, _⟩ <;> rw [he]
  · trivial
  · exact ⟨h1, h2⟩

theorem restart_safe {s : In} (h : s.Ok) (n : Nat) : (restart s n).Safe In.Ok := by
  simp only [restart]
  by_cases hm : s.marker ≠ 0
  · simp only [hm, if_true, not_false_eq_true, ne_eq, bind, R.bind]
    split
    · trivial
    · exact ⟨h.fits, h.bytes, h.buf, by simp, h.w⟩
  · simp only [hm, if_false, twoBytes, bind]
    refine R.Safe.bind (P := fun x : Nat × In => x.2.Ok) ?_ ?_
    · exact R.Safe.bind (nextByte_safe h) fun a _ ha => R.Safe.bind (nextByte_safe ha.2) fun b _ hb => hb.2
    · intro a _ ha
      split
      · trivial
      · exact ⟨ha.fits, ha.bytes, ha.buf, by simp, ha.w⟩

theorem acLoop_safe {F : Arith} (hF : F.strict = false) {t : Table} (ht : t.Ok) {q : List Nat} (hq : q.length = 64) : ∀ (n z : Nat) (s : In) (tmp : List Int), s.Ok → tmp.length = 64 → z < 64 → 64 - z ≤ n →
    (acLoop F t q n z s tmp).Safe fun (_, s1, tmp1) => s1.Ok ∧ tmp1.length = 64 := by
  intro n
  induction n with
  | zero => intro z s tmp _ _ h1 h2; omega
  | succ n ih =>
    intro z s tmp hs htl hz hn
    rw [acLoop]
    refine R.Safe.bind (huffext_safe hs ht) fun ⟨d, s1⟩ _ ⟨_, h1⟩ => ?_
    simp only at h1 ⊢
    split
    · exact ⟨h1, htl⟩
    · split
      · trivial
      · rename_i hz64
        split
        · split
          · exact ih _ _ _ h1 htl (by omega) (by omega)
          · exact ⟨h1, htl⟩
        · refine R.Safe.bind (bitext_safe h1 (by omega)) fun ⟨e, s2⟩ _ h2 => ?_
          obtain ⟨hz2, hz3⟩ := zig_get (show z + d / 16 < 64 by omega)
          simp only [hz2, bind, R.bind, dequant_loose hF hq hz3, put_get htl hz3]
          split
          · exact ih _ _ _ h2 (by simpa using htl) (by omega) (by omega)
          · exact ⟨h2, by simpa using htl⟩

theorem block_safe {F : Arith} (hF : F.strict = false) {size : Nat} {jd : JD} (hr : jd.Ready size) {cmp : Nat} (hc : cmp < jd.ncomp) {s : In} (hs : s.Ok) (dcv : Int) :
    (block F jd cmp s dcv).Safe fun (s1, _, b) => s1.Ok ∧ b.length = 64 := by
  have hid : (if cmp = 0 then 0 else 1) = 0 ∨ ((if cmp = 0 then 0 else 1) = 1 ∧ jd.ncomp = 3) := by
    have := hr.ncomp
    by_cases h : cmp = 0
    · simp [h]
    · right; rw [if_neg h]; omega
  obtain ⟨tdc, e1, ok1, hle⟩ := hr.huff _ 0 (by omega) hid
  obtain ⟨tac, e2, ok2, _⟩ := hr.huff _ 1 (by omega) hid
  obtain ⟨q, e3, hq⟩ := hr.quant cmp hc
  simp only [block, e1, bind]
  show R.Safe (R.bind (huffext s tdc) _) _
  refine R.Safe.bind (huffext_safe hs ok1) fun ⟨bc, s1⟩ _ ⟨hbc, h1⟩ => ?_
  refine R.Safe.bind (P := fun x : Int × Int × In => x.2.2.Ok) ?_ fun ⟨d, dcv1, s2⟩ _ h2 => ?_
  · simp only [dcValue]
    split
    · exact h1
    · exact R.Safe.bind (bitext_safe h1 (by have := hle rfl bc hbc; omega)) fun _ _ h => h
  · simp only [e3, R.bind, dequant_loose hF hq (show 0 < 64 by omega), put_get (show (List.replicate 64 (0 : Int)).length = 64 by simp) (show 0 < 64 by omega), e2]
    refine R.Safe.bind (acLoop_safe hF ok2 hq 64 1 s2 _ h2 (by simp) (by omega) (by omega)) fun ⟨z, s3, tmp⟩ _ ⟨h3, _⟩ => ?_
    simp only
    split
    · exact ⟨h3, by simp⟩
    · exact ⟨h3, F.len _⟩

theorem mcuLoad_safe {F : Arith} (hF : F.strict = false) {size : Nat} {jd : JD} (hr : jd.Ready size) : ∀ (n blk : Nat) (s : In) (dcv : Nat → Int) (buf : List Int), s.Ok → blk + n = jd.msx * jd.msy + 2 → buf.length = 64 * blk →
    (mcuLoad F jd n blk s dcv buf).Safe fun (s1, _, b) => s1.Ok ∧ b.length = jd.mcu := by
  intro n
  have hmcu : jd.mcu = (jd.msx * jd.msy + 2) * 64 := by rw [hr.mcu, Nat.mul_comm jd.msy]
  have hwork : 256 ≤ jd.work := by rw [hr.work]; omega
  induction n with
  | zero => intro blk s dcv buf hs hn hl; simp only [mcuLoad]; exact ⟨hs, by rw [hl, hmcu]; omega⟩
  | succ n ih =>
    intro blk s dcv buf hs hn hl
    simp only [mcuLoad]
    rw [if_neg (by omega)]
    generalize hcmp : (if blk < jd.msx * jd.msy then 0 else blk - jd.msx * jd.msy + 1) = cmp
    have hc2 : cmp ≤ 2 := by rw [← hcmp]; split <;> omega
    by_cases hcc : cmp ≠ 0 ∧ jd.ncomp ≠ 3
    · rw [if_pos hcc]
      exact ih _ _ _ _ hs (by omega) (by simp [hl]; omega)
    · rw [if_neg hcc, if_neg (by omega)]
      refine R.Safe.bind (block_safe hF hr (by have := hr.ncomp; omega) hs (dcv cmp)) fun ⟨s1, v, b⟩ _ ⟨h1, h2⟩ => ?_
      exact ih _ _ _ _ h1 (by omega) (by have h2 : b.length = 64 := h2; simp [hl, h2]; omega)

/-! ## Pixels -/

theorem elem_ok {jd : JD} {buf : List Int} (hb : buf.length = jd.mcu) {k e : Nat} (h1 : 3 * k ≤ jd.work + 2 * e) (h2 : e < jd.mcu) : elem jd buf k e = .ok (buf.getD e 0) := by
  simp only [elem]
  rw [if_neg (by omega), if_neg (by omega), List.getElem?_eq_getElem (by omega)]
  simp [List.getD_eq_getElem?_getD, List.getElem?_eq_getElem (show e < buf.length by omega)]

theorem luma_eq {msx msy ix iy : Nat} (h : Sizes msx msy) (hx : ix < msx * 8) (hy : iy < msy * 8) :
    (if msy * 8 = 16 ∧ 8 ≤ iy then 64 else 0) + iy * 8 + ix + (if msx * 8 = 16 ∧ 8 ≤ ix then 56 else 0) = lumaAt msx ix iy := by
  have h1 : (ix < 8 ∧ ix / 8 = 0) ∨ (8 ≤ ix ∧ ix / 8 = 1) := by rcases h with ⟨rfl, rfl⟩ | ⟨rfl, rfl⟩ | ⟨rfl, rfl⟩ <;> omega
  have h2 : (iy < 8 ∧ iy / 8 = 0) ∨ (8 ≤ iy ∧ iy / 8 = 1) := by rcases h with ⟨rfl, rfl⟩ | ⟨rfl, rfl⟩ | ⟨rfl, rfl⟩ <;> omega
  unfold lumaAt
  rcases h1 with ⟨a1, a2⟩ | ⟨a1, a2⟩ <;> rcases h2 with ⟨b1, b2⟩ | ⟨b1, b2⟩ <;> rw [a2, b2] <;> rcases h with ⟨rfl, rfl⟩ | ⟨rfl, rfl⟩ | ⟨rfl, rfl⟩ <;> (repeat' split) <;> omega

theorem chroma_eq {msx msy ix iy : Nat} (h : Sizes msx msy) :
    (if msy * 8 = 16 then 64 * 4 + iy / 2 * 8 else msx * 8 * 8 + iy * 8) + (if msx * 8 = 16 then ix / 2 else ix) = chromaAt msx msy ix iy := by
  unfold chromaAt
  rcases h with ⟨rfl, rfl⟩ | ⟨rfl, rfl⟩ | ⟨rfl, rfl⟩ <;> simp <;> omega

theorem unit_bounds {msx msy ix iy work mcu : Nat} (h : Sizes msx msy) (hx : ix < msx * 8) (hy : iy < msy * 8) (hw : work = max (msy * msx * 64 * 2 + 64) 256) (hm : mcu = (msy * msx + 2) * 64) :
    lumaAt msx ix iy < mcu ∧ chromaAt msx msy ix iy + 64 < mcu ∧ 3 * (iy * (msx * 8) + ix) ≤ work + 2 * lumaAt msx ix iy ∧
    3 * (iy * (msx * 8) + ix) ≤ work + 2 * chromaAt msx msy ix iy ∧ 3 * (iy * (msx * 8) + ix + 1) ≤ work + 2 * mcu := by
  have h1 : (ix < 8 ∧ ix / 8 = 0) ∨ (8 ≤ ix ∧ ix / 8 = 1) := by rcases h with ⟨rfl, rfl⟩ | ⟨rfl, rfl⟩ | ⟨rfl, rfl⟩ <;> omega
  have h2 : (iy < 8 ∧ iy / 8 = 0) ∨ (8 ≤ iy ∧ iy / 8 = 1) := by rcases h with ⟨rfl, rfl⟩ | ⟨rfl, rfl⟩ | ⟨rfl, rfl⟩ <;> omega
  unfold lumaAt chromaAt
  subst hw hm
  rcases h1 with ⟨a1, a2⟩ | ⟨a1, a2⟩ <;> rcases h2 with ⟨b1, b2⟩ | ⟨b1, b2⟩ <;> rw [a2, b2] <;> rcases h with ⟨rfl, rfl⟩ | ⟨rfl, rfl⟩ | ⟨rfl, rfl⟩ <;> omega

theorem line_spec {size : Nat} {jd : JD} (hr : jd.Ready size) {buf : List Int} (hb : buf.length = jd.mcu) {iy : Nat} (hiy : iy < jd.msy * 8) :
    ∀ n ix, ix + n = jd.msx * 8 →
      line jd buf (jd.msx * 8) n ix ((if jd.msy * 8 = 16 ∧ 8 ≤ iy then 64 else 0) + iy * 8 + ix + (if jd.msx * 8 = 16 ∧ 8 < ix then 56 else 0))
        ((if jd.msy * 8 = 16 then 64 * 4 + iy / 2 * 8 else jd.msx * 8 * 8 + iy * 8) + (if jd.msx * 8 = 16 then ix / 2 else ix)) (iy * (jd.msx * 8) + ix) =
      .ok ((List.range' ix n).map fun i => pixel jd.msx jd.msy buf i iy) := by
  intro n
  induction n with
  | zero => intro ix _; rfl
  | succ n ih =>
    intro ix hix
    have hmcu := hr.mcu
    have hwork := hr.work
    have ih := ih (ix + 1) (by omega)
    have hY := luma_eq hr.sizes (show ix < jd.msx * 8 by omega) hiy
    have hC := chroma_eq (ix := ix) (iy := iy) hr.sizes
    obtain ⟨b1, b2, b3, b4, b5⟩ := unit_bounds hr.sizes (show ix < jd.msx * 8 by omega) hiy hwork hmcu
    rw [line, hC, elem_ok hb b4 (by omega), elem_ok hb (show 3 * _ ≤ jd.work + 2 * (chromaAt jd.msx jd.msy ix iy + 64) by omega) b2]
    simp only [bind, R.bind]
    have hpy : (if jd.msx * 8 = 16 ∧ ix = 8 then (if jd.msy * 8 = 16 ∧ 8 ≤ iy then 64 else 0) + iy * 8 + ix + (if jd.msx * 8 = 16 ∧ 8 < ix then 56 else 0) + 56
        else (if jd.msy * 8 = 16 ∧ 8 ≤ iy then 64 else 0) + iy * 8 + ix + (if jd.msx * 8 = 16 ∧ 8 < ix then 56 else 0)) = lumaAt jd.msx ix iy := by
      rw [← hY]; (repeat' split) <;> omega
    rw [hpy, elem_ok hb b3 b1]
    simp only
    rw [if_neg (by omega)]
    have hpy1 : lumaAt jd.msx ix iy + 1 = (if jd.msy * 8 = 16 ∧ 8 ≤ iy then 64 else 0) + iy * 8 + (ix + 1) + (if jd.msx * 8 = 16 ∧ 8 < ix + 1 then 56 else 0) := by
      rw [← hY]; (repeat' split) <;> omega
    have hpc1 : (if jd.msx * 8 = 16 then chromaAt jd.msx jd.msy ix iy + ix % 2 else chromaAt jd.msx jd.msy ix iy + 1) =
        (if jd.msy * 8 = 16 then 64 * 4 + iy / 2 * 8 else jd.msx * 8 * 8 + iy * 8) + (if jd.msx * 8 = 16 then (ix + 1) / 2 else (ix + 1)) := by
      rw [← hC]; (repeat' split) <;> omega
    rw [hpy1, hpc1, show iy * (jd.msx * 8) + ix + 1 = iy * (jd.msx * 8) + (ix + 1) by omega, ih]
    simp only [List.range'_succ, List.map_cons, pixel]

theorem lines_spec {size : Nat} {jd : JD} (hr : jd.Ready size) {buf : List Int} (hb : buf.length = jd.mcu) : ∀ n iy, iy + n = jd.msy * 8 →
    lines jd buf (jd.msx * 8) (jd.msy * 8) n iy = .ok ((List.range' iy n).map fun j => (List.range (jd.msx * 8)).map fun i => pixel jd.msx jd.msy buf i j) := by
  intro n
  induction n with
  | zero => intro iy _; rfl
  | succ n ih =>
    intro iy h
    have hl := line_spec hr hb (iy := iy) (by omega) (jd.msx * 8) 0 (by omega)
    simp only [Nat.add_zero, Nat.not_lt_zero, and_false, if_false, Nat.zero_div, ite_self] at hl
    simp only [lines, hl, bind, R.bind, ih (iy + 1) (by omega), List.range'_succ, List.map_cons, List.range_eq_range']

/-- `mcu_output` reads the elements before they are written over, and the rectangle has the pixels of the unit that are in the image. -/
theorem mcuOutput_spec {size : Nat} {jd : JD} (hr : jd.Ready size) {buf : List Int} (hb : buf.length = jd.mcu) {x y : Nat} (hx : x < jd.width) (hy : y < jd.height) :
    mcuOutput jd buf x y = .ok ⟨x, y, min (jd.msx * 8) (jd.width - x), min (jd.msy * 8) (jd.height - y),
      (List.range (min (jd.msy * 8) (jd.height - y))).map fun j => (List.range (min (jd.msx * 8) (jd.width - x))).map fun i => pixel jd.msx jd.msy buf i j⟩ := by
  have h1 := hr.image
  have hl := lines_spec hr hb (jd.msy * 8) 0 (by omega)
  simp only [mcuOutput, hl, bind, R.bind]
  have hrx : (if x + jd.msx * 8 ≤ jd.width then jd.msx * 8 else jd.width - x) = min (jd.msx * 8) (jd.width - x) := by split <;> omega
  have hry : (if y + jd.msy * 8 ≤ jd.height then jd.msy * 8 else jd.height - y) = min (jd.msy * 8) (jd.height - y) := by split <;> omega
  rw [hrx, hry, Nat.mod_eq_of_lt (show x < 2 ^ 16 by omega), Nat.mod_eq_of_lt (show y < 2 ^ 16 by omega)]
  congr 2
  simp only [← List.range_eq_range', ← List.map_take, List.take_range, List.map_map, Function.comp_def]
  rw [show min (min (jd.msy * 8) (jd.height - y)) (jd.msy * 8) = min (jd.msy * 8) (jd.height - y) by omega, show min (min (jd.msx * 8) (jd.width - x)) (jd.msx * 8) = min (jd.msx * 8) (jd.width - x) by omega]

/-- One unit. -/
theorem unit_safe {F : Arith} (hF : F.strict = false) {size : Nat} {jd : JD} (hr : jd.Ready size) {s : Scan} (hs : s.inp.Ok) {x y : Nat} (hx : x < jd.width) (hy : y < jd.height) :
    (unit F jd s x y).Safe fun (r, s1) => s1.inp.Ok ∧ ∃ buf, buf.length = jd.mcu ∧ r = ⟨x, y, min (jd.msx * 8) (jd.width - x), min (jd.msy * 8) (jd.height - y),
      (List.range (min (jd.msy * 8) (jd.height - y))).map fun j => (List.range (min (jd.msx * 8) (jd.width - x))).map fun i => pixel jd.msx jd.msy buf i j⟩ := by
  simp only [unit, bind]
  refine R.Safe.bind (P := fun x : Scan => x.inp.Ok) ?_ fun s1 _ h1 => ?_
  · simp only [interval]
    split
    · exact hs
    · split
      · exact R.Safe.bind (restart_safe hs s.rsc) fun _ _ h => h
      · exact hs
  · refine R.Safe.bind (mcuLoad_safe hF hr _ 0 s1.inp s1.dcv [] h1 (by omega) rfl) fun ⟨i, dcv, buf⟩ _ ⟨h2, h3⟩ => ?_
    simp only at h2 h3 ⊢
    rw [mcuOutput_spec hr h3 hx hy]
    exact ⟨h2, buf, h3, rfl⟩

/-- A rectangle as `jd_decomp` gives it to the output function. -/
def Rect.Of (jd : JD) (r : Rect) : Prop := r.left < jd.width ∧ r.top < jd.height ∧ ∃ buf : List Int, buf.length = jd.mcu ∧ r.width = min (jd.msx * 8) (jd.width - r.left) ∧ r.height = min (jd.msy * 8) (jd.height - r.top) ∧
  r.pixels = (List.range r.height).map fun j => (List.range r.width).map fun i => pixel jd.msx jd.msy buf i j

theorem row_safe {F : Arith} (hF : F.strict = false) {size : Nat} {jd : JD} (hr : jd.Ready size) {y : Nat} (hy : y < jd.height) : ∀ (n x : Nat) (s : Scan), s.inp.Ok → jd.width ≤ n + x →
    (row F jd y n x s).2 ≠ .ub ∧ (∀ r ∈ (row F jd y n x s).1, r.Of jd ∧ r.top = y) ∧
    (∀ px py, ((row F jd y n x s).1.countP (·.covers px py)) ≤ if x ≤ px ∧ px < jd.width ∧ y ≤ py ∧ py < min (y + jd.msy * 8) jd.height then 1 else 0) ∧
    ∀ s1, (row F jd y n x s).2 = .ok s1 → s1.inp.Ok ∧
      ∀ px py, ((row F jd y n x s).1.countP (·.covers px py)) = if x ≤ px ∧ px < jd.width ∧ y ≤ py ∧ py < min (y + jd.msy * 8) jd.height then 1 else 0 := by
  have hm : 0 < jd.msx := by rcases hr.sizes with h | h | h <;> omega
  intro n
  induction n with
  | zero =>
    intro x s hs hx
    simp only [row]
    rw [if_neg (by omega)]
    refine ⟨by simp, by simp, by simp, fun s1 h => ?_⟩
    simp only [R.ok.injEq] at h
    subst h
    exact ⟨hs, fun px py => by rw [if_neg (by omega)]; rfl⟩
  | succ n ih =>
    intro x s hs hx
    simp only [row]
    by_cases hxw : x < jd.width
    · rw [if_pos hxw]
      have hu := unit_safe hF hr hs hxw hy
      cases he : unit F jd s x y with
      | ub => rw [he] at hu; exact hu.elim
      | err e => exact ⟨by simp, by simp, by simp, by simp⟩
      | ok p =>
        obtain ⟨r, s1⟩ := p
        rw [he] at hu
        obtain ⟨h1, buf, hbl, hrr⟩ := hu
        obtain ⟨i1, i2, i3, i4⟩ := ih (x + jd.msx * 8) s1 h1 (by omega)
        · have hcov : ∀ px py, r.covers px py = decide (x ≤ px ∧ px < min (x + jd.msx * 8) jd.width ∧ y ≤ py ∧ py < min (y + jd.msy * 8) jd.height) := by
            intro px py
            rw [Bool.eq_iff_iff]
            simp only [hrr, Rect.covers, Bool.and_eq_true, decide_eq_true_eq]
            omega
          refine ⟨i1, ?_, ?_, ?_⟩
          · intro r' hr'
            rcases List.mem_cons.mp hr' with rfl | hr'
            · rw [hrr]; exact ⟨⟨hxw, hy, buf, hbl, rfl, rfl, rfl⟩, rfl⟩
            · exact i2 r' hr'
          · intro px py
            rw [List.countP_cons, hcov]
            have := i3 px py
            simp only [decide_eq_true_eq]
            split at this <;> split <;> split <;> omega
          · intro s2 ho
            obtain ⟨j1, j2⟩ := i4 s2 ho
            refine ⟨j1, fun px py => ?_⟩
            rw [List.countP_cons, hcov]
            have := j2 px py
            simp only [decide_eq_true_eq]
            split at this <;> split <;> split <;> omega
    · rw [if_neg hxw]
      refine ⟨by simp, by simp, by simp, fun s1 h => ?_⟩
      simp only [R.ok.injEq] at h
      subst h
      exact ⟨hs, fun px py => by rw [if_neg (by omega)]; rfl⟩

theorem rows_safe {F : Arith} (hF : F.strict = false) {size : Nat} {jd : JD} (hr : jd.Ready size) : ∀ (n y : Nat) (s : Scan), s.inp.Ok → jd.height ≤ n + y →
    (rows F jd n y s).2 ≠ .ub ∧ (∀ r ∈ (rows F jd n y s).1, r.Of jd) ∧
    (∀ px py, ((rows F jd n y s).1.countP (·.covers px py)) ≤ if px < jd.width ∧ y ≤ py ∧ py < jd.height then 1 else 0) ∧
    ((rows F jd n y s).2 = .ok () → ∀ px py, ((rows F jd n y s).1.countP (·.covers px py)) = if px < jd.width ∧ y ≤ py ∧ py < jd.height then 1 else 0) := by
  have hm : 0 < jd.msy := by rcases hr.sizes with h | h | h <;> omega
  intro n
  induction n with
  | zero =>
    intro y s hs hy
    simp only [rows]
    rw [if_neg (by omega)]
    exact ⟨by simp, by simp, by simp, fun _ px py => by rw [if_neg (by omega)]; rfl⟩
  | succ n ih =>
    intro y s hs hy
    simp only [rows]
    by_cases hyh : y < jd.height
    · rw [if_pos hyh]
      obtain ⟨r1, r2, r3, r4⟩ := row_safe hF hr hyh jd.width 0 s hs (by omega)
      cases hrow : row F jd y jd.width 0 s with
      | mk rs o =>
        rw [hrow] at r1 r2 r3 r4
        simp only at r1 r2 r3 r4
        have hle : ∀ px py, rs.countP (·.covers px py) ≤ if px < jd.width ∧ y ≤ py ∧ py < jd.height then 1 else 0 := by
          intro px py
          have := r3 px py
          split at this <;> split <;> omega
        cases o with
        | ub => simp at r1
        | err e => exact ⟨by simp, fun r h => (r2 r h).1, hle, by simp⟩
        | ok s1 =>
          obtain ⟨j1, j2⟩ := r4 s1 rfl
          obtain ⟨i1, i2, i3, i4⟩ := ih (y + jd.msy * 8) s1 j1 (by omega)
          · refine ⟨i1, ?_, ?_, ?_⟩
            · intro r h
              rcases List.mem_append.mp h with h | h
              · exact (r2 r h).1
              · exact i2 r h
            · intro px py
              rw [List.countP_append]
              have h1 := j2 px py
              have h2 := i3 px py
              split at h1 <;> split at h2 <;> split <;> omega
            · intro ho px py
              rw [List.countP_append]
              have h1 := j2 px py
              have h2 := i4 ho px py
              split at h1 <;> split at h2 <;> split <;> omega
    · rw [if_neg hyh]
      exact ⟨by simp, by simp, by simp, fun _ px py => by rw [if_neg (by omega)]; rfl⟩

end Verif.Jpg
