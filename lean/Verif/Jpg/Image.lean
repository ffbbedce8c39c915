import Verif.Jpg.Decode

/-!
# Lemmas: an encoded picture is decoded
-/

namespace Verif.Jpg

/-- The decoder has the tables `T` and the factors `q` for `ncomp` components. -/
structure JD.Has (jd : JD) (T : Nat → Nat → Table) (q : Nat → List Nat) : Prop where
  table : ∀ c cls, c < jd.ncomp → cls < 2 → jd.table (tableId c) cls = .ok (T (tableId c) cls) ∧ (T (tableId c) cls).Ok ∧ (T (tableId c) cls).Valid
  quant : ∀ c, c < jd.ncomp → jd.quant c = .ok (q c) ∧ (q c).length = 64

theorem wrap16_small {x : Int} (h : x.natAbs ≤ 2047) : wrap16 x = x := by unfold wrap16; omega

theorem elements_length (F : Arith) (q : List Nat) (b : List Int) : (elements F q b).length = 64 := by
  unfold elements; split
  · simp
  · exact F.len _

theorem getD_of_cons {b : List Int} (h : b.length = 64) : b = b.getD 0 0 :: b.tail ∧ b.tail.length = 63 := by
  cases b with
  | nil => simp at h
  | cons a l => simp at h ⊢; exact h

section
variable {F : Arith} {size : Nat} {jd : JD} (hr : jd.Ready size) {T : Nat → Nat → Table} {q : Nat → List Nat} (hh : jd.Has T q)
include hr hh

/-- The blocks that are in the stream. -/
theorem mcuLoad_blocks {S : Stream} (hS : S.Total) : ∀ (bs : List (List Int)) (m blk : Nat) (s : In) (pred pred' : Nat → Int) (buf : List Int) (l : List Bool),
    encodeUnit T (jd.msx * jd.msy) blk pred bs = some (l, pred') → s.Ok → s.stream = S.after l → (∀ c, (pred c).natAbs ≤ 2047) → (∀ b ∈ bs, b.length = 64 ∧ ∀ c ∈ b, c.natAbs ≤ 2047) →
    (∀ n b, bs[n]? = some b → Exact F (q (component (jd.msx * jd.msy) (blk + n))) 0 b) → buf.length = 64 * blk → blk + bs.length + m = jd.msx * jd.msy + 2 → (blk + bs.length ≤ jd.msx * jd.msy ∨ jd.ncomp = 3) →
    ∃ s1, mcuLoad F jd (bs.length + m) blk s pred buf = mcuLoad F jd m (blk + bs.length) s1 pred' (buf ++ unitElements F q (jd.msx * jd.msy) blk bs) ∧ s1.Ok ∧ s1.stream = S ∧ (∀ c, (pred' c).natAbs ≤ 2047) ∧
      (unitElements F q (jd.msx * jd.msy) blk bs).length = 64 * bs.length := by
  have hmcu : jd.mcu = (jd.msx * jd.msy + 2) * 64 := by rw [hr.mcu, Nat.mul_comm jd.msy]
  have hwork : 256 ≤ jd.work := by rw [hr.work]; omega
  intro bs
  induction bs with
  | nil =>
    intro m blk s pred pred' buf l he hs hst hp _ _ _ _ _
    simp only [encodeUnit, Option.some.injEq, Prod.mk.injEq] at he
    obtain ⟨rfl, rfl⟩ := he
    exact ⟨s, by simp [unitElements], hs, by rw [hst, after_nil], hp, rfl⟩
  | cons b bs ih =>
    intro m blk s pred pred' buf l he hs hst hp hb hex hbl hm hcol
    simp only [encodeUnit, bind, Option.bind_eq_some_iff, Option.some.injEq, Prod.exists, Prod.mk.injEq] at he
    obtain ⟨l1, he1, l2, p2, he2, rfl, rfl⟩ := he
    rw [after_append] at hst
    simp only [List.length_cons] at hm hcol ⊢
    generalize hcmp : component (jd.msx * jd.msy) blk = cmp at *
    have hc3 : cmp < jd.ncomp := by
      have := hr.ncomp
      rw [← hcmp, component]; split <;> omega
    have hc2 : cmp ≤ 2 := by rw [← hcmp, component]; split <;> omega
    obtain ⟨hlen, hco⟩ := hb b (by simp)
    obtain ⟨hb1, hb2⟩ := getD_of_cons hlen
    have hdc : (b.getD 0 0).natAbs ≤ 2047 := hco _ (by rw [hb1]; simp)
    have hpc := hp cmp
    obtain ⟨t1, t2, t3⟩ := hh.table cmp 0 hc3 (by omega)
    obtain ⟨u1, u2, u3⟩ := hh.table cmp 1 hc3 (by omega)
    obtain ⟨q1, q2⟩ := hh.quant cmp hc3
    obtain ⟨s1, hblk, ok1, st1⟩ := block_spec (F := F) (dcv := pred cmp) t1 u1 t2 t3 u2 u3 q1 q2 hs (total_after hS _) hb2 (fun c hc => by have := hco c (List.mem_of_mem_tail hc); omega) (by omega) he1 hst (wrap16_small hpc)
      (by rw [show pred cmp + (b.getD 0 0 - pred cmp) = b.getD 0 0 by omega, ← hb1, ← hcmp]; exact hex 0 b rfl)
    rw [show pred cmp + (b.getD 0 0 - pred cmp) = b.getD 0 0 by omega, wrap16_small hdc, ← hb1] at hblk
    have hp' : ∀ c, (upd pred cmp (b.getD 0 0) c).natAbs ≤ 2047 := by intro c; simp only [upd]; split; exact hdc; exact hp c
    obtain ⟨s2, e2, ok2, st2, hp2, hl2⟩ := ih m (blk + 1) s1 (upd pred cmp (b.getD 0 0)) p2 (buf ++ elements F (q cmp) b) l2 he2 ok1 st1 hp' (fun x hx => hb x (by simp [hx]))
      (fun n b' hb' => by rw [show blk + 1 + n = blk + (n + 1) by omega]; exact hex (n + 1) b' (by simpa using hb')) (by rw [List.length_append, hbl, elements_length]; omega) (by omega) (by omega)
    refine ⟨s2, ?_, ok2, st2, hp2, ?_⟩
    · rw [show bs.length + 1 + m = (bs.length + m) + 1 by omega, mcuLoad]
      simp only
      have hcmp' : (if blk < jd.msx * jd.msy then 0 else blk - jd.msx * jd.msy + 1) = cmp := hcmp
      rw [hcmp', if_neg (by omega), if_neg (by have := hr.ncomp; omega), if_neg (by omega), hblk]
      simp only [bind, R.bind]
      rw [e2]
      simp only [unitElements, hcmp, List.append_assoc]
      congr 1; omega
    · simp only [unitElements, List.length_append, elements_length, hl2]; omega

/-- The blocks of a unit. -/
theorem mcuLoad_unit {S : Stream} (hS : S.Total) {u : List (List Int)} {s : In} {pred pred' : Nat → Int} {l : List Bool} (he : encodeUnit T (jd.msx * jd.msy) 0 pred u = some (l, pred')) (hs : s.Ok)
    (hst : s.stream = S.after l) (hp : ∀ c, (pred c).natAbs ≤ 2047) (hu : u.length = jd.msx * jd.msy + (if jd.ncomp = 3 then 2 else 0)) (hb : ∀ b ∈ u, b.length = 64 ∧ ∀ c ∈ b, c.natAbs ≤ 2047)
    (hex : ∀ n b, u[n]? = some b → Exact F (q (component (jd.msx * jd.msy) n)) 0 b) :
    ∃ s1, mcuLoad F jd (jd.msx * jd.msy + 2) 0 s pred [] = .ok (s1, pred', fullUnit F q (jd.msx * jd.msy) jd.ncomp u) ∧ s1.Ok ∧ s1.stream = S ∧ (∀ c, (pred' c).natAbs ≤ 2047) ∧
      (fullUnit F q (jd.msx * jd.msy) jd.ncomp u).length = jd.mcu := by
  have hmcu : jd.mcu = (jd.msx * jd.msy + 2) * 64 := by rw [hr.mcu, Nat.mul_comm jd.msy]
  have hwork : 256 ≤ jd.work := by rw [hr.work]; omega
  by_cases h3 : jd.ncomp = 3
  · rw [if_pos h3] at hu
    obtain ⟨s1, e1, ok1, st1, hp1, hl1⟩ := mcuLoad_blocks hr hh hS u 0 0 s pred pred' [] l he hs hst hp hb (by simpa using hex) rfl (by omega) (.inr h3)
    rw [Nat.add_zero, hu, mcuLoad] at e1
    refine ⟨s1, ?_, ok1, st1, hp1, ?_⟩
    · rw [e1]; simp [fullUnit, h3]
    · simp [fullUnit, h3, hl1, hu, hmcu]; omega
  · rw [if_neg h3] at hu
    obtain ⟨s1, e1, ok1, st1, hp1, hl1⟩ := mcuLoad_blocks hr hh hS u 2 0 s pred pred' [] l he hs hst hp hb (by simpa using hex) rfl (by omega) (.inl (by omega))
    rw [show u.length + 2 = jd.msx * jd.msy + 2 by omega] at e1
    simp only [List.nil_append] at e1
    refine ⟨s1, ?_, ok1, st1, hp1, ?_⟩
    · rw [e1]
      simp only [mcuLoad]
      rw [if_neg (by rw [hl1]; omega), if_pos ⟨by split <;> omega, h3⟩, if_neg (by simp [hl1]; omega), if_pos ⟨by split <;> omega, h3⟩]
      simp only [fullUnit, h3, if_false, List.append_assoc, List.replicate_append_replicate]
    · simp [fullUnit, h3, hl1, hmcu]; omega

end

theorem encodeUnits_append (T : Nat → Nat → Table) (n : Nat) : ∀ (a b : List (List (List Int))) (pred : Nat → Int) (l : List Bool), encodeUnits T n pred (a ++ b) = some l →
    ∃ l1 l2 pred', l = l1 ++ l2 ∧ encodeUnits T n pred a = some l1 ∧ encodeUnits T n pred' b = some l2 ∧ ∀ c, encodeUnits T n pred (a ++ c) = (encodeUnits T n pred' c).map (l1 ++ ·) := by
  intro a
  induction a with
  | nil => intro b pred l h; exact ⟨[], l, pred, rfl, rfl, h, fun c => by simp⟩
  | cons u a ih =>
    intro b pred l h
    simp only [List.cons_append, encodeUnits, bind, Option.bind_eq_some_iff, Option.some.injEq, Prod.exists] at h
    obtain ⟨l1, p1, h1, l2, h2, rfl⟩ := h
    obtain ⟨m1, m2, p2, rfl, e1, e2, e3⟩ := ih b p1 l2 h2
    refine ⟨l1 ++ m1, m2, p2, by simp, ?_, e2, ?_⟩
    · simp only [encodeUnits, h1, e1, bind, Option.bind]
    · intro c
      simp only [List.cons_append, encodeUnits, h1, bind, Option.bind, e3]
      cases encodeUnits T n p2 c <;> simp

/-- A picture that fits the decoder. -/
structure Picture.Fits (P : Picture) (jd : JD) : Prop where
  width : P.width = jd.width
  height : P.height = jd.height
  msx : P.msx = jd.msx
  msy : P.msy = jd.msy
  ncomp : P.ncomp = jd.ncomp
  ok : P.Ok

section
variable {F : Arith} {size : Nat} {jd : JD} (hr : jd.Ready size) {T : Nat → Nat → Table} {q : Nat → List Nat} (hh : jd.Has T q) (hn : jd.nrst = 0) {P : Picture} (hP : P.Fits jd) (hE : P.Exact F q)
include hr hh hn hP hE

theorem unit_decodes {S : Stream} (hS : S.Total) {i j : Nat} (hx : jd.msx * 8 * i < jd.width) (hy : jd.msy * 8 * j < jd.height) {s : Scan} {l : List Bool} {pred' : Nat → Int}
    (he : encodeUnit T (jd.msx * jd.msy) 0 s.dcv (P.units i j) = some (l, pred')) (hs : s.inp.Ok) (hst : s.inp.stream = S.after l) (hp : ∀ c, (s.dcv c).natAbs ≤ 2047) :
    ∃ s1, unit F jd s (jd.msx * 8 * i) (jd.msy * 8 * j) = .ok (P.rect F q i j, s1) ∧ s1.inp.Ok ∧ s1.inp.stream = S ∧ s1.dcv = pred' ∧ ∀ c, (pred' c).natAbs ≤ 2047 := by
  obtain ⟨h1, h2⟩ := hP.ok i j
  rw [hP.msx, hP.msy, hP.ncomp] at h1
  obtain ⟨i1, e1, ok1, st1, hp1, hl1⟩ := mcuLoad_unit hr hh hS he hs hst hp h1 h2 (by have := hE i j; rw [hP.msx, hP.msy] at this; exact this)
  refine ⟨{ s with inp := i1, dcv := pred' }, ?_, ok1, st1, rfl, hp1⟩
  simp only [unit, interval, hn, if_true, bind, R.bind, e1, mcuOutput_spec hr hl1 hx hy, Picture.rect, hP.msx, hP.msy, hP.width, hP.height, hP.ncomp]

theorem row_decodes {S : Stream} (hS : S.Total) {j : Nat} (hy : jd.msy * 8 * j < jd.height) : ∀ (k i n : Nat) (s : Scan) (l : List Bool), i + k = P.columns → k ≤ n →
    encodeUnits T (jd.msx * jd.msy) s.dcv ((List.range' i k).map fun i => P.units i j) = some l → s.inp.Ok → s.inp.stream = S.after l → (∀ c, (s.dcv c).natAbs ≤ 2047) →
    ∃ s1, row F jd (jd.msy * 8 * j) n (jd.msx * 8 * i) s = ((List.range' i k).map fun i => P.rect F q i j, .ok s1) ∧ s1.inp.Ok ∧ s1.inp.stream = S ∧ (∀ c, (s1.dcv c).natAbs ≤ 2047) ∧
      ∀ more, encodeUnits T (jd.msx * jd.msy) s.dcv (((List.range' i k).map fun i => P.units i j) ++ more) = (encodeUnits T (jd.msx * jd.msy) s1.dcv more).map (l ++ ·) := by
  have hm : 0 < jd.msx * 8 := by rcases hr.sizes with h | h | h <;> omega
  have hcol : P.columns = (jd.width + (jd.msx * 8 - 1)) / (jd.msx * 8) := by rw [Picture.columns, hP.width, hP.msx]
  intro k
  induction k with
  | zero =>
    intro i n s l hi _ he hs hst hp
    simp only [List.range'_zero, List.map_nil, encodeUnits, Option.some.injEq] at he
    subst he
    have hge : ¬ jd.msx * 8 * i < jd.width := by
      intro hlt
      have : i < P.columns := by
        rw [hcol, Nat.lt_iff_add_one_le, Nat.le_div_iff_mul_le hm, Nat.add_mul, Nat.one_mul, Nat.mul_comm i]; omega
      omega
    refine ⟨s, ?_, hs, by rw [hst, after_nil], hp, fun more => by simp⟩
    cases n <;> simp [row, hge]
  | succ k ih =>
    intro i n s l hi hkn he hs hst hp
    obtain ⟨m, rfl⟩ := Nat.exists_eq_succ_of_ne_zero (show n ≠ 0 by omega)
    simp only [List.range'_succ, List.map_cons, encodeUnits, bind, Option.bind_eq_some_iff, Option.some.injEq, Prod.exists] at he
    obtain ⟨l1, p1, he1, l2, he2, rfl⟩ := he
    rw [after_append] at hst
    have hx : jd.msx * 8 * i < jd.width := by
      have : i + 1 ≤ P.columns := by omega
      rw [hcol, Nat.le_div_iff_mul_le hm, Nat.add_mul, Nat.one_mul, Nat.mul_comm i] at this
      omega
    obtain ⟨s1, e1, ok1, st1, hd1, hp1⟩ := unit_decodes hr hh hn hP hE (total_after hS _) hx hy he1 hs hst hp
    rw [← hd1] at he2 hp1
    obtain ⟨s2, e2, ok2, st2, hp2, hmore⟩ := ih (i + 1) m s1 l2 (by omega) (by omega) he2 ok1 st1 hp1
    refine ⟨s2, ?_, ok2, st2, hp2, ?_⟩
    · rw [row, if_pos hx, e1]
      simp only [show jd.msx * 8 * i + jd.msx * 8 = jd.msx * 8 * (i + 1) by rw [Nat.mul_add, Nat.mul_one], e2, List.range'_succ, List.map_cons]
    · intro more
      simp only [List.range'_succ, List.map_cons, List.cons_append, encodeUnits, he1, bind, Option.bind]
      rw [← hd1, hmore]
      cases encodeUnits T (jd.msx * jd.msy) s2.dcv more <;> simp

theorem rows_decodes {S : Stream} (hS : S.Total) : ∀ (k j n : Nat) (s : Scan) (l : List Bool), j + k = P.lines → k ≤ n →
    encodeUnits T (jd.msx * jd.msy) s.dcv ((List.range' j k).flatMap fun j => (List.range P.columns).map fun i => P.units i j) = some l → s.inp.Ok → s.inp.stream = S.after l → (∀ c, (s.dcv c).natAbs ≤ 2047) →
    rows F jd n (jd.msy * 8 * j) s = ((List.range' j k).flatMap fun j => (List.range P.columns).map fun i => P.rect F q i j, .ok ()) := by
  have hm : 0 < jd.msy * 8 := by rcases hr.sizes with h | h | h <;> omega
  have hmx : 0 < jd.msx * 8 := by rcases hr.sizes with h | h | h <;> omega
  have hlin : P.lines = (jd.height + (jd.msy * 8 - 1)) / (jd.msy * 8) := by rw [Picture.lines, hP.height, hP.msy]
  have hcw : P.columns ≤ jd.width := by
    rw [Picture.columns, hP.width, hP.msx]
    apply Nat.le_of_lt_succ
    rw [Nat.div_lt_iff_lt_mul hmx]
    have : jd.width + 1 ≤ (jd.width + 1) * (jd.msx * 8) := Nat.le_mul_of_pos_right _ hmx
    have h2 : jd.width * 1 ≤ jd.width * (jd.msx * 8) := Nat.mul_le_mul_left _ hmx
    rw [Nat.succ_mul]; omega
  intro k
  induction k with
  | zero =>
    intro j n s l hj _ he hs hst hp
    have hge : ¬ jd.msy * 8 * j < jd.height := by
      intro hlt
      have : j < P.lines := by
        rw [hlin, Nat.lt_iff_add_one_le, Nat.le_div_iff_mul_le hm, Nat.add_mul, Nat.one_mul, Nat.mul_comm j]; omega
      omega
    cases n <;> simp [rows, hge]
  | succ k ih =>
    intro j n s l hj hkn he hs hst hp
    obtain ⟨m, rfl⟩ := Nat.exists_eq_succ_of_ne_zero (show n ≠ 0 by omega)
    simp only [List.range'_succ, List.flatMap_cons] at he ⊢
    have hy : jd.msy * 8 * j < jd.height := by
      have : j + 1 ≤ P.lines := by omega
      rw [hlin, Nat.le_div_iff_mul_le hm, Nat.add_mul, Nat.one_mul, Nat.mul_comm j] at this
      omega
    obtain ⟨l1, l2, p', rfl, e1, e2, e3⟩ := encodeUnits_append _ _ _ _ _ _ he
    rw [after_append] at hst
    rw [List.range_eq_range'] at e1
    obtain ⟨s1, er, ok1, st1, hp1, hmore⟩ := row_decodes hr hh hn hP hE (total_after hS _) hy P.columns 0 jd.width s l1 (by omega) hcw e1 hs hst hp
    rw [← List.range_eq_range'] at hmore er
    have he2 : encodeUnits T (jd.msx * jd.msy) s1.dcv ((List.range' (j + 1) k).flatMap fun j => (List.range P.columns).map fun i => P.units i j) = some l2 := by
      have := hmore ((List.range' (j + 1) k).flatMap fun j => (List.range P.columns).map fun i => P.units i j)
      rw [he] at this
      cases hx : encodeUnits T (jd.msx * jd.msy) s1.dcv ((List.range' (j + 1) k).flatMap fun j => (List.range P.columns).map fun i => P.units i j) with
      | none => rw [hx] at this; simp at this
      | some l3 => rw [hx] at this; simpa using this.symm
    have h3 := ih (j + 1) m s1 l2 (by omega) (by omega) he2 ok1 st1 hp1
    rw [rows, if_pos hy]
    rw [Nat.mul_zero] at er
    rw [er]
    simp only [show jd.msy * 8 * j + jd.msy * 8 = jd.msy * 8 * (j + 1) by rw [Nat.mul_add, Nat.mul_one], h3]

/-- The whole picture. -/
theorem decomp_decodes {S : Stream} (hS : S.Total) {l : List Bool} (he : P.encode T = some l) (hst : jd.inp.stream = S.after l) : decomp F jd = (P.rects F q, .ok ()) := by
  have hm : 0 < jd.msy * 8 := by rcases hr.sizes with h | h | h <;> omega
  have hlin : P.lines ≤ jd.height := by
    rw [Picture.lines, hP.height, hP.msy]
    apply Nat.le_of_lt_succ
    rw [Nat.div_lt_iff_lt_mul hm]
    have h2 : jd.height * 1 ≤ jd.height * (jd.msy * 8) := Nat.mul_le_mul_left _ hm
    rw [Nat.succ_mul]; omega
  rw [Picture.encode, hP.msx, hP.msy, List.range_eq_range' (n := P.lines)] at he
  have := rows_decodes hr hh hn hP hE hS P.lines 0 jd.height ⟨jd.inp, fun _ => 0, 0, 0⟩ l (by omega) hlin (by simpa using he) hr.inp.1 hst (by simp)
  rw [decomp, Picture.rects, List.range_eq_range' (n := P.lines)]
  simpa using this

end

end Verif.Jpg
