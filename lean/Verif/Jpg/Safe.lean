import Verif.Jpg.Huff

/-!
# Lemmas: preparation stays inside of its memory
-/

namespace Verif.Jpg

/-- A pool of `size` bytes: the blocks that were given out follow each other, and the free part is behind them. -/
structure Pool.Ok (size : Nat) (p : Pool) : Prop where
  total : p.next + p.left = size
  inside : ∀ b ∈ p.blocks, b.1 + b.2 ≤ p.next
  apart : p.blocks.Pairwise fun a b => b.1 + b.2 ≤ a.1
  aligned : p.next % 4 = 0 ∧ ∀ b ∈ p.blocks, b.1 % 4 = 0

theorem allocPool_ok {size : Nat} {p : Pool} (h : p.Ok size) {n a : Nat} {p' : Pool} (he : allocPool p n = some (a, p')) :
    p'.Ok size ∧ p'.blocks = (a, (n + 3) / 4 * 4) :: p.blocks ∧ n ≤ (n + 3) / 4 * 4 ∧ a = p.next ∧ p'.next = a + (n + 3) / 4 * 4 := by
  simp only [allocPool] at he
  split at he
  · rename_i hl
    simp only [Option.some.injEq, Prod.mk.injEq] at he
    obtain ⟨rfl, rfl⟩ := he
    refine ⟨⟨?_, ?_, ?_, ?_⟩, rfl, by omega, rfl, rfl⟩
    · have := h.total; simp only; omega
    · intro b hb
      rcases List.mem_cons.mp hb with rfl | hb
      · exact Nat.le_refl _
      · have := h.inside b hb; simp only; omega
    · exact List.pairwise_cons.mpr ⟨fun b hb => h.inside b hb, h.apart⟩
    · have := h.aligned.1
      refine ⟨by simp only; omega, ?_⟩
      intro b hb
      rcases List.mem_cons.mp hb with rfl | hb
      · exact this
      · exact h.aligned.2 b hb
  · simp at he

/-- The tables that have been loaded are whole. -/
structure JD.Tables (jd : JD) : Prop where
  huff : ∀ num cls hb, jd.huffbits num cls = some hb → ∃ t : Table, jd.table num cls = .ok t ∧ t.bits = hb ∧ t.Ok ∧ (cls = 0 → ∀ x ∈ t.data, x ≤ 11)
  quant : ∀ i q, jd.qttbl i = some q → q.length = 64

/-- The sizes of a unit that are known. -/
def Sizes (msx msy : Nat) : Prop := (msx = 1 ∧ msy = 1) ∨ (msx = 2 ∧ msy = 2) ∨ (msx = 2 ∧ msy = 1)

/-- The decoder between two segments. -/
structure JD.Between (size : Nat) (jd : JD) : Prop where
  pool : jd.pool.Ok size
  tables : jd.Tables
  qtid : ∀ i, jd.qtid i ≤ 3
  sizes : (jd.ncomp = 0 ∧ jd.msx = 0 ∧ jd.msy = 0) ∨ ((jd.ncomp = 1 ∨ jd.ncomp = 3) ∧ Sizes jd.msx jd.msy)
  buf : ∀ i, jd.inp.buf i < 256
  src : ∀ b ∈ jd.inp.src, b < 256
  empty : jd.inp.dptr = 0 ∧ jd.inp.dctr = 0 ∧ jd.inp.marker = 0 ∧ jd.inp.w = 0 ∧ jd.inp.wbit = 0

/-- The decoder is ready for the image. -/
structure JD.Ready (size : Nat) (jd : JD) : Prop where
  pool : jd.pool.Ok size
  huff : ∀ id cls, cls < 2 → (id = 0 ∨ (id = 1 ∧ jd.ncomp = 3)) → ∃ t : Table, jd.table id cls = .ok t ∧ t.Ok ∧ (cls = 0 → ∀ x ∈ t.data, x ≤ 11)
  quant : ∀ i, i < jd.ncomp → ∃ q, jd.quant i = .ok q ∧ q.length = 64
  ncomp : jd.ncomp = 1 ∨ jd.ncomp = 3
  sizes : Sizes jd.msx jd.msy
  work : jd.work = max (jd.msy * jd.msx * 64 * 2 + 64) 256
  mcu : jd.mcu = (jd.msy * jd.msx + 2) * 64
  buffers : ∃ a rest, jd.pool.blocks = (a + jd.work, 2 * jd.mcu) :: (a, jd.work) :: rest
  image : 0 < jd.width ∧ jd.width < 2 ^ 16 ∧ 0 < jd.height ∧ jd.height < 2 ^ 16
  inp : jd.inp.Ok ∧ jd.inp.wbit = 0 ∧ jd.inp.marker = 0

/-! ## Tables -/

theorem bytes_spec : ∀ (n : Nat) (l : List Nat), n ≤ l.length → bytes n l = .ok (l.take n, l.drop n) := by
  intro n
  induction n with
  | zero => intro l _; simp [bytes]
  | succ n ih =>
    intro l h
    cases l with
    | nil => simp at h
    | cons d l => simp only [bytes, ih l (by simpa using h), bind, R.bind, List.take_succ_cons, List.drop_succ_cons]

theorem zig_ipsf : ∀ i, i < 64 → ∃ zi f, at? zig i = .ok zi ∧ at? ipsf zi = .ok f ∧ zi < 64 := by
  intro i hi
  have : ∀ i, i < 64 → at? zig i = .ok (zig.getD i 0) ∧ at? ipsf (zig.getD i 0) = .ok (ipsf.getD (zig.getD i 0) 0) ∧ zig.getD i 0 < 64 := by decide +kernel
  exact ⟨_, _, this i hi⟩

theorem loadQt_spec : ∀ (n i : Nat) (data t : List Nat), i + n ≤ 64 → n ≤ data.length → t.length = 64 → ∃ t', loadQt n i data t = .ok (data.drop n, t') ∧ t'.length = 64 := by
  intro n
  induction n with
  | zero => intro i data t _ _ ht; exact ⟨t, by simp [loadQt], ht⟩
  | succ n ih =>
    intro i data t hi hd ht
    cases data with
    | nil => simp at hd
    | cons d data =>
      obtain ⟨zi, f, h1, h2, h3⟩ := zig_ipsf i (by omega)
      obtain ⟨t', e, ht'⟩ := ih (i + 1) data (t.set zi (d * f)) (by omega) (by simpa using hd) (by simpa using ht)
      refine ⟨t', ?_, ht'⟩
      simp only [loadQt, h1, h2, bind, R.bind, ht, h3, if_true, e, List.drop_succ_cons]

theorem createQt_spec {size : Nat} : ∀ (fuel : Nat) (jd : JD) (data : List Nat) (ndata : Nat), ndata < fuel → ndata ≤ data.length → jd.Between size →
    (createQt fuel jd data ndata).2 ≠ .ub ∧ ((createQt fuel jd data ndata).2 = .ok () → (createQt fuel jd data ndata).1.Between size ∧ (createQt fuel jd data ndata).1.inp = jd.inp) := by
  intro fuel
  induction fuel with
  | zero => intro jd data ndata h; omega
  | succ fuel ih =>
    intro jd data ndata hf hl hb
    rw [createQt.eq_def]
    simp only
    by_cases h0 : ndata = 0
    · rw [if_pos h0]; exact ⟨by simp, fun _ => ⟨hb, rfl⟩⟩
    · simp only [h0, if_false]
      by_cases h65 : ndata < 65
      · simp [h65]
      · simp only [h65, if_false]
        cases data with
        | nil => simp at hl; omega
        | cons d data =>
          simp only [List.length_cons] at hl
          by_cases hd : 16 ≤ d
          · simp [hd]
          · simp only [hd, if_false]
            cases ha : allocPool jd.pool (64 * 4) with
            | none => simp
            | some ap =>
              obtain ⟨a, p⟩ := ap
              obtain ⟨t', e, ht'⟩ := loadQt_spec 64 0 data (List.replicate 64 0) (by omega) (by omega) (by simp)
              simp only [e]
              apply ih
              · omega
              · simp; omega
              · refine ⟨(allocPool_ok hb.pool ha).1, ⟨hb.tables.huff, ?_⟩, hb.qtid, hb.sizes, hb.buf, hb.src, hb.empty⟩
                intro i q hq
                simp only [upd] at hq
                split at hq
                · simp only [Option.some.injEq] at hq; rw [← hq]; exact ht'
                · exact hb.tables.quant i q hq

theorem createHuff_spec {size : Nat} : ∀ (fuel : Nat) (jd : JD) (data : List Nat) (ndata : Nat), ndata < fuel → ndata ≤ data.length → jd.Between size →
    (createHuff fuel jd data ndata).2 ≠ .ub ∧ ((createHuff fuel jd data ndata).2 = .ok () → (createHuff fuel jd data ndata).1.Between size ∧ (createHuff fuel jd data ndata).1.inp = jd.inp) := by
  intro fuel
  induction fuel with
  | zero => intro jd data ndata h; omega
  | succ fuel ih =>
    intro jd data ndata hf hl hb
    rw [createHuff.eq_def]
    simp only
    by_cases h0 : ndata = 0
    · rw [if_pos h0]; exact ⟨by simp, fun _ => ⟨hb, rfl⟩⟩
    · simp only [h0, if_false]
      by_cases h17 : ndata < 17
      · simp [h17]
      · simp only [h17, if_false]
        cases data with
        | nil => simp at hl; omega
        | cons d data =>
          simp only [List.length_cons] at hl
          simp only
          by_cases hd : ¬(d = 0 ∨ d = 1 ∨ d = 16 ∨ d = 17)
          · simp only [hd, not_false_eq_true, if_true]; simp
          · rw [if_neg hd]
            cases ha : allocPool jd.pool 16 with
            | none => simp
            | some ap =>
              obtain ⟨a1, p1⟩ := ap
              simp only [bytes_spec 16 data (by omega)]
              have hlen : (data.take 16).length = 16 := by simp; omega
              generalize data.take 16 = hb' at *
              cases ha2 : allocPool p1 (hb'.sum * 2) with
              | none => simp
              | some ap =>
                obtain ⟨a2, p2⟩ := ap
                simp only
                rw [if_neg (by rw [codes_length]; omega)]
                by_cases hnp : ndata - 17 < hb'.sum
                · simp [hnp]
                · rw [if_neg hnp]
                  cases ha3 : allocPool p2 hb'.sum with
                  | none => simp
                  | some ap =>
                    obtain ⟨a3, p3⟩ := ap
                    have hdl : hb'.sum ≤ (data.drop 16).length := by simp; omega
                    simp only [bytes_spec _ _ hdl]
                    have hdl' : ((data.drop 16).take hb'.sum).length = hb'.sum := by rw [List.length_take]; omega
                    generalize (data.drop 16).take hb'.sum = hd' at *
                    split
                    · simp
                    · rename_i hbad
                      apply ih
                      · omega
                      · simp; omega
                      · refine ⟨(allocPool_ok (allocPool_ok (allocPool_ok hb.pool ha).1 ha2).1 ha3).1, ⟨?_, hb.tables.quant⟩, hb.qtid, hb.sizes, hb.buf, hb.src, hb.empty⟩
                        intro num cls hbx hx
                        simp only [upd2] at hx
                        by_cases hsame : num = d % 16 ∧ cls = d / 16
                        · rw [if_pos hsame] at hx
                          refine ⟨⟨hb', codes hb' 0, hd'⟩, ?_, by simpa using hx, ⟨hlen, rfl, hdl'⟩, ?_⟩
                          · simp [JD.table, upd2, hsame]
                          · intro hc x hxm
                            apply Nat.le_of_not_lt
                            intro hlt
                            exact hbad ⟨by omega, x, hxm, hlt⟩
                        · rw [if_neg hsame] at hx
                          obtain ⟨t, h1, h2⟩ := hb.tables.huff num cls hbx hx
                          refine ⟨t, ?_, h2⟩
                          simp only [JD.table, upd2, if_neg hsame]
                          exact h1

theorem createQt_size : ∀ (fuel : Nat) (jd : JD) (data : List Nat) (ndata : Nat), (createQt fuel jd data ndata).1.width = jd.width ∧ (createQt fuel jd data ndata).1.height = jd.height := by
  intro fuel
  induction fuel with
  | zero => intro jd data ndata; exact ⟨rfl, rfl⟩
  | succ fuel ih =>
    intro jd data ndata
    rw [createQt.eq_def]
    simp only
    repeat' split
    all_goals first | exact ⟨rfl, rfl⟩ | exact ih _ _ _

theorem createHuff_size : ∀ (fuel : Nat) (jd : JD) (data : List Nat) (ndata : Nat), (createHuff fuel jd data ndata).1.width = jd.width ∧ (createHuff fuel jd data ndata).1.height = jd.height := by
  intro fuel
  induction fuel with
  | zero => intro jd data ndata; exact ⟨rfl, rfl⟩
  | succ fuel ih =>
    intro jd data ndata
    rw [createHuff.eq_def]
    simp only
    repeat' split
    all_goals first | exact ⟨rfl, rfl⟩ | exact ih _ _ _

/-! ## Segments -/

theorem infunc_ok {buf : Nat → Nat} {src : List Nat} {off n : Nat} (h : off + n ≤ szbuf) (hb : ∀ i, buf i < 256) (hs : ∀ b ∈ src, b < 256) :
    ∃ buf', infunc buf src off n = .ok (min n src.length, buf', src.drop (min n src.length)) ∧ (∀ i, buf' i < 256) ∧ ∀ b ∈ src.drop (min n src.length), b < 256 := by
  refine ⟨fun i => if off ≤ i ∧ i < off + min n src.length then src.getD (i - off) 0 else buf i, ?_, ?_, fun b hb' => hs b (List.mem_of_mem_drop hb')⟩
  · simp only [infunc]; rw [if_pos (by omega)]
  · intro i
    simp only
    split
    · rw [List.getD_eq_getElem?_getD]
      cases hx : src[i - off]? with
      | none => simp
      | some x => exact hs x (List.mem_of_getElem? hx)
    · exact hb i

theorem load_spec {size : Nat} {jd : JD} (hb : jd.Between size) {len : Nat} (hl : len ≤ szbuf) :
    (∃ e, load jd len = .err e) ∨ ∃ jd', load jd len = .ok jd' ∧ jd'.Between size ∧ jd'.inp.src.length + len = jd.inp.src.length ∧ jd'.width = jd.width ∧ jd'.height = jd.height := by
  obtain ⟨buf', he, h1, h2⟩ := infunc_ok (off := 0) (n := len) (by omega) hb.buf hb.src
  simp only [load, he, bind, R.bind]
  by_cases hn : min len jd.inp.src.length ≠ len
  · rw [if_pos hn]; exact .inl ⟨_, rfl⟩
  · rw [if_neg hn]
    right
    exact ⟨_, rfl, ⟨hb.pool, ⟨hb.tables.huff, hb.tables.quant⟩, hb.qtid, hb.sizes, h1, h2, hb.empty⟩, by simp; omega, rfl, rfl⟩

theorem components_spec {size : Nat} : ∀ (n i : Nat) (jd : JD), (jd.pool.Ok size) → jd.Tables → (∀ k, jd.qtid k ≤ 3) → (i ≠ 0 → Sizes jd.msx jd.msy) →
    (components n i jd).2 ≠ .ub ∧
    ((components n i jd).2 = .ok () → (components n i jd).1.pool.Ok size ∧ (components n i jd).1.Tables ∧ (∀ k, (components n i jd).1.qtid k ≤ 3) ∧ (i + n ≠ 0 → Sizes (components n i jd).1.msx (components n i jd).1.msy) ∧
      (components n i jd).1.inp = jd.inp ∧ (components n i jd).1.ncomp = jd.ncomp ∧ (components n i jd).1.width = jd.width ∧ (components n i jd).1.height = jd.height) := by
  intro n
  induction n with
  | zero => intro i jd h1 h2 h3 h4; exact ⟨by simp [components], fun _ => ⟨h1, h2, h3, h4, rfl, rfl, rfl, rfl⟩⟩
  | succ n ih =>
    intro i jd h1 h2 h3 h4
    simp only [components]
    by_cases hi : i = 0
    · simp only [hi, if_true]
      by_cases hbad : jd.inp.buf (7 + 3 * 0) ≠ 0x11 ∧ jd.inp.buf (7 + 3 * 0) ≠ 0x22 ∧ jd.inp.buf (7 + 3 * 0) ≠ 0x21
      · rw [if_pos hbad]; simp
      · rw [if_neg hbad]
        by_cases hq : 3 < jd.inp.buf (8 + 3 * 0)
        · rw [if_pos hq]; simp
        · rw [if_neg hq]
          have hsz : Sizes (jd.inp.buf (7 + 3 * 0) / 16) (jd.inp.buf (7 + 3 * 0) % 16) := by
            have : jd.inp.buf (7 + 3 * 0) = 0x11 ∨ jd.inp.buf (7 + 3 * 0) = 0x22 ∨ jd.inp.buf (7 + 3 * 0) = 0x21 := by omega
            unfold Sizes
            rcases this with h | h | h <;> rw [h] <;> decide
          have := ih (0 + 1) { jd with msx := jd.inp.buf (7 + 3 * 0) / 16, msy := jd.inp.buf (7 + 3 * 0) % 16, qtid := upd jd.qtid 0 (jd.inp.buf (8 + 3 * 0)) } h1 ⟨h2.huff, h2.quant⟩
            (by intro k; simp only [upd]; split; omega; exact h3 k) (fun _ => hsz)
          refine ⟨this.1, fun h => ?_⟩
          obtain ⟨a, b, c, d, e⟩ := this.2 h
          exact ⟨a, b, c, fun _ => d (by omega), e⟩
    · simp only [hi, if_false]
      by_cases hbad : jd.inp.buf (7 + 3 * i) ≠ 0x11
      · rw [if_pos hbad]; simp
      · rw [if_neg hbad]
        by_cases hq : 3 < jd.inp.buf (8 + 3 * i)
        · rw [if_pos hq]; simp
        · rw [if_neg hq]
          have := ih (i + 1) { jd with qtid := upd jd.qtid i (jd.inp.buf (8 + 3 * i)) } h1 ⟨h2.huff, h2.quant⟩
            (by intro k; simp only [upd]; split; omega; exact h3 k) (fun _ => h4 hi)
          refine ⟨this.1, fun h => ?_⟩
          obtain ⟨a, b, c, d, e⟩ := this.2 h
          exact ⟨a, b, c, fun _ => d (by omega), e⟩

theorem tablesLoaded_spec {jd : JD} (hq : ∀ k, jd.qtid k ≤ 3) : ∀ n i, tablesLoaded jd n i ≠ .ub ∧ (tablesLoaded jd n i = .ok () →
    ∀ k, i ≤ k → k < i + n → (∀ cls, cls < 2 → jd.huffbits (if k = 0 then 0 else 1) cls ≠ none) ∧ jd.qttbl (jd.qtid k) ≠ none) := by
  intro n
  induction n with
  | zero => intro i; exact ⟨by simp [tablesLoaded], fun _ k h1 h2 => by omega⟩
  | succ n ih =>
    intro i
    simp only [tablesLoaded]
    by_cases hx1 : jd.inp.buf (2 + 2 * i) ≠ 0 ∧ jd.inp.buf (2 + 2 * i) ≠ 0x11
    · rw [if_pos hx1]; simp
    · rw [if_neg hx1]
      by_cases hh : (jd.huffbits (if i = 0 then 0 else 1) 0).isNone = true ∨ (jd.huffbits (if i = 0 then 0 else 1) 1).isNone = true
      · rw [if_pos hh]; simp
      · rw [if_neg hh, if_neg (by have := hq i; omega)]
        by_cases hqt : (jd.qttbl (jd.qtid i)).isNone = true
        · rw [if_pos hqt]; simp
        · rw [if_neg hqt]
          refine ⟨(ih (i + 1)).1, fun h k h1 h2 => ?_⟩
          by_cases hk : k = i
          · subst hk
            refine ⟨?_, by cases hx : jd.qttbl (jd.qtid k) <;> simp_all⟩
            intro cls hc
            have h3 : ¬ (jd.huffbits (if k = 0 then 0 else 1) 0).isNone ∧ ¬ (jd.huffbits (if k = 0 then 0 else 1) 1).isNone := by
              constructor <;> intro h4 <;> exact hh (by simp [h4])
            have : cls = 0 ∨ cls = 1 := by omega
            rcases this with rfl | rfl
            · intro h5; exact h3.1 (by simp [h5])
            · intro h5; exact h3.2 (by simp [h5])
          · exact (ih (i + 1)).2 h k (by omega) (by omega)

theorem startOfScan_spec {size : Nat} {jd : JD} (hb : jd.Between size) (hw : jd.width < 2 ^ 16) (hh : jd.height < 2 ^ 16) (ofs : Nat) :
    (startOfScan jd ofs).2 ≠ .ub ∧ ((startOfScan jd ofs).2 = .ok () → (startOfScan jd ofs).1.Ready size) := by
  simp only [startOfScan]
  by_cases h0 : jd.width = 0 ∨ jd.height = 0
  · rw [if_pos h0]; simp
  rw [if_neg h0]
  by_cases hn : jd.inp.buf 0 ≠ jd.ncomp
  · rw [if_pos hn]; simp
  rw [if_neg hn]
  obtain ⟨ht1, ht2⟩ := tablesLoaded_spec hb.qtid jd.ncomp 0
  cases ht : tablesLoaded jd jd.ncomp 0 with
  | ub => exact absurd ht ht1
  | err e => simp
  | ok u =>
    have ht2 := ht2 ht
    by_cases hz : jd.msy * jd.msx = 0
    · simp [hz]
    · simp only [hz, if_false]
      have hsz : (jd.ncomp = 1 ∨ jd.ncomp = 3) ∧ Sizes jd.msx jd.msy := by
        rcases hb.sizes with ⟨_, h1, _⟩ | h
        · rw [h1] at hz; simp at hz
        · exact h
      generalize hlen : max (jd.msy * jd.msx * 64 * 2 + 64) 256 = len
      have hlen4 : (len + 3) / 4 * 4 = len := by
        rcases hsz.2 with ⟨h1, h2⟩ | ⟨h1, h2⟩ | ⟨h1, h2⟩ <;> rw [h1, h2] at hlen <;> omega
      have hmcu4 : ((jd.msy * jd.msx + 2) * 64 * 2 + 3) / 4 * 4 = 2 * ((jd.msy * jd.msx + 2) * 64) := by omega
      cases ha : allocPool jd.pool len with
      | none => simp
      | some ap =>
        obtain ⟨a, p1⟩ := ap
        simp only
        cases ha2 : allocPool p1 ((jd.msy * jd.msx + 2) * 64 * 2) with
        | none => simp
        | some ap =>
          obtain ⟨a2, p2⟩ := ap
          obtain ⟨q1, q2, _, q3, q4⟩ := allocPool_ok hb.pool ha
          obtain ⟨r1, r2, _, r3, r4⟩ := allocPool_ok q1 ha2
          rw [hlen4] at q2 q4
          rw [hmcu4] at r2 r4
          have hready : ∀ i : In, i.Ok ∧ i.wbit = 0 ∧ i.marker = 0 → JD.Ready size { jd with pool := p2, work := len, mcu := (jd.msy * jd.msx + 2) * 64, inp := i } := by
            intro i hi
            refine ⟨r1, ?_, ?_, hsz.1, hsz.2, hlen.symm, rfl, ⟨a, jd.pool.blocks, ?_⟩, ⟨by simp only; omega, hw, by simp only; omega, hh⟩, hi⟩
            · intro id cls hc hid
              have hx : jd.huffbits id cls ≠ none := by
                rcases hid with rfl | ⟨rfl, h3⟩
                · have := (ht2 0 (by omega) (by omega)).1 cls hc
                  simpa using this
                · have := (ht2 1 (by omega) (by simp only at h3; omega)).1 cls hc
                  simpa using this
              cases hy : jd.huffbits id cls with
              | none => exact absurd hy hx
              | some hbx =>
                obtain ⟨t, t1, t2, t3, t4⟩ := hb.tables.huff id cls hbx hy
                exact ⟨t, t1, t3, t4⟩
            · intro k hk
              have hx := (ht2 k (by omega) (by simp only at hk; omega)).2
              cases hy : jd.qttbl (jd.qtid k) with
              | none => exact absurd hy hx
              | some q =>
                refine ⟨q, ?_, hb.tables.quant _ _ hy⟩
                simp only [JD.quant, hy]
                rw [if_neg (by have := hb.qtid k; omega)]
            · rw [r2, q2, r3, q4]
          by_cases ho : ofs % szbuf = 0
          · simp only [ho, if_true]
            refine ⟨by simp, fun _ => hready _ ⟨⟨?_, ?_, hb.buf, ?_, ?_⟩, hb.empty.2.2.2.2, hb.empty.2.2.1⟩⟩
            · simp only [hb.empty.2.1]; omega
            · intro b hbb; simp only [In.rest, hb.empty.2.1, List.range_zero, List.map_nil, List.nil_append] at hbb; exact hb.src b hbb
            · simp only [hb.empty.2.2.2.2]; omega
            · simp only [hb.empty.2.2.2.1]; omega
          · simp only [ho, if_false]
            have hos : ofs % szbuf < szbuf := Nat.mod_lt _ (by decide)
            obtain ⟨buf', he, hb1, hb2⟩ := infunc_ok (off := ofs % szbuf) (n := szbuf - ofs % szbuf) (by omega) hb.buf hb.src
            simp only [he]
            refine ⟨by simp, fun _ => hready _ ⟨⟨?_, ?_, hb1, ?_, ?_⟩, hb.empty.2.2.2.2, hb.empty.2.2.1⟩⟩
            · simp only; omega
            · intro b hbb
              simp only [In.rest, List.mem_append, List.mem_map] at hbb
              rcases hbb with ⟨i, _, rfl⟩ | hbb
              · exact hb1 _
              · exact hb2 b hbb
            · simp only [hb.empty.2.2.2.2]; omega
            · simp only [hb.empty.2.2.2.1]; omega

theorem segments_spec {size : Nat} : ∀ (fuel : Nat) (jd : JD) (ofs : Nat), jd.inp.src.length < fuel → jd.Between size → jd.width < 2 ^ 16 → jd.height < 2 ^ 16 →
    (segments fuel jd ofs).2 ≠ .ub ∧ ((segments fuel jd ofs).2 = .ok () → (segments fuel jd ofs).1.Ready size) := by
  intro fuel
  induction fuel with
  | zero => intro jd ofs h; omega
  | succ fuel ih =>
    intro jd ofs hf hb hw hh
    rw [segments]
    rcases load_spec hb (show 4 ≤ szbuf by decide) with ⟨e, he⟩ | ⟨jd1, he, hb1, hl1, hw1, hh1⟩
    · rw [he]; simp
    · rw [he]
      simp only
      rw [← hw1] at hw
      rw [← hh1] at hh
      generalize word jd1.inp.buf 0 = marker
      generalize word jd1.inp.buf 2 = len
      by_cases hbad : len ≤ 2 ∨ marker / 256 ≠ 255
      · rw [if_pos hbad]; simp
      rw [if_neg hbad]
      generalize marker % 256 = m
      generalize ofs + 4 + (len - 2) = ofs'
      split
      · rename_i hm
        split
        · simp
        · rename_i hlen
          rcases load_spec hb1 (show len - 2 ≤ szbuf by omega) with ⟨e, he⟩ | ⟨jd2, he2, hb2, hl2, hw2, hh2⟩
          · rw [he]; simp
          · rw [he2]
            simp only
            rw [← hw2] at hw
            rw [← hh2] at hh
            have hword : ∀ i, word jd2.inp.buf i < 2 ^ 16 := by
              intro i
              have h1 := hb2.buf i
              have h2 := hb2.buf (i + 1)
              simp only [word]; omega
            by_cases hC0 : m = 0xC0
            · simp only [hC0, if_true]
              by_cases hnc : jd2.inp.buf 5 ≠ 3 ∧ jd2.inp.buf 5 ≠ 1
              · rw [if_pos hnc]; simp
              · rw [if_neg hnc]
                obtain ⟨c1, c2⟩ := components_spec (size := size) (jd2.inp.buf 5) 0 { jd2 with width := word jd2.inp.buf 3, height := word jd2.inp.buf 1, ncomp := jd2.inp.buf 5 } hb2.pool ⟨hb2.tables.huff, hb2.tables.quant⟩
                  hb2.qtid (by simp)
                cases hc : components (jd2.inp.buf 5) 0 { jd2 with width := word jd2.inp.buf 3, height := word jd2.inp.buf 1, ncomp := jd2.inp.buf 5 } with
                | mk jd3 r =>
                  rw [hc] at c1 c2
                  cases r with
                  | ub => simp at c1
                  | err e => simp
                  | ok u =>
                    obtain ⟨d1, d2, d3, d4, d5, d6, d7, d8⟩ := c2 rfl
                    simp only at d1 d2 d3 d4 d5 d6 d7 d8 ⊢
                    apply ih
                    · rw [d5]; omega
                    · refine ⟨d1, d2, d3, .inr ⟨by rw [d6]; omega, d4 (by omega)⟩, by rw [d5]; exact hb2.buf, by rw [d5]; exact hb2.src, by rw [d5]; exact hb2.empty⟩
                    · rw [d7]; exact hword 3
                    · rw [d8]; exact hword 1
            · rw [if_neg hC0]
              by_cases hDD : m = 0xDD
              · rw [if_pos hDD]
                apply ih
                · simp only; omega
                · exact ⟨hb2.pool, ⟨hb2.tables.huff, hb2.tables.quant⟩, hb2.qtid, hb2.sizes, hb2.buf, hb2.src, hb2.empty⟩
                · exact hw
                · exact hh
              · rw [if_neg hDD]
                have hseg : len - 2 ≤ (segment jd2.inp.buf).length := by simp [segment]; omega
                by_cases hC4 : m = 0xC4
                · rw [if_pos hC4]
                  obtain ⟨c1, c2⟩ := createHuff_spec (len - 2 + 1) jd2 (segment jd2.inp.buf) (len - 2) (by omega) hseg hb2
                  have c3 := createHuff_size (len - 2 + 1) jd2 (segment jd2.inp.buf) (len - 2)
                  cases hc : createHuff (len - 2 + 1) jd2 (segment jd2.inp.buf) (len - 2) with
                  | mk jd3 r =>
                    rw [hc] at c1 c2 c3
                    cases r with
                    | ub => simp at c1
                    | err e => simp
                    | ok u =>
                      obtain ⟨d1, d2⟩ := c2 rfl
                      simp only at d1 d2 c3 ⊢
                      exact ih _ _ (by rw [d2]; omega) d1 (by rw [c3.1]; exact hw) (by rw [c3.2]; exact hh)
                · rw [if_neg hC4]
                  by_cases hDB : m = 0xDB
                  · rw [if_pos hDB]
                    obtain ⟨c1, c2⟩ := createQt_spec (len - 2 + 1) jd2 (segment jd2.inp.buf) (len - 2) (by omega) hseg hb2
                    have c3 := createQt_size (len - 2 + 1) jd2 (segment jd2.inp.buf) (len - 2)
                    cases hc : createQt (len - 2 + 1) jd2 (segment jd2.inp.buf) (len - 2) with
                    | mk jd3 r =>
                      rw [hc] at c1 c2 c3
                      cases r with
                      | ub => simp at c1
                      | err e => simp
                      | ok u =>
                        obtain ⟨d1, d2⟩ := c2 rfl
                        simp only at d1 d2 c3 ⊢
                        exact ih _ _ (by rw [d2]; omega) d1 (by rw [c3.1]; exact hw) (by rw [c3.2]; exact hh)
                  · rw [if_neg hDB]
                    exact startOfScan_spec hb2 hw hh _
      · split
        · simp
        · split
          · simp
          · apply ih
            · simp; omega
            · exact ⟨hb1.pool, ⟨hb1.tables.huff, hb1.tables.quant⟩, hb1.qtid, hb1.sizes, hb1.buf, fun b h => hb1.src b (List.mem_of_mem_drop h), hb1.empty⟩
            · exact hw
            · exact hh

theorem findSOI_spec {size : Nat} : ∀ (src : List Nat) (jd : JD) (marker ofs : Nat), jd.Between size → (∀ b ∈ src, b < 256) →
    (findSOI src jd marker ofs).2 ≠ .ub ∧ ((∃ o, (findSOI src jd marker ofs).2 = .ok o) →
      (findSOI src jd marker ofs).1.Between size ∧ (findSOI src jd marker ofs).1.inp.src.length ≤ src.length ∧ (findSOI src jd marker ofs).1.width = jd.width ∧ (findSOI src jd marker ofs).1.height = jd.height) := by
  intro src
  induction src with
  | nil => intro jd marker ofs _ _; simp [findSOI]
  | cons b src ih =>
    intro jd marker ofs hb hs
    have hb' : JD.Between size { jd with inp := { jd.inp with src := src, buf := upd jd.inp.buf 0 b } } :=
      ⟨hb.pool, ⟨hb.tables.huff, hb.tables.quant⟩, hb.qtid, hb.sizes, by intro i; simp only [upd]; split; exact hs b (by simp); exact hb.buf i, fun x h => hs x (by simp [h]), hb.empty⟩
    simp only [findSOI]
    split
    · exact ⟨by simp, fun _ => ⟨hb', by simp, rfl, rfl⟩⟩
    · obtain ⟨h1, h2⟩ := ih { jd with inp := { jd.inp with src := src, buf := upd jd.inp.buf 0 b } } (marker % 256 * 256 + b) (ofs + 1) hb' (fun x h => hs x (by simp [h]))
      refine ⟨h1, fun h => ?_⟩
      obtain ⟨a, b', c⟩ := h2 h
      exact ⟨a, Nat.le_succ_of_le b', c⟩

/-- `jd_prepare` never leaves its memory; if it succeeds, the decoder is ready. -/
theorem prepare_spec (size : Nat) (src : List Nat) (hs : ∀ b ∈ src, b < 256) : (prepare size src).2 ≠ .ub ∧ ((prepare size src).2 = .ok () → (prepare size src).1.Ready size) := by
  have hp0 : (blank size src).pool.Ok size := ⟨by simp [blank], by simp [blank], by simp [blank], by simp [blank]⟩
  simp only [prepare]
  cases ha : allocPool (blank size src).pool szbuf with
  | none => simp
  | some ap =>
    obtain ⟨a, p⟩ := ap
    simp only
    have hb : JD.Between size { blank size src with pool := p } :=
      ⟨(allocPool_ok hp0 ha).1, ⟨by simp [blank], by simp [blank]⟩, by simp [blank], .inl ⟨rfl, rfl, rfl⟩, by simp [blank], hs, ⟨rfl, rfl, rfl, rfl, rfl⟩⟩
    obtain ⟨h1, h2⟩ := findSOI_spec src { blank size src with pool := p } 0 0 hb hs
    cases hf : findSOI src { blank size src with pool := p } 0 0 with
    | mk jd r =>
      rw [hf] at h1 h2
      cases r with
      | ub => simp at h1
      | err e => simp
      | ok ofs =>
        obtain ⟨c1, c2, c3, c4⟩ := h2 ⟨ofs, rfl⟩
        simp only at c1 c2 c3 c4 ⊢
        exact segments_spec _ _ _ (by omega) c1 (by rw [c3]; simp [blank]) (by rw [c4]; simp [blank])

end Verif.Jpg
