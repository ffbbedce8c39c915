import Verif.Jpg.Image

/-!
# Lemmas: a file is prepared
-/

namespace Verif.Jpg

/-- Bytes at the front of a buffer. -/
def over (buf : Nat → Nat) (a : List Nat) : Nat → Nat := fun i => if i < a.length then a.getD i 0 else buf i

theorem load_ok {jd : JD} {a r : List Nat} (hs : jd.inp.src = a ++ r) (ha : a.length ≤ 512) : load jd a.length = .ok { jd with inp := { jd.inp with buf := over jd.inp.buf a, src := r } } := by
  have hm : min a.length jd.inp.src.length = a.length := by rw [hs]; simp
  simp only [load, infunc, bind, R.bind, hm, Nat.zero_add, szbuf, if_pos ha, Nat.zero_le, true_and, Nat.sub_zero, ne_eq, not_true_eq_false, if_false]
  congr 2
  congr 1
  · funext i
    simp only [over, hs]
    split
    · rename_i hi; rw [List.getD_eq_getElem?_getD, List.getD_eq_getElem?_getD, List.getElem?_append_left hi]
    · rfl
  · rw [hs, List.drop_left]

theorem segment_over (buf : Nat → Nat) (a : List Nat) (h : a.length ≤ 512) : ∃ junk, segment (over buf a) = a ++ junk := by
  have ht : (segment (over buf a)).take a.length = a := by
    apply List.ext_getElem
    · simp [segment, szbuf]; omega
    · intro i h1 h2
      simp [segment, over, h2]
  have h2 := List.take_append_drop a.length (segment (over buf a))
  rw [ht] at h2
  exact ⟨_, h2.symm⟩

theorem loadQt_values : ∀ (n i : Nat) (vals junk t : List Nat), i + n = 64 → vals.length = n → t.length = 64 →
    ∃ t1, loadQt n i (vals ++ junk) t = .ok (junk, t1) ∧ t1.length = 64 ∧ ∀ k, k < 64 → t1.getD (zig.getD k 0) 0 = if i ≤ k then vals.getD (k - i) 0 * ipsf.getD (zig.getD k 0) 0 else t.getD (zig.getD k 0) 0 := by
  have hip : ∀ k, k < 64 → at? ipsf k = .ok (ipsf.getD k 0) := by decide +kernel
  have hinj : ∀ a, a < 64 → ∀ b, b < 64 → zig.getD a 0 = zig.getD b 0 → a = b := by decide +kernel
  intro n
  induction n with
  | zero =>
    intro i vals junk t hi hv ht
    obtain rfl := List.length_eq_zero_iff.mp hv
    exact ⟨t, rfl, ht, fun k hk => by rw [if_neg (by omega)]⟩
  | succ n ih =>
    intro i vals junk t hi hv ht
    obtain ⟨v, vals, rfl⟩ := List.exists_cons_of_ne_nil (show vals ≠ [] by rintro rfl; simp at hv)
    obtain ⟨z1, z2⟩ := zig_get (show i < 64 by omega)
    obtain ⟨t1, e1, l1, h1⟩ := ih (i + 1) vals junk (t.set (zig.getD i 0) (v * ipsf.getD (zig.getD i 0) 0)) (by omega) (by simpa using hv) (by simpa using ht)
    refine ⟨t1, ?_, l1, ?_⟩
    · simp only [loadQt, bind, R.bind, z1, hip _ z2, List.cons_append]
      rw [if_pos (by omega), e1]
    · intro k hk
      rw [h1 k hk]
      by_cases hik : i = k
      · subst hik
        rw [if_neg (by omega), if_pos (Nat.le_refl _)]
        simp [List.getD_eq_getElem?_getD, List.getElem?_set, ht, z2] at *
        simp [z2]
      · by_cases h2 : i + 1 ≤ k
        · rw [if_pos h2, if_pos (by omega), show k - i = (k - (i + 1)) + 1 by omega]; simp
        · rw [if_neg h2, if_neg (by omega)]
          have : zig.getD i 0 ≠ zig.getD k 0 := fun h => hik (hinj _ (by omega) _ hk h)
          simp only [List.getD_eq_getElem?_getD] at this ⊢
          rw [List.getElem?_set_ne this]

theorem loadQt_factors {vals junk : List Nat} (hv : vals.length = 64) : loadQt 64 0 (vals ++ junk) (List.replicate 64 0) = .ok (junk, factors vals) := by
  obtain ⟨t1, e1, l1, h1⟩ := loadQt_values 64 0 vals junk (List.replicate 64 0) rfl hv (by simp)
  rw [e1]
  congr 2
  have hz : ∀ i, i < 64 → zig.getD (zig.idxOf i) 0 = i ∧ zig.idxOf i < 64 := by decide +kernel
  apply List.ext_getElem
  · simp [factors, l1]
  · intro i h2 h3
    obtain ⟨a, b⟩ := hz i (by omega)
    have := h1 _ b
    rw [a, if_pos (Nat.zero_le _)] at this
    simpa [factors, List.getD_eq_getElem?_getD, h2] using this

theorem createQt_one {f : Nat} {jd : JD} {id : Nat} {vals junk : List Nat} (hid : id < 4) (hv : vals.length = 64) (hp : 256 ≤ jd.pool.left) :
    ∃ p, createQt (f + 2) jd (id :: (vals ++ junk)) 65 = ({ jd with pool := p, qttbl := upd jd.qttbl id (some (factors vals)) }, .ok ()) ∧ p.left = jd.pool.left - 256 := by
  refine ⟨⟨jd.pool.next + 256, jd.pool.left - 256, (jd.pool.next, 256) :: jd.pool.blocks⟩, ?_, rfl⟩
  have ha : allocPool jd.pool (64 * 4) = some (jd.pool.next, ⟨jd.pool.next + 256, jd.pool.left - 256, (jd.pool.next, 256) :: jd.pool.blocks⟩) := by
    simp only [allocPool]; rw [if_pos (by omega)]
  simp only [createQt, show ¬ (65 = 0) by omega, show ¬ (65 < 65) by omega, if_false, show ¬ 16 ≤ id by omega, ha, loadQt_factors hv, Nat.mod_eq_of_lt hid, Nat.sub_self, if_true]

theorem bytes_append (a r : List Nat) : bytes a.length (a ++ r) = .ok (a, r) := by
  induction a with
  | nil => rfl
  | cons x a ih => simp only [List.length_cons, List.cons_append, bytes, ih, bind, R.bind]

theorem createHuff_one {f : Nat} {jd : JD} {num cls : Nat} {bits vals junk : List Nat} (hn : num < 2) (hc : cls < 2) (hb : bits.length = 16) (hv : vals.length = bits.sum) (h11 : cls = 0 → ∀ v ∈ vals, v ≤ 11)
    (hp : 16 + (2 * vals.length + 3) / 4 * 4 + (vals.length + 3) / 4 * 4 ≤ jd.pool.left) :
    ∃ p, createHuff (f + 2) jd ((16 * cls + num) :: (bits ++ vals ++ junk)) (17 + vals.length) =
      ({ jd with pool := p, huffbits := upd2 jd.huffbits num cls (some bits), huffcode := upd2 jd.huffcode num cls (some (codes bits 0)), huffdata := upd2 jd.huffdata num cls (some vals) }, .ok ()) ∧
      p.left = jd.pool.left - (16 + (2 * vals.length + 3) / 4 * 4 + (vals.length + 3) / 4 * 4) := by
  have a1 : allocPool jd.pool 16 = some (jd.pool.next, ⟨jd.pool.next + 16, jd.pool.left - 16, (jd.pool.next, 16) :: jd.pool.blocks⟩) := by
    simp only [allocPool]; rw [if_pos (by omega)]
  have a2 : ∀ (p : Pool) n, (n + 3) / 4 * 4 ≤ p.left → allocPool p n = some (p.next, ⟨p.next + (n + 3) / 4 * 4, p.left - (n + 3) / 4 * 4, (p.next, (n + 3) / 4 * 4) :: p.blocks⟩) := by
    intro p n h; simp only [allocPool]; rw [if_pos h]
  have hd : (16 * cls + num) / 16 = cls ∧ (16 * cls + num) % 16 = num := by omega
  have hb16 : bytes 16 (bits ++ vals ++ junk) = .ok (bits, vals ++ junk) := by rw [← hb, List.append_assoc]; exact bytes_append _ _
  let p1 : Pool := ⟨jd.pool.next + 16, jd.pool.left - 16, (jd.pool.next, 16) :: jd.pool.blocks⟩
  let p2 : Pool := ⟨p1.next + (vals.length * 2 + 3) / 4 * 4, p1.left - (vals.length * 2 + 3) / 4 * 4, (p1.next, (vals.length * 2 + 3) / 4 * 4) :: p1.blocks⟩
  refine ⟨⟨p2.next + (vals.length + 3) / 4 * 4, p2.left - (vals.length + 3) / 4 * 4, (p2.next, (vals.length + 3) / 4 * 4) :: p2.blocks⟩, ?_, ?_⟩
  · rw [createHuff, if_neg (by omega), if_neg (by omega)]
    simp only
    rw [if_neg (by omega), hd.1, hd.2, a1]
    simp only [hb16, ← hv]
    rw [a2 _ _ (by simp only; omega)]
    simp only [codes_length, ← hv, Nat.lt_irrefl, if_false, show ¬ 17 + vals.length - 17 < vals.length by omega]
    rw [a2 _ _ (by simp only; omega)]
    simp only [bytes_append]
    rw [if_neg (by rintro ⟨h0, x, hx, h⟩; have := h11 h0 x hx; omega), show 17 + vals.length - 17 - vals.length = 0 by omega]
    rw [createHuff.eq_def]
    simp only [if_true]
    rfl
  · simp only [p2, p1]; omega

/-- The decoder after the segments `segs`. -/
structure Sim (size : Nat) (jd : JD) (segs : List Seg) : Prop where
  quant : ∀ id, jd.qttbl id = (lastQuant segs id).map factors
  bits : ∀ num cls, jd.huffbits num cls = (lastHuff segs num cls).map (·.1)
  code : ∀ num cls, jd.huffcode num cls = (lastHuff segs num cls).map (fun x => codes x.1 0)
  data : ∀ num cls, jd.huffdata num cls = (lastHuff segs num cls).map (·.2)
  left : jd.pool.left + 512 + (segs.map Seg.cost).sum = size
  nrst : jd.nrst = 0
  dctr : jd.inp.dctr = 0
  wbit : jd.inp.wbit = 0
  marker : jd.inp.marker = 0

/-- What the tables do not touch. -/
def JD.Same (a b : JD) : Prop := b.ncomp = a.ncomp ∧ b.msx = a.msx ∧ b.msy = a.msy ∧ b.qtid = a.qtid ∧ b.width = a.width ∧ b.height = a.height

theorem head_bytes {jd : JD} {m : Nat} {data r : List Nat} (hs : jd.inp.src = segBytes m data ++ r) (hl : data.length + 2 < 65536) :
    ∃ b, load jd 4 = .ok { jd with inp := { jd.inp with buf := b, src := data ++ r } } ∧ word b 0 = 255 * 256 + m ∧ word b 2 = data.length + 2 := by
  have := load_ok (jd := jd) (a := [255, m, (data.length + 2) / 256, (data.length + 2) % 256]) (r := data ++ r) (by rw [hs]; simp [segBytes]) (by simp)
  refine ⟨_, this, ?_, ?_⟩
  · simp [word, over]
  · simp [word, over]; omega

theorem lastQuant_snoc (segs : List Seg) (s : Seg) (id : Nat) :
    lastQuant (segs ++ [s]) id = match s with
      | .quant i vals => if i = id then some vals else lastQuant segs id
      | _ => lastQuant segs id := by
  cases s with
  | quant i vals => by_cases h : i = id <;> simp [lastQuant, h]
  | _ => simp [lastQuant]

theorem lastHuff_snoc (segs : List Seg) (s : Seg) (num cls : Nat) :
    lastHuff (segs ++ [s]) num cls = match s with
      | .huff n c bits vals => if n = num ∧ c = cls then some (bits, vals) else lastHuff segs num cls
      | _ => lastHuff segs num cls := by
  cases s with
  | huff n c bits vals => by_cases h : n = num ∧ c = cls <;> simp [lastHuff, h]
  | _ => simp [lastHuff]

theorem seg_step {size : Nat} {jd : JD} {segs : List Seg} (h : Sim size jd segs) {s : Seg} (hk : s.Ok) {r : List Nat} (hs : jd.inp.src = s.bytes ++ r) (hc : s.cost ≤ jd.pool.left) (f ofs : Nat) :
    ∃ jd' ofs', segments (f + 1) jd ofs = segments f jd' ofs' ∧ Sim size jd' (segs ++ [s]) ∧ jd'.inp.src = r ∧ jd.Same jd' := by
  cases s with
  | quant id vals =>
    obtain ⟨h1, h2, h3⟩ := hk
    obtain ⟨b, e1, w1, w2⟩ := head_bytes (m := 0xDB) (data := id :: vals) hs (by simp; omega)
    have hl : (id :: vals).length = 65 := by simp [h2]
    have e2 := load_ok (jd := { jd with inp := { jd.inp with buf := b, src := (id :: vals) ++ r } }) (a := id :: vals) (r := r) rfl (by omega)
    obtain ⟨junk, ej⟩ := segment_over b (id :: vals) (by omega)
    obtain ⟨p, e3, hp⟩ := createQt_one (f := 64) (jd := { jd with inp := { jd.inp with buf := over b (id :: vals), src := r } }) (junk := junk) h1 h2 hc
    rw [hl] at e2
    refine ⟨{ jd with pool := p, qttbl := upd jd.qttbl id (some (factors vals)), inp := { jd.inp with buf := over b (id :: vals), src := r } }, ofs + 4 + 65, ?_, ?_, rfl, rfl, rfl, rfl, rfl, rfl, rfl⟩
    · rw [segments, e1]
      simp only [w1, w2, hl]
      rw [if_neg (by decide), if_pos (by decide), if_neg (by decide)]
      simp only [Nat.add_sub_cancel, e2]
      rw [if_neg (by decide), if_neg (by decide), if_neg (by decide), if_pos (by decide), ej]
      simp only [List.cons_append, e3]
    · refine ⟨?_, ?_, ?_, ?_, ?_, h.nrst, h.dctr, h.wbit, h.marker⟩
      · intro i
        simp only [lastQuant_snoc, upd]
        by_cases hi : i = id
        · simp [hi]
        · rw [if_neg hi, if_neg (by omega), h.quant]
      · intro n c; simp only [lastHuff_snoc, h.bits]
      · intro n c; simp only [lastHuff_snoc, h.code]
      · intro n c; simp only [lastHuff_snoc, h.data]
      · have := h.left; simp only [Seg.cost] at hc; simp [hp, Seg.cost]; omega
  | huff num cls bits vals =>
    obtain ⟨h1, h2, h3, h4, h5, h6, h7⟩ := hk
    have hl : ((16 * cls + num) :: (bits ++ vals)).length = 17 + vals.length := by simp [h3]; omega
    obtain ⟨b, e1, w1, w2⟩ := head_bytes (m := 0xC4) (data := (16 * cls + num) :: (bits ++ vals)) hs (by omega)
    have e2 := load_ok (jd := { jd with inp := { jd.inp with buf := b, src := ((16 * cls + num) :: (bits ++ vals)) ++ r } }) (a := (16 * cls + num) :: (bits ++ vals)) (r := r) rfl (by omega)
    obtain ⟨junk, ej⟩ := segment_over b ((16 * cls + num) :: (bits ++ vals)) (by omega)
    obtain ⟨p, e3, hp⟩ := createHuff_one (f := 16 + vals.length) (jd := { jd with inp := { jd.inp with buf := over b ((16 * cls + num) :: (bits ++ vals)), src := r } }) (junk := junk) h1 h2 h3 h4 h7 hc
    rw [hl] at e2
    refine ⟨{ jd with pool := p, huffbits := upd2 jd.huffbits num cls (some bits), huffcode := upd2 jd.huffcode num cls (some (codes bits 0)), huffdata := upd2 jd.huffdata num cls (some vals),
                      inp := { jd.inp with buf := over b ((16 * cls + num) :: (bits ++ vals)), src := r } }, ofs + 4 + (17 + vals.length), ?_, ?_, rfl, rfl, rfl, rfl, rfl, rfl, rfl⟩
    · rw [segments, e1]
      simp only [w1, w2, hl]
      rw [if_neg (by omega), if_pos (by decide), if_neg (by simp only [szbuf]; omega)]
      simp only [Nat.add_sub_cancel, e2]
      rw [if_neg (by decide), if_neg (by decide), if_pos (by decide), ej, show 17 + vals.length + 1 = 16 + vals.length + 2 by omega]
      simp only [List.cons_append, e3]
    · refine ⟨?_, ?_, ?_, ?_, ?_, h.nrst, h.dctr, h.wbit, h.marker⟩
      · intro i; simp only [lastQuant_snoc, h.quant]
      · intro n c; simp only [lastHuff_snoc, upd2]; by_cases hi : n = num ∧ c = cls
        · simp [hi]
        · rw [if_neg hi, if_neg (by omega), h.bits]
      · intro n c; simp only [lastHuff_snoc, upd2]; by_cases hi : n = num ∧ c = cls
        · simp [hi]
        · rw [if_neg hi, if_neg (by omega), h.code]
      · intro n c; simp only [lastHuff_snoc, upd2]; by_cases hi : n = num ∧ c = cls
        · simp [hi]
        · rw [if_neg hi, if_neg (by omega), h.data]
      · have := h.left; simp only [Seg.cost] at hc; simp [hp, Seg.cost]; omega
  | other m data =>
    obtain ⟨h1, h2, h3, h4⟩ := hk
    obtain ⟨b, e1, w1, w2⟩ := head_bytes (m := m) (data := data) hs h3
    have hne : 0 < data.length := List.length_pos_iff.mpr h2
    refine ⟨{ jd with inp := { jd.inp with buf := b, src := r } }, ofs + 4 + data.length, ?_, ?_, rfl, rfl, rfl, rfl, rfl, rfl, rfl⟩
    · rw [segments, e1]
      simp only [w1, w2]
      rw [if_neg (by omega), if_neg (by omega), if_neg (by omega), if_neg (by simp)]
      simp [List.drop_left']
    · refine ⟨?_, ?_, ?_, ?_, ?_, h.nrst, h.dctr, h.wbit, h.marker⟩
      · intro i; simp only [lastQuant_snoc, h.quant]
      · intro n c; simp only [lastHuff_snoc, h.bits]
      · intro n c; simp only [lastHuff_snoc, h.code]
      · intro n c; simp only [lastHuff_snoc, h.data]
      · have := h.left; simp [Seg.cost]; omega

theorem segs_step {size : Nat} : ∀ (more : List Seg) (jd : JD) (segs : List Seg) (r : List Nat) (f ofs : Nat), Sim size jd segs → (∀ s ∈ more, s.Ok) → jd.inp.src = more.flatMap Seg.bytes ++ r →
    (more.map Seg.cost).sum ≤ jd.pool.left → ∃ jd' ofs', segments (f + more.length) jd ofs = segments f jd' ofs' ∧ Sim size jd' (segs ++ more) ∧ jd'.inp.src = r ∧ jd.Same jd' := by
  intro more
  induction more with
  | nil => intro jd segs r f ofs h _ hs _; exact ⟨jd, ofs, rfl, by simpa using h, by simpa using hs, rfl, rfl, rfl, rfl, rfl, rfl⟩
  | cons s more ih =>
    intro jd segs r f ofs h hk hs hc
    simp only [List.map_cons, List.sum_cons] at hc
    obtain ⟨jd1, o1, e1, s1, r1, m1⟩ := seg_step h (hk s (by simp)) (r := more.flatMap Seg.bytes ++ r) (by rw [hs]; simp) (by omega) (f + more.length) ofs
    obtain ⟨jd2, o2, e2, s2, r2, m2⟩ := ih jd1 (segs ++ [s]) r f o1 s1 (fun x hx => hk x (by simp [hx])) r1 (by
      have a := h.left; have b := s1.left; simp at b; omega)
    refine ⟨jd2, o2, ?_, by simpa using s2, r2, ?_⟩
    · rw [List.length_cons, ← Nat.add_assoc, e1, e2]
    · obtain ⟨a1, a2, a3, a4, a5, a6⟩ := m1; obtain ⟨b1, b2, b3, b4, b5, b6⟩ := m2
      exact ⟨b1.trans a1, b2.trans a2, b3.trans a3, b4.trans a4, b5.trans a5, b6.trans a6⟩

/-- The pictures that the decoder knows. -/
structure Picture.Known (P : Picture) (qid : Nat → Nat) : Prop where
  width : 0 < P.width ∧ P.width < 65536
  height : 0 < P.height ∧ P.height < 65536
  ncomp : P.ncomp = 1 ∨ P.ncomp = 3
  sizes : Sizes P.msx P.msy
  qid : ∀ i, qid i < 4

/-- The content of the two segments. -/
def Picture.frameData (P : Picture) (qid : Nat → Nat) : List Nat :=
  [8, P.height / 256, P.height % 256, P.width / 256, P.width % 256, P.ncomp] ++ [1, 16 * P.msx + P.msy, qid 0] ++ if P.ncomp = 3 then [2, 0x11, qid 1, 3, 0x11, qid 2] else []

/-- See `Picture.frameData`. -/
def Picture.startData (P : Picture) : List Nat := [P.ncomp] ++ [1, 0] ++ (if P.ncomp = 3 then [2, 0x11, 3, 0x11] else []) ++ [0, 63, 0]

theorem comps_ok {P : Picture} {qid : Nat → Nat} (hk : P.Known qid) {jd : JD} {b : Nat → Nat} (hb : jd.inp.buf = over b (P.frameData qid)) :
    ∃ q, components P.ncomp 0 jd = ({ jd with msx := P.msx, msy := P.msy, qtid := q }, .ok ()) ∧ ∀ i, i < P.ncomp → q i = qid i := by
  have h0 := hk.qid 0
  have h1 := hk.qid 1
  have h2 := hk.qid 2
  have hm : (16 * P.msx + P.msy = 0x11 ∨ 16 * P.msx + P.msy = 0x22 ∨ 16 * P.msx + P.msy = 0x21) ∧ (16 * P.msx + P.msy) / 16 = P.msx ∧ (16 * P.msx + P.msy) % 16 = P.msy := by
    rcases hk.sizes with h | h | h <;> omega
  have hm' : ¬ (16 * P.msx + P.msy ≠ 0x11 ∧ 16 * P.msx + P.msy ≠ 0x22 ∧ 16 * P.msx + P.msy ≠ 0x21) := by omega
  rcases hk.ncomp with hn | hn
  · refine ⟨upd jd.qtid 0 (qid 0), ?_, ?_⟩
    · have b7 : jd.inp.buf 7 = 16 * P.msx + P.msy := by rw [hb]; simp [over, Picture.frameData]
      have b8 : jd.inp.buf 8 = qid 0 := by rw [hb]; simp [over, Picture.frameData]
      simp only [hn, components, Nat.mul_zero, Nat.add_zero, b7, b8, if_true]
      rw [if_neg hm', if_neg (by omega), hm.2.1, hm.2.2]
    · intro i hi
      rw [hn] at hi
      simp only [upd]; rw [if_pos (by omega), show i = 0 by omega]
  · refine ⟨upd (upd (upd jd.qtid 0 (qid 0)) 1 (qid 1)) 2 (qid 2), ?_, ?_⟩
    · have b7 : jd.inp.buf 7 = 16 * P.msx + P.msy := by rw [hb]; simp [over, Picture.frameData]
      have b8 : jd.inp.buf 8 = qid 0 := by rw [hb]; simp [over, Picture.frameData]
      have b10 : jd.inp.buf 10 = 0x11 := by rw [hb]; simp [over, Picture.frameData, hn]
      have b11 : jd.inp.buf 11 = qid 1 := by rw [hb]; simp [over, Picture.frameData, hn]
      have b13 : jd.inp.buf 13 = 0x11 := by rw [hb]; simp [over, Picture.frameData, hn]
      have b14 : jd.inp.buf 14 = qid 2 := by rw [hb]; simp [over, Picture.frameData, hn]
      simp only [hn, components, Nat.mul_zero, Nat.add_zero, b7, b8, if_true, Nat.zero_add, Nat.mul_one, Nat.reduceAdd, Nat.reduceMul, b10, b11, b13, b14, ne_eq, not_true_eq_false, if_false, Nat.one_ne_zero,
        Nat.reduceEqDiff]
      rw [if_neg hm', if_neg (by omega), if_neg (by omega), if_neg (by omega), hm.2.1, hm.2.2]
    · intro i hi
      rw [hn] at hi
      simp only [upd]
      split
      · rename_i h; rw [h]
      · split
        · rename_i h; rw [h]
        · rw [if_pos (by omega), show i = 0 by omega]

theorem frame_step {size : Nat} {jd : JD} {segs : List Seg} (h : Sim size jd segs) {P : Picture} {qid : Nat → Nat} (hk : P.Known qid) {r : List Nat} (hs : jd.inp.src = P.frame qid ++ r) (f ofs : Nat) :
    ∃ jd' ofs', segments (f + 1) jd ofs = segments f jd' ofs' ∧ Sim size jd' segs ∧ jd'.inp.src = r ∧ jd'.ncomp = P.ncomp ∧ jd'.msx = P.msx ∧ jd'.msy = P.msy ∧ jd'.width = P.width ∧ jd'.height = P.height ∧
      ∀ i, i < P.ncomp → jd'.qtid i = qid i := by
  have hw := hk.width
  have hh := hk.height
  have hl : 9 ≤ (P.frameData qid).length ∧ (P.frameData qid).length ≤ 15 := by
    rcases hk.ncomp with hn | hn <;> simp [Picture.frameData, hn]
  obtain ⟨b, e1, w1, w2⟩ := head_bytes (m := 0xC0) (data := P.frameData qid) hs (by omega)
  have e2 := load_ok (jd := { jd with inp := { jd.inp with buf := b, src := P.frameData qid ++ r } }) (a := P.frameData qid) (r := r) rfl (by omega)
  have b0 : over b (P.frameData qid) 1 = P.height / 256 ∧ over b (P.frameData qid) 2 = P.height % 256 ∧ over b (P.frameData qid) 3 = P.width / 256 ∧ over b (P.frameData qid) 4 = P.width % 256 ∧
      over b (P.frameData qid) 5 = P.ncomp := by simp [over, Picture.frameData]
  obtain ⟨b1, b2, b3, b4, b5⟩ := b0
  obtain ⟨q, e3, hq⟩ := comps_ok hk (jd := { jd with inp := { jd.inp with buf := over b (P.frameData qid), src := r }, width := P.width, height := P.height, ncomp := P.ncomp }) (b := b) rfl
  refine ⟨{ jd with inp := { jd.inp with buf := over b (P.frameData qid), src := r }, width := P.width, height := P.height, ncomp := P.ncomp, msx := P.msx, msy := P.msy, qtid := q }, ofs + 4 + (P.frameData qid).length, ?_,
    ⟨h.quant, h.bits, h.code, h.data, h.left, h.nrst, h.dctr, h.wbit, h.marker⟩, rfl, rfl, rfl, rfl, rfl, rfl, hq⟩
  rw [segments, e1]
  simp only [w1, w2]
  rw [if_neg (by omega), if_pos (by decide), if_neg (by simp only [szbuf]; omega)]
  simp only [Nat.add_sub_cancel, e2]
  rw [if_pos (by decide)]
  simp only [word, b1, b2, b3, b4, b5, Nat.reduceAdd, show P.width / 256 * 256 + P.width % 256 = P.width by omega, show P.height / 256 * 256 + P.height % 256 = P.height by omega]
  rw [if_neg (by have := hk.ncomp; omega), e3]

theorem loaded_ok {jd : JD} {P : Picture} {b : Nat → Nat} (hb : jd.inp.buf = over b P.startData) (hn : P.ncomp = 1 ∨ P.ncomp = 3) (hq : ∀ i, i < P.ncomp → jd.qtid i < 4 ∧ (jd.qttbl (jd.qtid i)).isSome)
    (ht : ∀ i cls, i < P.ncomp → cls < 2 → (jd.huffbits (tableId i) cls).isSome) : tablesLoaded jd P.ncomp 0 = .ok () := by
  have hstep : ∀ i, i < P.ncomp → (jd.inp.buf (2 + 2 * i) = 0 ∨ jd.inp.buf (2 + 2 * i) = 0x11) → ∀ n, tablesLoaded jd (n + 1) i = tablesLoaded jd n (i + 1) := by
    intro i hi hbuf n
    obtain ⟨q1, q2⟩ := hq i hi
    have t0 := ht i 0 hi (by omega)
    have t1 := ht i 1 hi (by omega)
    rw [tableId] at t0 t1
    simp only [tablesLoaded]
    rw [if_neg (by omega), if_neg (by rw [← Option.not_isSome, ← Option.not_isSome]; simp [t0, t1]), if_neg (by omega), if_neg (by rw [← Option.not_isSome]; simp [q2])]
  rcases hn with hn | hn
  · have b2 : jd.inp.buf 2 = 0 := by rw [hb]; simp [over, Picture.startData]
    rw [hn, hstep 0 (by omega) (.inl b2)]; rfl
  · have b2 : jd.inp.buf 2 = 0 := by rw [hb]; simp [over, Picture.startData]
    have b4 : jd.inp.buf 4 = 0x11 := by rw [hb]; simp [over, Picture.startData, hn]
    have b6 : jd.inp.buf 6 = 0x11 := by rw [hb]; simp [over, Picture.startData, hn]
    rw [hn, hstep 0 (by omega) (.inl b2), hstep 1 (by omega) (.inr b4), hstep 2 (by omega) (.inr b6)]; rfl

theorem start_step {size : Nat} {jd : JD} {segs : List Seg} (h : Sim size jd segs) {P : Picture} {qid : Nat → Nat} (hk : P.Known qid) {r : List Nat} (hs : jd.inp.src = P.start ++ r) (hn : jd.ncomp = P.ncomp) (hmx : jd.msx = P.msx)
    (hmy : jd.msy = P.msy) (hw : jd.width = P.width) (hh : jd.height = P.height) (hq : ∀ i, i < P.ncomp → jd.qtid i = qid i) (hc : P.cost segs ≤ size) (hqt : ∀ i, i < P.ncomp → (lastQuant segs (qid i)).isSome)
    (hht : ∀ i cls, i < P.ncomp → cls < 2 → (lastHuff segs (tableId i) cls).isSome) (f ofs : Nat) :
    ∃ jd', segments (f + 1) jd ofs = (jd', .ok ()) ∧ jd'.inp.rest = r ∧ jd'.inp.wbit = 0 ∧ jd'.inp.marker = 0 ∧ jd'.nrst = 0 ∧ jd.Same jd' ∧ jd'.qttbl = jd.qttbl ∧ jd'.huffbits = jd.huffbits ∧ jd'.huffcode = jd.huffcode ∧
      jd'.huffdata = jd.huffdata := by
  have hl : 6 ≤ P.startData.length ∧ P.startData.length ≤ 10 := by
    rcases hk.ncomp with hn | hn <;> simp [Picture.startData, hn]
  have hpos : 0 < P.msx * P.msy ∧ P.msx * P.msy ≤ 4 := by rcases hk.sizes with h | h | h <;> simp [h]
  obtain ⟨b, e1, w1, w2⟩ := head_bytes (m := 0xDA) (data := P.startData) hs (by omega)
  have e2 := load_ok (jd := { jd with inp := { jd.inp with buf := b, src := P.startData ++ r } }) (a := P.startData) (r := r) rfl (by omega)
  have b0 : over b P.startData 0 = P.ncomp := by simp [over, Picture.startData]
  have e3 := loaded_ok (jd := { jd with inp := { jd.inp with buf := over b P.startData, src := r } }) (P := P) (b := b) rfl hk.ncomp
    (fun i hi => by simp only [hq i hi]; exact ⟨hk.qid i, by rw [h.quant]; simpa using hqt i hi⟩) (fun i cls hi hcls => by simp only [h.bits]; simpa using hht i cls hi hcls)
  have hleft := h.left
  rw [Picture.cost] at hc
  have a2 : ∀ (p : Pool) n, (n + 3) / 4 * 4 ≤ p.left → allocPool p n = some (p.next, ⟨p.next + (n + 3) / 4 * 4, p.left - (n + 3) / 4 * 4, (p.next, (n + 3) / 4 * 4) :: p.blocks⟩) := by
    intro p n h; simp only [allocPool]; rw [if_pos h]
  have hrun : segments (f + 1) jd ofs = startOfScan { jd with inp := { jd.inp with buf := over b P.startData, src := r } } (ofs + 4 + P.startData.length) := by
    rw [segments, e1]
    simp only [w1, w2]
    rw [if_neg (by omega), if_pos (by decide), if_neg (by simp only [szbuf]; omega)]
    simp only [Nat.add_sub_cancel, e2]
    rw [if_neg (by decide), if_neg (by decide), if_neg (by decide), if_neg (by decide)]
  rw [hrun]
  generalize ofs + 4 + P.startData.length = o
  have hw0 := hk.width.1
  have hh0 := hk.height.1
  simp only [startOfScan]
  rw [← hn] at e3
  rw [if_neg (by omega), if_neg (by rw [b0]; omega), e3]
  simp only [hmx, hmy, Nat.mul_comm P.msy P.msx]
  generalize P.msx * P.msy = k at hpos hc
  rw [if_neg (by omega), a2 _ _ (by omega)]
  simp only
  rw [a2 _ _ (by simp only; omega)]
  simp only
  by_cases ho : o % szbuf = 0
  · rw [if_pos ho]
    refine ⟨_, rfl, ?_, h.wbit, h.marker, h.nrst, ⟨rfl, hmx.symm, hmy.symm, rfl, rfl, rfl⟩, rfl, rfl, rfl, rfl⟩
    simp [In.rest, h.dctr]
  · rw [if_neg ho]
    have hlt : o % szbuf < szbuf := Nat.mod_lt _ (by decide)
    simp only [infunc]
    rw [if_pos (by omega)]
    refine ⟨_, rfl, ?_, h.wbit, h.marker, h.nrst, ⟨rfl, hmx.symm, hmy.symm, rfl, rfl, rfl⟩, rfl, rfl, rfl, rfl⟩
    simp only [In.rest]
    refine Eq.trans (congrArg (· ++ _) ?_) (List.take_append_drop (min (szbuf - o % szbuf) r.length) r)
    apply List.ext_getElem
    · simp
    · intro i h1 h2
      simp only [List.length_map, List.length_range] at h1
      simp only [List.getElem_map, List.getElem_range, List.getElem_take]
      rw [if_pos (by omega), show o % szbuf + i - o % szbuf = i by omega, List.getD_eq_getElem?_getD, List.getElem?_eq_getElem (by omega)]; rfl

/-- A file is prepared. -/
theorem prepare_file {size : Nat} {P : Picture} {qid : Nat → Nat} {segs1 segs2 : List Seg} (hk : P.Known qid) (h1 : ∀ s ∈ segs1 ++ segs2, s.Ok) (hc : P.cost (segs1 ++ segs2) ≤ size)
    (hqt : ∀ i, i < P.ncomp → (lastQuant (segs1 ++ segs2) (qid i)).isSome) (hht : ∀ i cls, i < P.ncomp → cls < 2 → (lastHuff (segs1 ++ segs2) (tableId i) cls).isSome) (r : List Nat) :
    ∃ jd, prepare size ([0xFF, 0xD8] ++ segs1.flatMap Seg.bytes ++ P.frame qid ++ segs2.flatMap Seg.bytes ++ P.start ++ r) = (jd, .ok ()) ∧ jd.inp.rest = r ∧ jd.inp.wbit = 0 ∧ jd.inp.marker = 0 ∧ jd.nrst = 0 ∧
      jd.ncomp = P.ncomp ∧ jd.msx = P.msx ∧ jd.msy = P.msy ∧ jd.width = P.width ∧ jd.height = P.height ∧ (∀ i, i < P.ncomp → jd.qtid i = qid i) ∧
      (∀ id, jd.qttbl id = (lastQuant (segs1 ++ segs2) id).map factors) ∧ (∀ num cls, jd.huffbits num cls = (lastHuff (segs1 ++ segs2) num cls).map (·.1)) ∧
      (∀ num cls, jd.huffcode num cls = (lastHuff (segs1 ++ segs2) num cls).map (fun x => codes x.1 0)) ∧ ∀ num cls, jd.huffdata num cls = (lastHuff (segs1 ++ segs2) num cls).map (·.2) := by
  have hcost := hc
  rw [Picture.cost] at hcost
  simp only [List.map_append, List.sum_append] at hcost
  generalize hsrc : [0xFF, 0xD8] ++ segs1.flatMap Seg.bytes ++ P.frame qid ++ segs2.flatMap Seg.bytes ++ P.start ++ r = src
  have hsrc' : src = 0xFF :: 0xD8 :: (segs1.flatMap Seg.bytes ++ (P.frame qid ++ (segs2.flatMap Seg.bytes ++ (P.start ++ r)))) := by rw [← hsrc]; simp
  let p : Pool := ⟨0 + (szbuf + 3) / 4 * 4, size - (szbuf + 3) / 4 * 4, [(0, (szbuf + 3) / 4 * 4)]⟩
  have h512 : (szbuf + 3) / 4 * 4 = 512 := by decide
  have ha : allocPool (blank size src).pool szbuf = some (0, p) := by
    unfold allocPool
    exact if_pos (show (szbuf + 3) / 4 * 4 ≤ size by omega)
  have hf : ∃ jd0 : JD, findSOI src { blank size src with pool := p } 0 0 = (jd0, .ok 2) ∧ Sim size jd0 [] ∧ jd0.inp.src = segs1.flatMap Seg.bytes ++ (P.frame qid ++ (segs2.flatMap Seg.bytes ++ (P.start ++ r))) := by
    rw [hsrc', findSOI, findSOI]
    simp only [Nat.reduceMod, Nat.reduceMul, Nat.reduceAdd, Nat.reduceEqDiff, if_false, if_true]
    refine ⟨_, rfl, ⟨?_, ?_, ?_, ?_, ?_, rfl, rfl, rfl, rfl⟩, rfl⟩
    · intro id; rfl
    · intro n c; rfl
    · intro n c; rfl
    · intro n c; rfl
    · show size - (szbuf + 3) / 4 * 4 + 512 + 0 = size
      omega
  obtain ⟨jd0, e0, s0, r0⟩ := hf
  have hbytes : ∀ l : List Seg, l.length ≤ (l.flatMap Seg.bytes).length := by
    intro l
    induction l with
    | nil => simp
    | cons s l ih => have : 1 ≤ s.bytes.length := by cases s <;> simp [Seg.bytes, segBytes]
                     simp; simp at ih; omega
  have hfuel : ∃ f, src.length + 1 = ((f + 1) + segs2.length + 1) + segs1.length := by
    refine ⟨src.length + 1 - segs1.length - segs2.length - 2, ?_⟩
    have b1 := hbytes segs1
    have b2 := hbytes segs2
    have : src.length = 2 + (segs1.flatMap Seg.bytes).length + (P.frame qid).length + (segs2.flatMap Seg.bytes).length + P.start.length + r.length := by
      rw [← hsrc]; simp only [List.length_append, List.length_cons, List.length_nil]
    omega
  obtain ⟨f, hf⟩ := hfuel
  have hl0 := s0.left
  simp only [List.map_nil, List.sum_nil] at hl0
  obtain ⟨jd1, o1, e1, s1, r1, m1⟩ := segs_step segs1 jd0 [] _ ((f + 1) + segs2.length + 1) 2 s0 (fun s hs => h1 s (by simp [hs])) r0 (by omega)
  obtain ⟨jd2, o2, e2, s2, r2, n2, x2, y2, w2, t2, q2⟩ := frame_step s1 hk r1 ((f + 1) + segs2.length) o1
  have hl2 := s2.left
  simp only [List.nil_append] at hl2
  obtain ⟨jd3, o3, e3, s3, r3, m3⟩ := segs_step segs2 jd2 _ _ (f + 1) o2 s2 (fun s hs => h1 s (by simp [hs])) r2 (by omega)
  obtain ⟨a1, a2, a3, a4, a5, a6⟩ := m3
  obtain ⟨jd4, e4, r4, b4, k4, z4, m4, t4, u4, v4, w4⟩ := start_step (P := P) (qid := qid) s3 hk r3 (a1.trans n2) (a2.trans x2) (a3.trans y2) (a5.trans w2) (a6.trans t2) (fun i hi => by rw [a4, q2 i hi]) hc hqt hht f o3
  obtain ⟨c1, c2, c3, c4, c5, c6⟩ := m4
  refine ⟨jd4, ?_, r4, b4, k4, z4, c1.trans (a1.trans n2), c2.trans (a2.trans x2), c3.trans (a3.trans y2), c5.trans (a5.trans w2), c6.trans (a6.trans t2), fun i hi => by rw [c4, a4, q2 i hi], ?_, ?_, ?_, ?_⟩
  · simp only [prepare, ha, e0]
    rw [hf, e1, e2, e3, e4]
  · intro id; rw [t4, s3.quant]; rfl
  · intro n c; rw [u4, s3.bits]; rfl
  · intro n c; rw [v4, s3.code]; rfl
  · intro n c; rw [w4, s3.data]; rfl

/-- The table with a number and a class in a file. -/
def fileTable (segs : List Seg) (num cls : Nat) : Table :=
  match lastHuff segs num cls with
  | some (bits, vals) => ⟨bits, codes bits 0, vals⟩
  | none => ⟨[], [], []⟩

/-- The factors of a component in a file. -/
def fileFactors (segs : List Seg) (qid : Nat → Nat) (cmp : Nat) : List Nat := factors ((lastQuant segs (qid cmp)).getD [])

end Verif.Jpg
