import Verif.Jpg.File

/-!
# The JPEG decoder: properties C108, C109, C110
-/

namespace Verif.Jpg

/-! ## C108: the picture that was encoded is the one that is shown -/

/-- C108: bits are read in the order in which they are in the data: `n` bits come out as the number that the next `n` bits of the stream are, and the stream goes on behind them; where there are not so many, the decoder says so. -/
theorem C108_bits {s : In} (h : s.Ok) {n : Nat} (hn : n ≤ 16) :
    (∃ v s1, bitext s n = .ok (v, s1) ∧ s.stream.num n = some v ∧ s1.Ok ∧ s1.stream = s.stream.drop n) ∨ (bitext s n = .err .inp ∧ s.stream.num n = none) :=
  bitext_spec h hn

/-- C108: with a table whose lengths are those of a code, the value is the one of the code word that is in front; if there is none, or fewer than 16 bits, the decoder says so. -/
theorem C108_word {s : In} (h : s.Ok) {t : Table} (ht : t.Ok) (hv : t.Valid) :
    (s.stream.num 16 = none ∧ huffext s t = .err .inp) ∨
    (s.stream.num 16 ≠ none ∧ (∀ e ∈ t.entries, s.stream.num e.len ≠ some e.code) ∧ huffext s t = .err .fmt1) ∨
    ∃ e s1, s.stream.num 16 ≠ none ∧ e ∈ t.entries ∧ s.stream.num e.len = some e.code ∧ huffext s t = .ok (e.value, s1) ∧ s1.Ok ∧ s1.stream = s.stream.drop e.len :=
  huffext_spec h ht hv

/-- C108: no two code words of a table can be in front of a stream. -/
theorem C108_unique {t : Table} {S : Stream} {a b : Entry} (ha : a ∈ t.entries) (hb : b ∈ t.entries) (h1 : S.num a.len = some a.code) (h2 : S.num b.len = some b.code) : a = b :=
  entries_unique ha hb h1 h2

/-- C108: any sequence of code words, put into bytes and with a marker behind, comes back as the sequence of their values. -/
theorem C108_values {t : Table} (ht : t.Ok) (hv : t.Valid) (es : List Entry) (he : ∀ e ∈ es, e ∈ t.entries) {s : In} (hs : s.Ok) (hw : s.wbit = 0) (hm : s.marker = 0) {m : Nat} (hm0 : m ≠ 0) {r : List Nat}
    (hr : s.rest = stuff (pack (es.flatMap Entry.bits)) ++ 255 :: m :: r) : values t es.length s = .ok (es.map Entry.value) :=
  values_spec ht hv (S := fun _ => some true) (fun _ => by simp) es s he hs (stream_packed hw hm hm0 hr)

/-- A table with code words `0`, `10` and `110`, and its words for 7, 9, 7, 5 in front of a marker. -/
example : ∃ (t : Table) (s : In) (es : List Entry), t.Ok ∧ t.Valid ∧ s.Ok ∧ (∀ e ∈ es, e ∈ t.entries) ∧ s.rest = stuff (pack (es.flatMap Entry.bits)) ++ 255 :: 0xD9 :: [] ∧ es.map Entry.value = [7, 9, 7, 5] ∧
    values t 4 s = .ok [7, 9, 7, 5] ∧ ∃ s1, bitext s 5 = .ok (9, s1) := by
  have hs : In.Ok ⟨fun _ => 0, 0, 0, [77, 255, 0xD9], 0, 0, 0⟩ := ⟨by decide, by simp [In.rest], fun _ => by simp, by simp, by simp⟩
  have ht : Table.Ok ⟨1 :: 1 :: 1 :: List.replicate 13 0, [0, 2, 6], [7, 9, 5]⟩ := ⟨rfl, by decide +kernel, rfl⟩
  have hv : Table.Valid ⟨1 :: 1 :: 1 :: List.replicate 13 0, [0, 2, 6], [7, 9, 5]⟩ := by unfold Table.Valid; decide +kernel
  have he : ∀ e ∈ [(⟨1, 0, 7⟩ : Entry), ⟨2, 2, 9⟩, ⟨1, 0, 7⟩, ⟨3, 6, 5⟩], e ∈ (⟨1 :: 1 :: 1 :: List.replicate 13 0, [0, 2, 6], [7, 9, 5]⟩ : Table).entries := by decide +kernel
  have hr : (⟨fun _ => 0, 0, 0, [77, 255, 0xD9], 0, 0, 0⟩ : In).rest = stuff (pack ([(⟨1, 0, 7⟩ : Entry), ⟨2, 2, 9⟩, ⟨1, 0, 7⟩, ⟨3, 6, 5⟩].flatMap Entry.bits)) ++ 255 :: 0xD9 :: [] := by decide +kernel
  exact ⟨_, _, _, ht, hv, hs, he, hr, rfl, C108_values ht hv _ he hs rfl rfl (by decide) hr, _, rfl⟩

theorem pack_lt : ∀ l : List Bool, ∀ b ∈ pack l, b < 256
  | [], b, h => by simp [pack] at h
  | a :: l, b, h => by
    rw [pack] at h
    rcases List.mem_cons.mp h with h | h
    · subst h
      have : ∀ i, (if (a :: l).getD i true then 1 else 0) ≤ 1 := fun i => by split <;> omega
      have h0 := this 0; have h1 := this 1; have h2 := this 2; have h3 := this 3; have h4 := this 4; have h5 := this 5; have h6 := this 6; have h7 := this 7
      simp only at *
      omega
    · exact pack_lt (l.drop 7) b h
  termination_by l => l.length
  decreasing_by simp; omega

theorem stuff_lt {l : List Nat} (h : ∀ b ∈ l, b < 256) : ∀ b ∈ stuff l, b < 256 := by
  induction l with
  | nil => simp [stuff]
  | cons a l ih =>
    intro b hb
    rw [stuff] at hb
    have := ih (fun x hx => h x (by simp [hx]))
    split at hb
    · simp only [List.mem_cons] at hb
      rcases hb with rfl | rfl | hb
      · omega
      · omega
      · exact this b hb
    · rcases List.mem_cons.mp hb with rfl | hb
      · exact h b (by simp)
      · exact this b hb

theorem segBytes_lt {m : Nat} {data : List Nat} (hm : m < 256) (hl : data.length + 2 < 65536) (h : ∀ b ∈ data, b < 256) : ∀ b ∈ segBytes m data, b < 256 := by
  intro b hb
  simp only [segBytes, List.mem_cons] at hb
  rcases hb with rfl | rfl | rfl | rfl | hb
  · omega
  · omega
  · omega
  · omega
  · exact h b hb

/-- The bytes of a file are bytes. -/
theorem file_bytes {P : Picture} {qid : Nat → Nat} {segs1 segs2 : List Seg} (hk : P.Known qid) (h1 : ∀ s ∈ segs1 ++ segs2, s.Ok) (l : List Bool) {trailer : List Nat}
    (ht : ∀ b ∈ trailer, b < 256) : ∀ b ∈ P.file qid segs1 segs2 l trailer, b < 256 := by
  have hseg : ∀ segs : List Seg, (∀ s ∈ segs, s ∈ segs1 ++ segs2) → ∀ b ∈ segs.flatMap Seg.bytes, b < 256 := by
    intro segs hm b hb
    obtain ⟨s, hs, hb⟩ := List.mem_flatMap.mp hb
    have ho := h1 s (hm s hs)
    cases s with
    | quant id vals =>
      obtain ⟨a, b', c⟩ := ho
      refine segBytes_lt (by omega) (by simp; omega) ?_ b hb
      intro x hx; rcases List.mem_cons.mp hx with rfl | hx
      · omega
      · exact c x hx
    | huff n c bits vals =>
      obtain ⟨a1, a2, a3, a4, a5, a6, a7⟩ := ho
      refine segBytes_lt (by omega) (by simp; omega) ?_ b hb
      intro x hx; rcases List.mem_cons.mp hx with rfl | hx
      · omega
      · exact a6 x hx
    | other m data =>
      obtain ⟨a1, a2, a3, a4⟩ := ho
      exact segBytes_lt (by omega) a3 a4 b hb
  have hw := hk.width
  have hh := hk.height
  have q0 := hk.qid 0; have q1 := hk.qid 1; have q2 := hk.qid 2
  have hxy : P.msx ≤ 2 ∧ P.msy ≤ 2 := by rcases hk.sizes with h | h | h <;> omega
  have hframe : ∀ b ∈ P.frame qid, b < 256 := by
    refine segBytes_lt (by omega) ?_ ?_
    · rcases hk.ncomp with hn | hn <;> simp [hn]
    · rcases hk.ncomp with hn | hn
      · rw [hn]; intro b hb; simp at hb; omega
      · rw [hn]; intro b hb; simp at hb; omega
  have hstart : ∀ b ∈ P.start, b < 256 := by
    refine segBytes_lt (by omega) ?_ ?_
    · rcases hk.ncomp with hn | hn <;> simp [hn]
    · rcases hk.ncomp with hn | hn
      · rw [hn]; intro b hb; simp at hb; omega
      · rw [hn]; intro b hb; simp at hb; omega
  intro b hb
  simp only [Picture.file, List.mem_append] at hb
  rcases hb with ((((((hb | hb) | hb) | hb) | hb) | hb) | hb) | hb
  · simp at hb; omega
  · exact hseg segs1 (fun s hs => by simp [hs]) b hb
  · exact hframe b hb
  · exact hseg segs2 (fun s hs => by simp [hs]) b hb
  · exact hstart b hb
  · exact stuff_lt (pack_lt l) b hb
  · simp at hb; omega
  · exact ht b hb

theorem file_decodes (F : Arith) {size : Nat} {P : Picture} {qid : Nat → Nat} {segs1 segs2 : List Seg} (hk : P.Known qid) (hP : P.Ok)
    (hs : ∀ s ∈ segs1 ++ segs2, s.Ok) (hc : P.cost (segs1 ++ segs2) ≤ size)
    (hq : ∀ i, i < P.ncomp → (lastQuant (segs1 ++ segs2) (qid i)).isSome)
    (hh : ∀ i cls, i < P.ncomp → cls < 2 → (lastHuff (segs1 ++ segs2) (tableId i) cls).isSome ∧ (fileTable (segs1 ++ segs2) (tableId i) cls).Valid)
    (hE : P.Exact F (fileFactors (segs1 ++ segs2) qid)) {l : List Bool} (hl : P.encode (fileTable (segs1 ++ segs2)) = some l) {trailer : List Nat} (ht : ∀ b ∈ trailer, b < 256) :
    ∃ jd, prepare size (P.file qid segs1 segs2 l trailer) = (jd, .ok ()) ∧ decomp F jd = (P.rects F (fileFactors (segs1 ++ segs2) qid), .ok ()) := by
  obtain ⟨jd, e1, hrest, hwb, hmk, hnr, hn, hmx, hmy, hw, hhe, hqid, hqt, hb, hcd, hd⟩ :=
    prepare_file (size := size) hk hs hc hq (fun i cls hi hcls => (hh i cls hi hcls).1) (stuff (pack l) ++ [0xFF, 0xD9] ++ trailer)
  have e2 : prepare size (P.file qid segs1 segs2 l trailer) = (jd, .ok ()) := by
    rw [show P.file qid segs1 segs2 l trailer = [0xFF, 0xD8] ++ segs1.flatMap Seg.bytes ++ P.frame qid ++ segs2.flatMap Seg.bytes ++ P.start ++ (stuff (pack l) ++ [0xFF, 0xD9] ++ trailer) by
      simp only [Picture.file, List.append_assoc]]
    exact e1
  have hlast : ∀ (segs : List Seg) num cls bits vals, (∀ s ∈ segs, s.Ok) → lastHuff segs num cls = some (bits, vals) → bits.length = 16 ∧ vals.length = bits.sum := by
    intro segs num cls bits vals hok h
    obtain ⟨s, hs, he⟩ := List.exists_of_findSome?_eq_some h
    have := hok s (by simpa using hs)
    cases s with
    | huff n c b v =>
      simp only at he
      split at he
      · simp only [Option.some.injEq, Prod.mk.injEq] at he
        obtain ⟨rfl, rfl⟩ := he
        exact ⟨this.2.2.1, this.2.2.2.1⟩
      · simp at he
    | _ => simp at he
  have hr : jd.Ready size := by
    have := (prepare_spec size _ (file_bytes hk hs l ht)).2
    rw [e2] at this
    exact this rfl
  have hhas : jd.Has (fileTable (segs1 ++ segs2)) (fileFactors (segs1 ++ segs2) qid) := by
    constructor
    · intro c cls hc hcls
      rw [hn] at hc
      obtain ⟨h1, h2⟩ := hh c cls hc hcls
      obtain ⟨⟨bits, vals⟩, h3⟩ := Option.isSome_iff_exists.mp h1
      obtain ⟨h4, h5⟩ := hlast _ _ _ _ _ hs h3
      refine ⟨?_, ?_, h2⟩
      · simp only [JD.table, hb, hcd, hd, h3, Option.map_some, fileTable]
      · simp only [fileTable, h3]
        exact ⟨h4, rfl, h5⟩
    · intro c hc
      rw [hn] at hc
      have hq4 := hk.qid c
      obtain ⟨vals, h3⟩ := Option.isSome_iff_exists.mp (hq c hc)
      refine ⟨?_, by simp [fileFactors, factors]⟩
      simp only [JD.quant, hqid c hc]
      rw [if_neg (by omega), hqt, h3]
      simp [fileFactors, h3]
  have hst : jd.inp.stream = Stream.after l (fun _ => some true) := stream_packed hwb hmk (m := 0xD9) (by omega) (r := trailer) (by rw [hrest]; simp)
  have := decomp_decodes hr hhas hnr (P := P) ⟨hw.symm, hhe.symm, hmx.symm, hmy.symm, hn.symm, hP⟩ hE (S := fun _ => some true) (fun _ => by simp) hl hst
  exact ⟨jd, e2, this⟩

/-- C108: a picture that is encoded as the standard says (baseline, without restart intervals; with any tables, in any order, before or behind the start of the frame, and with any data of applications and comments between them) is shown
pixel by pixel as the standard says, whatever is behind it in the file: if the decoder's memory of 4106 bytes suffices, and no product is too large for 32 bits (or the machine cuts it). -/
theorem C108_file (F : Arith) {P : Picture} {qid : Nat → Nat} {segs1 segs2 : List Seg} (hk : P.Known qid) (hP : P.Ok)
    (hs : ∀ s ∈ segs1 ++ segs2, s.Ok) (hc : P.cost (segs1 ++ segs2) ≤ 4106)
    (hq : ∀ i, i < P.ncomp → (lastQuant (segs1 ++ segs2) (qid i)).isSome)
    (hh : ∀ i cls, i < P.ncomp → cls < 2 → (lastHuff (segs1 ++ segs2) (tableId i) cls).isSome ∧ (fileTable (segs1 ++ segs2) (tableId i) cls).Valid)
    (hE : P.Exact F (fileFactors (segs1 ++ segs2) qid)) {l : List Bool} (hl : P.encode (fileTable (segs1 ++ segs2)) = some l) {trailer : List Nat} (ht : ∀ b ∈ trailer, b < 256) :
    renderJpg F (P.file qid segs1 segs2 l trailer) = (P.rects F (fileFactors (segs1 ++ segs2) qid), .ok ()) := by
  obtain ⟨jd, e1, e2⟩ := file_decodes F hk hP hs hc hq hh hE hl ht
  unfold renderJpg
  rw [e1]
  exact e2

/-! A picture of 10 by 9 grey pixels: four units, of which the two at the right have a coefficient more. -/

namespace Example

def picture : Picture := ⟨10, 9, 1, 1, 1, fun i _ => [5 :: (if i = 0 then 0 else -3) :: List.replicate 62 0]⟩

def tables : List Seg :=
  [.other 0xE0 [74, 70, 73, 70, 0], .quant 0 (List.replicate 64 2), .huff 0 0 [0, 3, 0, 0, 0, 0, 0, 0, 0, 0, 0, 0, 0, 0, 0, 0] [0, 3, 11], .huff 0 1 [0, 2, 0, 0, 0, 0, 0, 0, 0, 0, 0, 0, 0, 0, 0, 0] [0, 2]]

def flat (strict : Bool) : Arith := ⟨fun l => (List.range 64).map (fun i => l.getD i 0), fun _ => by simp, strict⟩

def code : List Bool := [false, true, true, false, true, false, false] ++ [false, false, false, true, false, false, false, false] ++ [false, false, false, false] ++ [false, false, false, true, false, false, false, false]

example : picture.encode (fileTable tables) = some code := by decide +kernel

example : renderJpg (flat true) (picture.file (fun _ => 0) tables [] code [1, 2, 3]) = (picture.rects (flat true) (fileFactors (tables ++ []) fun _ => 0), .ok ()) := by
  refine C108_file (flat true) (segs2 := []) ⟨by decide, by decide, by decide, by unfold Sizes; decide, fun _ => by decide⟩ ?_ ?_ (by decide +kernel) ?_ ?_ ?_ (by decide +kernel) (by decide)
  · intro i j
    by_cases h : i = 0
    · simp only [picture, h, if_true]; decide
    · simp only [picture, h, if_false]; decide
  · intro s hs
    simp only [tables, List.append_nil, List.mem_cons, List.not_mem_nil, or_false] at hs
    rcases hs with rfl | rfl | rfl | rfl <;> (simp only [Seg.Ok]; decide)
  · intro i hi; decide +kernel
  · intro i cls hi hcls
    obtain rfl : i = 0 := by simp only [picture] at hi; omega
    unfold Table.Valid
    rcases (show cls = 0 ∨ cls = 1 by omega) with rfl | rfl <;> decide +kernel
  · intro i j n b hb _ k hk
    have key : ∀ (b : List Int), b ∈ [5 :: 0 :: List.replicate 62 0, 5 :: -3 :: List.replicate 62 0] → ∀ k, k < b.length → (b.getD k 0 * (factors (List.replicate 64 2)).getD (zig.getD (0 + k) 0) 0).natAbs < 2 ^ 31 := by decide +kernel
    refine key b ?_ k hk
    have := List.mem_of_getElem? hb
    simp only [picture, List.mem_singleton] at this
    subst this
    by_cases h : i = 0 <;> simp [h]

/-- The pixels of the first unit: 128 and 5 times 2 divided by 8. -/
example : ((renderJpg (flat true) (picture.file (fun _ => 0) tables [] code [])).1.map fun r => (r.left, r.top, r.width, r.height)) = [(0, 0, 8, 8), (8, 0, 2, 8), (0, 8, 8, 1), (8, 8, 2, 1)] ∧
    ((renderJpg (flat true) (picture.file (fun _ => 0) tables [] code [])).1.head?.map (·.pixels)) = some (List.replicate 8 (List.replicate 8 (129, 129, 129))) := by
  decide +kernel

end Example

/-! ## C109: memory -/

/-- C109: whatever the data are, the preparation ends with a result or an error. When it ends well, the blocks that the decoder has been given are inside of its memory and do not overlap, and if that is of 4106 bytes as in
`disp-render-jpg` then none of them goes beyond the 4104 bytes that there are. -/
theorem C109_prepare (size : Nat) (src : List Nat) (hs : ∀ b ∈ src, b < 256) :
    (prepare size src).2 ≠ .ub ∧ ((prepare size src).2 = .ok () →
      (∀ b ∈ (prepare size src).1.pool.blocks, b.1 + b.2 ≤ size) ∧ (prepare size src).1.pool.blocks.Pairwise (fun a b => a.1 + a.2 ≤ b.1 ∨ b.1 + b.2 ≤ a.1) ∧
      (size = 4106 → ∀ b ∈ (prepare size src).1.pool.blocks, b.1 + b.2 ≤ 4104)) := by
  obtain ⟨h1, h2⟩ := prepare_spec size src hs
  refine ⟨h1, fun h => ?_⟩
  have hp := (h2 h).pool
  have ht := hp.total
  refine ⟨fun b hb => by have := hp.inside b hb; omega, hp.apart.imp fun h => .inr h, fun h b hb => ?_⟩
  have h3 := hp.inside b hb
  have h4 := hp.aligned.1
  omega

/-- C109: when the preparation has ended well, decoding ends with a result or an error, and all that is given to the display are pixels of the picture; each of them at most once, and exactly once when it ends well. (On a machine that cuts
products that do not fit into 32 bits.) -/
theorem C109_decomp_partial {F : Arith} (hF : F.strict = false) {size : Nat} {src : List Nat} (hs : ∀ b ∈ src, b < 256) {jd : JD} (h : prepare size src = (jd, .ok ())) :
    (decomp F jd).2 ≠ .ub ∧
    (∀ r ∈ (decomp F jd).1, r.left + r.width ≤ jd.width ∧ r.top + r.height ≤ jd.height ∧ r.pixels.length = r.height ∧ ∀ l ∈ r.pixels, l.length = r.width ∧ ∀ p ∈ l, p.1 < 256 ∧ p.2.1 < 256 ∧ p.2.2 < 256) ∧
    (∀ x y, (decomp F jd).1.countP (·.covers x y) ≤ if x < jd.width ∧ y < jd.height then 1 else 0) ∧
    ((decomp F jd).2 = .ok () → ∀ x y, (decomp F jd).1.countP (·.covers x y) = if x < jd.width ∧ y < jd.height then 1 else 0) := by
  have hr : jd.Ready size := by
    have := (prepare_spec size src hs).2
    rw [h] at this
    exact this rfl
  obtain ⟨h1, h2, h3, h4⟩ := rows_safe hF hr jd.height 0 ⟨jd.inp, fun _ => 0, 0, 0⟩ hr.inp.1 (by omega)
  refine ⟨h1, ?_, fun x y => by have := h3 x y; simp only [Nat.zero_le, true_and] at this; exact this, fun ho x y => by have := h4 ho x y; simp only [Nat.zero_le, true_and] at this; exact this⟩
  intro r hrr
  obtain ⟨a1, a2, buf, _, a3, a4, a5⟩ := h2 r hrr
  refine ⟨by omega, by omega, by rw [a5]; simp, ?_⟩
  intro l hl
  rw [a5] at hl
  obtain ⟨j, _, rfl⟩ := List.mem_map.mp hl
  refine ⟨by simp, ?_⟩
  intro p hp
  obtain ⟨i, _, rfl⟩ := List.mem_map.mp hp
  have hb : ∀ v, byteclip v < 256 := by 
    intro v
    simp only [byteclip]
    split
    · assumption
    · split <;> omega
  exact ⟨hb _, hb _, hb _⟩

/-- C109 is violated: `disp-render-jpg` does not look at the result of the preparation. When a file ends behind the start of the frame (or is wrong in any other way behind it), it decodes through null pointers. -/
theorem C109_truncated_violated (F : Arith) : (renderJpg F [0xFF, 0xD8, 0xFF, 0xC0, 0, 11, 8, 0, 8, 0, 8, 1, 1, 0x11, 0]).2 = .ub := by
  rfl

/-- A file with a coefficient and a factor whose product does not fit. -/
def Example.large : List Nat :=
  (⟨8, 8, 1, 1, 1, fun _ _ => [2047 :: List.replicate 63 0]⟩ : Picture).file (fun _ => 0)
    [.quant 0 (List.replicate 64 255), .huff 0 0 [0, 3, 0, 0, 0, 0, 0, 0, 0, 0, 0, 0, 0, 0, 0, 0] [0, 3, 11], .huff 0 1 [0, 2, 0, 0, 0, 0, 0, 0, 0, 0, 0, 0, 0, 0, 0, 0] [0, 2]] []
    ([true, false] ++ List.replicate 11 true ++ [false, false]) []

/-- C109 is violated: the product of a coefficient and its factor is computed in 32 bits with sign, and a file can make it too large. -/
theorem C109_overflow_violated : (∀ b ∈ Example.large, b < 256) ∧ (prepare 4106 Example.large).2 = .ok () ∧ (renderJpg (Example.flat true) Example.large).2 = .ub := by
  decide +kernel

/-! ## C110: pixels -/

/-- C110: as long as a value is from -512 to 511, the nearest value from 0 to 255 is shown. -/
theorem C110_clip {v : Int} (h1 : -512 ≤ v) (h2 : v < 512) : (byteclip v : Int) = max 0 (min 255 v) := by
  simp only [byteclip]
  split
  · omega
  · split <;> omega

/-- C110: the colours before that are those of the standard (`Y + 1.402 Cr`, `Y - 0.344136 Cb - 0.714136 Cr`, `Y + 1.772 Cb`) up to 1.1; here in millionths. -/
theorem C110_colour {yy cb cr : Int} (hb : -128 ≤ cb ∧ cb ≤ 127) (hr : -128 ≤ cr ∧ cr ≤ 127) :
    ∃ r g b, rgb yy cb cr = (byteclip r, byteclip g, byteclip b) ∧ (1000000 * r - (1000000 * yy + 1402000 * cr)).natAbs ≤ 1100000 ∧
      (1000000 * g - (1000000 * yy - 344136 * cb - 714136 * cr)).natAbs ≤ 1100000 ∧ (1000000 * b - (1000000 * yy + 1772000 * cb)).natAbs ≤ 1100000 := by
  refine ⟨_, _, _, rfl, ?_, ?_, ?_⟩
  · rw [Int.tdiv_eq_ediv, show Int.sign 1024 = 1 by decide]; split <;> omega
  · rw [Int.tdiv_eq_ediv, show Int.sign 1024 = 1 by decide]; split <;> omega
  · rw [Int.tdiv_eq_ediv, show Int.sign 1024 = 1 by decide]; split <;> omega

/-- C110 is violated: a value of 512 or more is shown black. -/
theorem C110_clip_violated : byteclip 512 = 0 ∧ byteclip 511 = 255 := by decide

example : rgb 100 (-20) 50 = (170, 72, 65) := by decide

end Verif.Jpg
