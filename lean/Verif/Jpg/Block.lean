import Verif.Jpg.Huff

/-!
# Lemmas: an encoded block is decoded
-/

namespace Verif.Jpg

/-- A stream without end. -/
def Stream.Total (S : Stream) : Prop := ∀ i, S i ≠ none

theorem total_after {S : Stream} (h : S.Total) (l : List Bool) : (S.after l).Total := by
  intro i
  simp only [Stream.after]
  split
  · simp; omega
  · exact h _

theorem total_num {S : Stream} (h : S.Total) (n : Nat) : S.num n ≠ none := by
  induction n with
  | zero => simp [Stream.num]
  | succ n ih =>
    simp only [Stream.num]
    cases h1 : S.num n with
    | none => exact absurd h1 ih
    | some v =>
      cases h2 : S n with
      | none => exact absurd h2 (h n)
      | some b => simp

theorem after_append (a b : List Bool) (S : Stream) : S.after (a ++ b) = (S.after b).after a := by
  funext i
  simp only [Stream.after, List.length_append]
  by_cases h1 : i < a.length
  · rw [if_pos (by omega), if_pos h1, List.getElem?_append_left h1]
  · rw [if_neg h1]
    by_cases h2 : i < a.length + b.length
    · rw [if_pos h2, if_pos (by omega), List.getElem?_append_right (by omega)]
    · rw [if_neg h2, if_neg (by omega)]; congr 1; omega

theorem after_nil (S : Stream) : S.after [] = S := by funext i; simp [Stream.after]

theorem numBits_length (n v : Nat) : (numBits n v).length = n := by simp [numBits]

theorem drop_after (n v : Nat) (S : Stream) : (S.after (numBits n v)).drop n = S := by
  funext i
  simp only [Stream.drop, Stream.after, numBits_length]
  rw [if_neg (by omega)]; congr 1; omega

theorem num_after (n v : Nat) (S : Stream) (hv : v < 2 ^ n) : (S.after (numBits n v)).num n = some v := by
  have key : ∀ m, m ≤ n → (S.after (numBits n v)).num m = some (v / 2 ^ (n - m)) := by
    intro m
    induction m with
    | zero => intro _; simp only [Stream.num, Nat.sub_zero]; rw [Nat.div_eq_of_lt hv]
    | succ m ih =>
      intro hm
      rw [Stream.num, ih (by omega)]
      have : (S.after (numBits n v)) m = some (v.testBit (n - 1 - m)) := by
        simp only [Stream.after, numBits_length, if_pos (show m < n by omega)]
        simp [numBits, show m < n by omega]
      rw [this]
      simp only [Option.some.injEq]
      rw [show n - m = (n - (m + 1)) + 1 by omega, Nat.pow_succ, ← Nat.div_div_eq_div_mul, show n - 1 - m = n - (m + 1) by omega, Nat.testBit_eq_decide_div_mod_eq]
      generalize v / 2 ^ (n - (m + 1)) = q
      by_cases hq : q % 2 = 1 <;> simp [hq] <;> omega
  simpa using key n (Nat.le_refl _)

/-- A code word at the front of the stream. -/
theorem huffext_word {s : In} (h : s.Ok) {t : Table} (ht : t.Ok) (hv : t.Valid) {v : Nat} {l : List Bool} (hw : t.word v = some l) {S : Stream} (hS : S.Total) (hs : s.stream = S.after l) :
    ∃ s1, huffext s t = .ok (v, s1) ∧ s1.Ok ∧ s1.stream = S := by
  simp only [Table.word, Option.map_eq_some_iff] at hw
  obtain ⟨e, he, rfl⟩ := hw
  have hm := List.mem_of_find?_eq_some he
  have hval := List.find?_some he
  simp only [beq_iff_eq] at hval
  have hnum : s.stream.num e.len = some e.code := by rw [hs]; exact num_after _ _ _ (hv e hm)
  rcases huffext_spec h ht hv with ⟨h1, _⟩ | ⟨_, h1, _⟩ | ⟨e', s1, _, hm', hn', hx, hok, hst⟩
  · rw [hs] at h1; exact absurd h1 (total_num (total_after hS _) _)
  · exact absurd hnum (h1 e hm)
  · have : e' = e := entries_unique hm' hm hn' hnum
    subst this
    exact ⟨s1, by rw [hx, hval], hok, by rw [hst, hs]; exact drop_after _ _ _⟩

/-- Bits at the front of the stream. -/
theorem bitext_bits {s : In} (h : s.Ok) {n v : Nat} (hn : n ≤ 16) (hv : v < 2 ^ n) {S : Stream} (hs : s.stream = S.after (numBits n v)) :
    ∃ s1, bitext s n = .ok (v, s1) ∧ s1.Ok ∧ s1.stream = S := by
  have hnum : s.stream.num n = some v := by rw [hs]; exact num_after _ _ _ hv
  rcases bitext_spec h hn with ⟨u, s1, he, hu, hok, hst⟩ | ⟨_, h1⟩
  · rw [hnum] at hu
    obtain rfl := Option.some.inj hu
    exact ⟨s1, he, hok, by rw [hst, hs]; exact drop_after _ _ _⟩
  · rw [hnum] at h1; exact absurd h1 (by simp)

theorem size_bounds {c : Int} (hc : c ≠ 0) : 2 ^ (size c - 1) ≤ c.natAbs ∧ c.natAbs < 2 ^ size c ∧ 1 ≤ size c := by
  have hn : c.natAbs ≠ 0 := by omega
  simp only [size, hc, if_false, Nat.add_sub_cancel]
  exact ⟨Nat.log2_self_le hn, Nat.lt_log2_self, by omega⟩

theorem size_le {c : Int} {k : Nat} (h : c.natAbs < 2 ^ k) : size c ≤ k := by
  by_cases hc : c = 0
  · simp [size, hc]
  · obtain ⟨h1, _, h3⟩ := size_bounds hc
    have : size c - 1 < k := by
      apply Nat.lt_of_not_le
      intro hle
      have := Nat.pow_le_pow_right (n := 2) (by omega) hle
      omega
    omega

theorem magnitude_lt (c : Int) (hc : c ≠ 0) : magnitude c < 2 ^ size c := by
  obtain ⟨h1, h2, h3⟩ := size_bounds hc
  simp only [magnitude]
  have hp : ((2 ^ size c : Nat) : Int) = 2 ^ size c := by simp
  split <;> omega

/-- The bits of a coefficient stand for it. -/
theorem extend_magnitude (c : Int) (hc : c ≠ 0) : extend (magnitude c) (size c) = c := by
  obtain ⟨h1, h2, h3⟩ := size_bounds hc
  have hp : ((2 ^ size c : Nat) : Int) = 2 ^ size c := by simp
  have hs : 2 ^ size c = 2 * 2 ^ (size c - 1) := by
    conv => lhs; rw [show size c = (size c - 1) + 1 by omega, Nat.pow_succ]
    omega
  unfold extend magnitude
  generalize 2 ^ (size c - 1) = p at *
  by_cases hpos : 0 < c
  · rw [if_pos hpos]
    have hd : c.toNat / p = 1 := by rw [Nat.div_eq_of_lt_le] <;> omega
    rw [hd]; simp; omega
  · rw [if_neg hpos]
    have hd : (c - 1 + 2 ^ size c).toNat / p = 0 := Nat.div_eq_of_lt (by omega)
    rw [hd]; simp only [Nat.zero_mod, if_true]; omega

/-- The coefficients put in their places from position `z` of the zigzag on. -/
def place (q : List Nat) (tmp : List Int) (z : Nat) : List Int → List Int
  | [] => tmp
  | c :: cs => place q (if c = 0 then tmp else tmp.set (zig.getD z 0) (scaled (q.getD (zig.getD z 0) 0) c)) (z + 1) cs

theorem zig_get {z : Nat} (hz : z < 64) : at? zig z = .ok (zig.getD z 0) ∧ zig.getD z 0 < 64 := by
  have : ∀ z, z < 64 → at? zig z = .ok (zig.getD z 0) ∧ zig.getD z 0 < 64 := by decide +kernel
  exact this z hz

theorem dequant_get {F : Arith} {q : List Nat} (hq : q.length = 64) {i : Nat} (hi : i < 64) (d : Int) (hF : F.strict = true → (d * q.getD i 0).natAbs < 2 ^ 31) : dequant F q i d = .ok (scaled (q.getD i 0) d) := by
  simp only [List.getD_eq_getElem?_getD, List.getElem?_eq_getElem (hq ▸ hi : i < q.length), Option.getD_some] at hF
  simp only [dequant, scaled, List.getElem?_eq_getElem (hq ▸ hi : i < q.length), List.getD_eq_getElem?_getD, Option.getD_some]
  rw [if_neg]
  rintro ⟨h1, h2⟩
  apply h2
  have := hF h1
  unfold wrap32
  omega

theorem dequant_loose {F : Arith} (hF : F.strict = false) {q : List Nat} (hq : q.length = 64) {i : Nat} (hi : i < 64) (d : Int) : dequant F q i d = .ok (scaled (q.getD i 0) d) :=
  dequant_get hq hi d (fun h => by rw [hF] at h; cases h)

theorem put_get {tmp : List Int} (ht : tmp.length = 64) {i : Nat} (hi : i < 64) (x : Int) : put tmp i x = .ok (tmp.set i x) := by
  simp [put, ht, hi]

theorem acLoop_mono {F : Arith} {t : Table} {q : List Nat} : ∀ {n z : Nat} {s : In} {tmp : List Int} {z1 : Nat} {s1 : In} {tmp1 : List Int},
    acLoop F t q n z s tmp = .ok (z1, s1, tmp1) → z ≤ z1 := by
  intro n
  induction n with
  | zero => intro z s tmp z1 s1 tmp1 h; simp [acLoop] at h
  | succ n ih =>
    intro z s tmp z1 s1 tmp1 h
    rw [acLoop] at h
    cases hx : huffext s t with
    | err e => simp [hx, bind, R.bind] at h
    | ub => simp [hx, bind, R.bind] at h
    | ok p =>
      obtain ⟨d, s2⟩ := p
      simp only [hx, bind, R.bind] at h
      split at h
      · simp at h; omega
      · split at h
        · simp at h
        · split at h
          · split at h
            · have := ih h; omega
            · simp at h; omega
          · cases hy : bitext s2 (d % 16) with
            | err e => simp [hy] at h
            | ub => simp [hy] at h
            | ok p =>
              obtain ⟨e, s3⟩ := p
              simp only [hy] at h
              cases hz : at? zig (z + d / 16) with
              | err e => simp [hz] at h
              | ub => simp [hz] at h
              | ok i =>
                simp only [hz] at h
                cases hd : dequant F q i (extend e (d % 16)) with
                | err e => simp [hd] at h
                | ub => simp [hd] at h
                | ok x =>
                  simp only [hd] at h
                  cases hp : put tmp i x with
                  | err e => simp [hp] at h
                  | ub => simp [hp] at h
                  | ok tmp2 =>
                    simp only [hp] at h
                    split at h
                    · have := ih h; omega
                    · simp at h; omega

section
variable {F : Arith} {t : Table} (ht : t.Ok) (hv : t.Valid) {q : List Nat} (hq : q.length = 64)
include ht hv

/-- Runs of 16 zeros. -/
theorem ac_zrl {w : List Bool} (hw : t.word 0xF0 = some w) {S : Stream} (hS : S.Total) (tmp : List Int) : ∀ (k n z : Nat) (s : In), s.Ok → s.stream = S.after (times k w) → z + 16 * k < 64 → 64 - z ≤ n →
    ∃ s1 n1, acLoop F t q n z s tmp = acLoop F t q n1 (z + 16 * k) s1 tmp ∧ s1.Ok ∧ s1.stream = S ∧ 64 - (z + 16 * k) ≤ n1 := by
  intro k
  induction k with
  | zero =>
    intro n z s hs he hz hn
    exact ⟨s, n, rfl, hs, by rw [he]; simp [times, after_nil], by omega⟩
  | succ k ih =>
    intro n z s hs he hz hn
    obtain ⟨m, rfl⟩ := Nat.exists_eq_succ_of_ne_zero (show n ≠ 0 by omega)
    have hs2 : s.stream = (S.after (times k w)).after w := by rw [he, ← after_append]; simp [times, List.replicate_succ]
    obtain ⟨s1, hx, hok, hst⟩ := huffext_word hs ht hv hw (total_after hS _) hs2
    obtain ⟨s2, n2, h1, h2, h3, h4⟩ := ih m (z + 16) s1 hok hst (by omega) (by omega)
    refine ⟨s2, n2, ?_, h2, h3, by omega⟩
    rw [acLoop, hx]
    simp only [bind, R.bind, show (0xF0 : Nat) ≠ 0 by decide, if_false, show (0xF0 : Nat) / 16 = 15 by decide, show (0xF0 : Nat) % 16 = 0 by decide, if_true]
    rw [if_neg (by omega), if_pos (by omega), show z + 15 + 1 = z + 16 by omega, h1]
    congr 1; omega

include hq

theorem ac_spec {S : Stream} (hS : S.Total) : ∀ (cs : List Int) (run z n : Nat) (s : In) (tmp : List Int) (l : List Bool), encodeAc t run cs = some l → s.Ok → s.stream = S.after l → tmp.length = 64 →
    z + run + cs.length = 64 → z < 64 → 64 - z ≤ n → (∀ c ∈ cs, c.natAbs < 2 ^ 15) → Exact F q (z + run) cs →
    ∃ s1, s1.Ok ∧ s1.stream = S ∧ ∃ z1, acLoop F t q n z s tmp = .ok (z1, s1, place q tmp (z + run) cs) ∧ (z1 = z ↔ ∀ c ∈ cs, c = 0) := by
  intro cs
  induction cs with
  | nil =>
    intro run z n s tmp l he hs hst htl hz hz64 hn _ _
    obtain ⟨m, rfl⟩ := Nat.exists_eq_succ_of_ne_zero (show n ≠ 0 by omega)
    obtain ⟨r, rfl⟩ := Nat.exists_eq_succ_of_ne_zero (show run ≠ 0 by simp at hz; omega)
    simp only [encodeAc] at he
    obtain ⟨s1, hx, hok, hst1⟩ := huffext_word hs ht hv he hS hst
    refine ⟨s1, hok, hst1, z, ?_, by simp⟩
    rw [acLoop, hx]
    simp [bind, R.bind, place]
  | cons c cs ih =>
    intro run z n s tmp l he hs hst htl hz hz64 hn hb hex
    have hex1 : Exact F q (z + run + 1) cs := by
      intro h k hk
      have := hex h (k + 1) (by simpa using hk)
      rwa [List.getD_cons_succ, show z + run + (k + 1) = z + run + 1 + k by omega] at this
    by_cases hc : c = 0
    · have he' : encodeAc t (run + 1) cs = some l := by cases run <;> simpa [encodeAc, hc] using he
      obtain ⟨s1, h1, h2, z1, h3, h4⟩ := ih (run + 1) z n s tmp l he' hs hst htl (by simp at hz; omega) hz64 hn (fun x hx => hb x (by simp [hx])) hex1
      refine ⟨s1, h1, h2, z1, ?_, by simp [h4, hc]⟩
      rw [h3, place]
      simp only [hc, if_true, Nat.add_assoc]
    · have he' : (do
          let w ← t.sixteen run
          let v ← t.word (run % 16 * 16 + size c)
          let r ← encodeAc t 0 cs
          some (times (run / 16) w ++ (v ++ (numBits (size c) (magnitude c) ++ r)))) = some l := by cases run <;> simpa [encodeAc, hc] using he
      simp only [bind, Option.bind_eq_some_iff, Option.some.injEq] at he'
      obtain ⟨w, hw, v, hvv, r, hr, rfl⟩ := he'
      simp only [List.length_cons] at hz
      rw [after_append, after_append, after_append] at hst
      have hT : (S.after r).Total := total_after hS _
      -- runs of 16
      have hz1 : ∃ s1 n1, acLoop F t q n z s tmp = acLoop F t q n1 (z + 16 * (run / 16)) s1 tmp ∧ s1.Ok ∧ s1.stream = ((S.after r).after (numBits (size c) (magnitude c))).after v ∧ 64 - (z + 16 * (run / 16)) ≤ n1 := by
        by_cases h16 : 16 ≤ run
        · rw [Table.sixteen, if_pos h16] at hw
          exact ac_zrl ht hv hw (total_after (total_after hT _) _) tmp (run / 16) n z s hs hst (by omega) hn
        · have h0 : run / 16 = 0 := by omega
          refine ⟨s, n, by rw [h0]; rfl, hs, ?_, by omega⟩
          rw [hst, h0]; simp [times, after_nil]
      obtain ⟨s1, n1, e1, hok1, hst1, hn1⟩ := hz1
      obtain ⟨m, rfl⟩ := Nat.exists_eq_succ_of_ne_zero (show n1 ≠ 0 by omega)
      obtain ⟨s2, hx, hok2, hst2⟩ := huffext_word hok1 ht hv hvv (total_after hT _) hst1
      obtain ⟨_, hsz, hsz1⟩ := size_bounds hc
      have hsle : size c ≤ 15 := size_le (hb c (by simp))
      obtain ⟨s3, hy, hok3, hst3⟩ := bitext_bits hok2 (show size c ≤ 16 by omega) (magnitude_lt c hc) hst2
      have hzz : z + 16 * (run / 16) + (run % 16 * 16 + size c) / 16 = z + run := by omega
      have hmod : (run % 16 * 16 + size c) % 16 = size c := by omega
      obtain ⟨hz2, hz3⟩ := zig_get (show z + run < 64 by omega)
      have step : acLoop F t q n z s tmp = if z + run + 1 < 64 then acLoop F t q m (z + run + 1) s3 (tmp.set (zig.getD (z + run) 0) (scaled (q.getD (zig.getD (z + run) 0) 0) c))
          else .ok (z + run + 1, s3, tmp.set (zig.getD (z + run) 0) (scaled (q.getD (zig.getD (z + run) 0) 0) c)) := by
        rw [e1, acLoop, hx]
        simp only [bind, R.bind]
        rw [if_neg (by omega)]
        simp only [hzz, hmod]
        rw [if_neg (by omega), if_neg (by omega), hy]
        simp only [hz2]
        rw [extend_magnitude c hc, dequant_get hq hz3 c (fun h => by simpa using hex h 0 (by simp))]
        simp only [put_get htl hz3]
      rw [step]
      by_cases hlast : z + run + 1 < 64
      · rw [if_pos hlast]
        obtain ⟨s4, h1, h2, z4, h3, _⟩ := ih 0 (z + run + 1) m s3 (tmp.set (zig.getD (z + run) 0) (scaled (q.getD (zig.getD (z + run) 0) 0) c)) r hr hok3 hst3 (by simpa using htl)
          (by omega) hlast (by omega) (fun x hx => hb x (by simp [hx])) hex1
        refine ⟨s4, h1, h2, z4, ?_, ?_⟩
        · rw [h3, place]; simp only [hc, if_false, Nat.add_zero]
        · constructor
          · intro hz4
            exfalso
            have : z + run + 1 ≤ z4 := by
              clear step
              exact acLoop_mono h3
            omega
          · intro h; exact absurd (h c (by simp)) hc
      · rw [if_neg hlast]
        have hnil : cs = [] := List.eq_nil_of_length_eq_zero (by omega)
        subst hnil
        simp only [encodeAc, Option.some.injEq] at hr
        subst hr
        rw [after_nil] at hst3
        refine ⟨s3, hok3, hst3, z + run + 1, ?_, ?_⟩
        · simp only [place, hc, if_false]
        · constructor
          · intro h; omega
          · intro h; exact absurd (h c (by simp)) hc
end

theorem place_length (q : List Nat) : ∀ (cs : List Int) (tmp : List Int) (z : Nat), (place q tmp z cs).length = tmp.length := by
  intro cs
  induction cs with
  | nil => intro tmp z; rfl
  | cons c cs ih => intro tmp z; rw [place, ih]; split <;> simp

theorem zig_idx : ∀ i, i < 64 → zig.idxOf i < 64 ∧ zig.getD (zig.idxOf i) 0 = i := by decide +kernel

theorem idx_zig : ∀ z, z < 64 → zig.idxOf (zig.getD z 0) = z := by decide +kernel

theorem place_get (q : List Nat) : ∀ (cs : List Int) (tmp : List Int) (z : Nat), tmp.length = 64 → z + cs.length ≤ 64 → ∀ i, i < 64 →
    (place q tmp z cs).getD i 0 =
      if z ≤ zig.idxOf i ∧ zig.idxOf i < z + cs.length ∧ cs.getD (zig.idxOf i - z) 0 ≠ 0 then scaled (q.getD i 0) (cs.getD (zig.idxOf i - z) 0) else tmp.getD i 0 := by
  intro cs
  induction cs with
  | nil => intro tmp z _ _ i _; rw [if_neg (by simp only [List.length_nil]; omega)]; rfl
  | cons c cs ih =>
    intro tmp z htl hz i hi
    simp only [List.length_cons] at hz ⊢
    rw [place, ih _ (z + 1) (by split <;> simp [htl]) (by omega) i hi]
    by_cases hk : zig.idxOf i = z
    · rw [if_neg (by omega)]
      have hzi : zig.getD z 0 = i := by rw [← hk]; exact (zig_idx i hi).2
      rw [hk, hzi, Nat.sub_self]
      simp only [List.getD_cons_zero]
      by_cases hc : c = 0
      · rw [if_pos hc, if_neg (by simp [hc])]
      · rw [if_neg hc, if_pos ⟨Nat.le_refl _, by omega, hc⟩]
        simp [List.getD_eq_getElem?_getD, htl, hi]
    · have hset : (if c = 0 then tmp else tmp.set (zig.getD z 0) (scaled (q.getD (zig.getD z 0) 0) c)).getD i 0 = tmp.getD i 0 := by
        split
        · rfl
        · have hne : zig.getD z 0 ≠ i := by intro h; apply hk; rw [← h]; exact idx_zig z (by omega)
          rw [List.getD_eq_getElem?_getD, List.getElem?_set_ne hne, ← List.getD_eq_getElem?_getD]
      rw [hset]
      by_cases hge : z + 1 ≤ zig.idxOf i
      · have : zig.idxOf i - z = (zig.idxOf i - (z + 1)) + 1 := by omega
        rw [this, List.getD_cons_succ]
        by_cases hlt : zig.idxOf i < z + 1 + cs.length ∧ cs.getD (zig.idxOf i - (z + 1)) 0 ≠ 0
        · rw [if_pos ⟨hge, hlt.1, hlt.2⟩, if_pos ⟨by omega, by omega, hlt.2⟩]
        · rw [if_neg (fun h => hlt h.2), if_neg (fun h => hlt ⟨by omega, h.2.2⟩)]
      · rw [if_neg (by omega), if_neg (by omega)]

theorem scaled_zero (q : Nat) : scaled q 0 = 0 := by simp [scaled, wrap32]

theorem place_coefficients (q : List Nat) (dc : Int) (acs : List Int) (hl : acs.length = 63) :
    place q ((List.replicate 64 0).set 0 (scaled (q.getD 0 0) dc)) 1 acs = coefficients q (dc :: acs) := by
  have hpl : (place q ((List.replicate 64 0).set 0 (scaled (q.getD 0 0) dc)) 1 acs).length = 64 := by rw [place_length]; simp
  apply List.ext_getElem
  · rw [hpl]; simp [coefficients]
  · intro i h1 h2
    have hi : i < 64 := by rw [hpl] at h1; exact h1
    have := place_get q acs ((List.replicate 64 0).set 0 (scaled (q.getD 0 0) dc)) 1 (by simp) (by omega) i hi
    rw [List.getD_eq_getElem?_getD, List.getElem?_eq_getElem h1, Option.getD_some] at this
    rw [this]
    have hlt := (zig_idx i hi).1
    simp only [coefficients, List.getElem_map, List.getElem_range]
    cases hk : zig.idxOf i with
    | zero =>
      have h0 : i = 0 := by rw [← (zig_idx i hi).2, hk]; rfl
      subst h0
      rw [if_neg (by omega)]; simp
    | succ k =>
      have hne : i ≠ 0 := by
        intro h; subst h
        have : zig.idxOf 0 = 0 := by decide +kernel
        omega
      simp only [Nat.add_sub_cancel, List.getD_cons_succ]
      by_cases hc : acs.getD k 0 = 0
      · rw [if_neg (fun h => h.2.2 hc), hc, scaled_zero]
        rw [List.getD_eq_getElem?_getD, List.getElem?_set_ne (Ne.symm hne), List.getElem?_replicate, if_pos hi, Option.getD_some]
      · rw [if_pos ⟨by omega, by omega, hc⟩]

/-- A block that an encoder wrote. -/
theorem block_spec {F : Arith} {jd : JD} {cmp : Nat} {tdc tac : Table} (h1 : jd.table (if cmp = 0 then 0 else 1) 0 = .ok tdc) (h2 : jd.table (if cmp = 0 then 0 else 1) 1 = .ok tac)
    (hdc : tdc.Ok) (hdv : tdc.Valid) (hac : tac.Ok) (hav : tac.Valid) {q : List Nat} (hq : jd.quant cmp = .ok q) (hql : q.length = 64) {s : In} (hs : s.Ok) {S : Stream} (hS : S.Total) {dcv diff : Int}
    {acs : List Int} (hl : acs.length = 63) (hb : ∀ c ∈ acs, c.natAbs < 2 ^ 15) (hbd : diff.natAbs < 2 ^ 15) {l : List Bool} (he : encodeBlock tdc tac diff acs = some l) (hst : s.stream = S.after l)
    (hd16 : wrap16 dcv = dcv) (hex : Exact F q 0 ((dcv + diff) :: acs)) : ∃ s1, block F jd cmp s dcv = .ok (s1, wrap16 (dcv + diff), elements F q ((dcv + diff) :: acs)) ∧ s1.Ok ∧ s1.stream = S := by
  simp only [encodeBlock, bind, Option.bind_eq_some_iff, Option.some.injEq] at he
  obtain ⟨v, hv, r, hr, rfl⟩ := he
  rw [after_append, after_append] at hst
  have hT : (S.after r).Total := total_after hS _
  obtain ⟨s1, e1, ok1, st1⟩ := huffext_word hs hdc hdv hv (total_after hT _) hst
  have hsz : size diff ≤ 15 := size_le hbd
  have hdcstep : ∃ s2, dcValue s1 dcv (size diff) = R.ok (dcv + diff, wrap16 (dcv + diff), s2) ∧ s2.Ok ∧ s2.stream = S.after r := by
    by_cases hz : diff = 0
    · subst hz
      have h0 : size 0 = 0 := rfl
      refine ⟨s1, ?_, ok1, ?_⟩
      · simp only [dcValue, h0, if_true, Int.add_zero]; rw [hd16]
      · rw [st1, h0]; simp [numBits, after_nil]
    · obtain ⟨_, _, h3⟩ := size_bounds hz
      obtain ⟨s2, e2, ok2, st2⟩ := bitext_bits ok1 (show size diff ≤ 16 by omega) (magnitude_lt diff hz) st1
      refine ⟨s2, ?_, ok2, st2⟩
      rw [dcValue, if_neg (by omega), e2]
      simp only [bind, R.bind, extend_magnitude diff hz]
  obtain ⟨s2, e2, ok2, st2⟩ := hdcstep
  obtain ⟨s3, ok3, st3, z1, e3, hz1⟩ := ac_spec hac hav hql hS acs 0 1 64 s2 ((List.replicate 64 0).set 0 (scaled (q.getD 0 0) (dcv + diff))) r hr ok2 st2 (by simp) (by omega) (by omega) (by omega) hb
    (fun h k hk => by have := hex h (k + 1) (by simpa using hk); rwa [List.getD_cons_succ, Nat.zero_add, Nat.add_comm k 1] at this)
  refine ⟨s3, ?_, ok3, st3⟩
  simp only [block, h1, h2, bind, R.bind, e1]
  simp only [e2, hq, dequant_get hql (show 0 < 64 by omega) _ (fun h => by simpa [zig] using hex h 0 (by simp)), put_get (show (List.replicate 64 (0 : Int)).length = 64 by simp) (show 0 < 64 by omega), e3]
  rw [place_coefficients q _ acs hl]
  by_cases hall : ∀ c ∈ acs, c = 0
  · rw [if_pos (hz1.mpr hall)]
    rw [elements, if_pos (by simpa using hall)]
    have h0 : zig.idxOf 0 = 0 := by decide +kernel
    have : (coefficients q ((dcv + diff) :: acs)).getD 0 0 = scaled (q.getD 0 0) (dcv + diff) := by
      simp [coefficients, List.range_succ_eq_map, h0]
    rw [this]
    simp
  · rw [if_neg (fun h => hall (hz1.mp h))]
    rw [elements, if_neg (by simpa using hall)]

/-! ## Words in bytes -/

theorem unstuff_stuff (l : List Nat) (m : Nat) (hm : m ≠ 0) (r : List Nat) : unstuff (stuff l ++ 255 :: m :: r) = (l, true) := by
  induction l with
  | nil => exact unstuff_marker hm r
  | cons b l ih =>
    rw [stuff]
    split
    · rename_i h; subst h
      rw [List.cons_append, List.cons_append, unstuff_zero, ih]
    · rename_i h
      rw [List.cons_append, unstuff_other h, ih]

theorem pack_stream (l : List Bool) : ∀ i, byteStream (pack l, true) i = some (l.getD i true) := by
  induction l using pack.induct with
  | case1 => intro i; simp [pack, byteStream]
  | case2 a l ih =>
    intro i
    rw [pack]
    by_cases hi : i < 8
    · rw [(byteStream_cons _ _ _).1 i hi]
      have : ∀ b0 b1 b2 b3 b4 b5 b6 b7 : Bool, ∀ j, j < 8 →
          (128 * (if b0 then 1 else 0) + 64 * (if b1 then 1 else 0) + 32 * (if b2 then 1 else 0) + 16 * (if b3 then 1 else 0) + 8 * (if b4 then 1 else 0) + 4 * (if b5 then 1 else 0) + 2 * (if b6 then 1 else 0) +
            (if b7 then 1 else 0) : Nat).testBit (7 - j) = [b0, b1, b2, b3, b4, b5, b6, b7].getD j true := by decide +kernel
      rw [this _ _ _ _ _ _ _ _ i hi]
      congr 1
      have : i = 0 ∨ i = 1 ∨ i = 2 ∨ i = 3 ∨ i = 4 ∨ i = 5 ∨ i = 6 ∨ i = 7 := by omega
      rcases this with rfl | rfl | rfl | rfl | rfl | rfl | rfl | rfl <;> rfl
    · obtain ⟨k, rfl⟩ : ∃ k, i = 8 + k := ⟨i - 8, by omega⟩
      rw [(byteStream_cons _ _ _).2 k, ih k]
      rw [show 8 + k = (7 + k) + 1 by omega, List.getD_cons_succ]
      simp [List.getD_eq_getElem?_getD]

/-- The stream of words, and ones behind. -/
theorem stream_packed {s : In} (hw : s.wbit = 0) (hm : s.marker = 0) {l : List Bool} {m : Nat} (hm0 : m ≠ 0) {r : List Nat} (hr : s.rest = stuff (pack l) ++ 255 :: m :: r) :
    s.stream = Stream.after l (fun _ => some true) := by
  funext i
  simp only [In.stream, hw, Nat.not_lt_zero, if_false, hm, ne_eq, not_true_eq_false, hr, unstuff_stuff _ _ hm0, Nat.sub_zero, pack_stream, Stream.after]
  rw [List.getD_eq_getElem?_getD]
  split
  · rename_i h; rw [List.getElem?_eq_getElem h]; rfl
  · rename_i h; rw [List.getElem?_eq_none (by omega)]; rfl

theorem values_spec {t : Table} (ht : t.Ok) (hv : t.Valid) {S : Stream} (hS : S.Total) : ∀ (es : List Entry) (s : In), (∀ e ∈ es, e ∈ t.entries) → s.Ok → s.stream = S.after (es.flatMap Entry.bits) →
    values t es.length s = .ok (es.map Entry.value) := by
  intro es
  induction es with
  | nil => intro s _ _ _; rfl
  | cons e es ih =>
    intro s he hs hst
    rw [List.flatMap_cons, after_append] at hst
    have hm := he e (by simp)
    have hnum : s.stream.num e.len = some e.code := by rw [hst]; exact num_after _ _ _ (hv e hm)
    rcases huffext_spec hs ht hv with ⟨h1, _⟩ | ⟨_, h1, _⟩ | ⟨e', s1, _, hm', hn', hx, hok, hst1⟩
    · rw [hst] at h1; exact absurd h1 (total_num (total_after (total_after hS _) _) _)
    · exact absurd hnum (h1 e hm)
    · have : e' = e := entries_unique hm' hm hn' hnum
      subst this
      rw [List.length_cons, values, hx]
      simp only [bind, R.bind]
      rw [ih s1 (fun x hx => he x (by simp [hx])) hok (by rw [hst1, hst]; exact drop_after _ _ _)]
      rfl

end Verif.Jpg
