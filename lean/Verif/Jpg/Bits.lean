import Verif.Jpg.Spec

/-!
# Lemmas: the input as a stream of bits
-/

namespace Verif.Jpg

/-- `In.Ok` with a register without bits that are not in use. -/
structure In.Tidy (s : In) : Prop where
  ok : s.Ok
  w : s.w < 2 ^ s.wbit

theorem masked_tidy {s : In} (h : s.Ok) : (masked s).Tidy ∧ (masked s).stream = s.stream := by
  have hw : s.wbit % 32 = s.wbit := Nat.mod_eq_of_lt (by have := h.wbit; omega)
  refine ⟨⟨⟨h.fits, h.bytes, h.buf, ?_, ?_⟩, ?_⟩, ?_⟩
  · simp [masked, hw, h.wbit]
  · simp only [masked, hw]; exact Nat.lt_of_le_of_lt (Nat.mod_le _ _) h.w
  · simp only [masked, hw]; exact Nat.mod_lt _ (Nat.two_pow_pos _)
  · funext i
    simp only [In.stream, masked, hw, In.rest]
    split
    · rename_i hi
      rw [Nat.testBit_mod_two_pow]
      simp; omega
    · rfl

/-- The next byte. -/
theorem nextByte_spec {s : In} (h : s.Ok) :
    (s.rest = [] ∧ nextByte s = .err .inp) ∨
    ∃ d s1, nextByte s = .ok (d, s1) ∧ s.rest = d :: s1.rest ∧ d < 256 ∧ s1.Ok ∧ s1.marker = s.marker ∧ s1.w = s.w ∧ s1.wbit = s.wbit := by
  have hf := h.fits
  by_cases hd : s.dctr = 0
  · cases hs : s.src with
    | nil => left; simp [nextByte, hd, In.rest, hs, infunc, bind, R.bind]
    | cons a r =>
      right
      have hg : min szbuf (r.length + 1) ≤ szbuf := Nat.min_le_left _ _
      have hp : 0 < min szbuf (r.length + 1) := by simp only [szbuf]; omega
      have h0 : min szbuf (r.length + 1) ≠ 0 := by omega
      have hb : ∀ b ∈ a :: r, b < 256 := by intro b hb; apply h.bytes; simp [In.rest, hd, hs, List.mem_cons.mp hb]
      have hrest : s.rest = a :: r := by simp [In.rest, hd, hs]
      generalize hm : min szbuf (r.length + 1) = m at *
      have hml : m ≤ r.length + 1 := by omega
      let buf' : Nat → Nat := fun i => if i < m then (a :: r).getD i 0 else s.buf i
      have hr : (List.range (m - 1)).map (fun i => buf' (1 + i)) ++ (a :: r).drop m = r := by
        have e1 : (List.range (m - 1)).map (fun i => buf' (1 + i)) = r.take (m - 1) := by
          apply List.ext_getElem
          · simp; omega
          · intro i h1 h2
            simp at h1
            have : 1 + i < m := by omega
            simp only [List.getElem_map, List.getElem_range, List.getElem_take, buf', if_pos this]
            rw [Nat.add_comm 1 i, List.getD_cons_succ]
            rw [List.getD_eq_getElem?_getD, List.getElem?_eq_getElem (by omega), Option.getD_some]
        have e2 : (a :: r).drop m = r.drop (m - 1) := by
          obtain ⟨k, rfl⟩ := Nat.exists_eq_succ_of_ne_zero h0
          simp
        rw [e1, e2, List.take_append_drop]
      refine ⟨a, { s with buf := buf', src := (a :: r).drop m, dptr := 1, dctr := m - 1 }, ?_, ?_, hb a (by simp), ?_, rfl, rfl, rfl⟩
      · have hin : infunc s.buf (a :: r) 0 szbuf = .ok (m, buf', (a :: r).drop m) := by
          simp only [infunc, List.length_cons, Nat.zero_add, hm, hg, if_true, Nat.zero_le, true_and, Nat.sub_zero]; rfl
        simp only [nextByte, hd, if_true, hs, hin, bind, R.bind, h0, if_false]
        simp [buf', hp, szbuf]
      · rw [hrest]; simp only [In.rest]; rw [hr]
      · refine ⟨?_, ?_, ?_, h.wbit, h.w⟩
        · show 1 + (m - 1) ≤ szbuf; omega
        · intro b hb'; apply hb; simp only [In.rest] at hb'; rw [hr] at hb'; exact List.mem_cons_of_mem _ hb'
        · intro i
          simp only [buf']
          split
          · rename_i hi
            have : i < (a :: r).length := by simp; omega
            rw [List.getD_eq_getElem?_getD, List.getElem?_eq_getElem this, Option.getD_some]
            exact hb _ (List.getElem_mem _)
          · exact h.buf i
  · right
    obtain ⟨k, hk⟩ := Nat.exists_eq_succ_of_ne_zero hd
    have hrest : s.rest = s.buf s.dptr :: (In.rest { s with dptr := s.dptr + 1, dctr := s.dctr - 1 }) := by
      simp only [In.rest, hk, List.range_succ_eq_map, List.map_cons, List.map_map, Nat.add_zero, List.cons_append, Nat.succ_sub_one]
      congr 3
      funext i; simp; congr 1; omega
    refine ⟨s.buf s.dptr, { s with dptr := s.dptr + 1, dctr := s.dctr - 1 }, ?_, hrest, h.buf _, ?_, rfl, rfl, rfl⟩
    · simp only [nextByte, hd, if_false, bind, R.bind]
      rw [if_pos (by omega)]
    · exact ⟨by simp only; omega, fun b hb => h.bytes b (by rw [hrest]; exact List.mem_cons_of_mem _ hb), h.buf, h.wbit, h.w⟩

/-- The stream behind the register; `flg`: `FF` has been read. -/
def behind (s : In) (flg : Bool) : Stream :=
  if s.marker ≠ 0 then fun _ => some true else byteStream (unstuff (if flg then 255 :: s.rest else s.rest))

/-- The stream, when `FF` may have been read. -/
def full (s : In) (flg : Bool) : Stream := fun i => if i < s.wbit then some (s.w.testBit (s.wbit - 1 - i)) else behind s flg (i - s.wbit)

theorem full_false (s : In) : full s false = s.stream := by
  funext i
  simp only [full, In.stream, behind]
  split
  · rfl
  · split <;> simp

/-- A byte that is shifted into the register. -/
theorem push {s : In} {w' : Nat} {d : Nat} {T T' : Stream} (hw : s.w < 2 ^ s.wbit) (h16 : s.wbit < 16) (hd : d < 256) (hw' : w' = (s.w * 256 + d) % 2 ^ 32)
    (h8 : ∀ i, i < 8 → T i = some (d.testBit (7 - i))) (ht : ∀ i, T (8 + i) = T' i) :
    w' < 2 ^ (s.wbit + 8) ∧ w' < 2 ^ 32 ∧
    (fun i => if i < s.wbit + 8 then some (w'.testBit (s.wbit + 8 - 1 - i)) else T' (i - (s.wbit + 8))) =
    (fun i => if i < s.wbit then some (s.w.testBit (s.wbit - 1 - i)) else T (i - s.wbit)) := by
  have h1 : s.w * 256 + d < 2 ^ (s.wbit + 8) := by rw [Nat.pow_add]; omega
  have h2 : 2 ^ (s.wbit + 8) ≤ 2 ^ 32 := Nat.pow_le_pow_right (by omega) (by omega)
  rw [Nat.mod_eq_of_lt (by omega)] at hw'
  refine ⟨by omega, by omega, ?_⟩
  funext i
  subst hw'
  have key : s.w * 256 + d = s.w * 2 ^ 8 + d := by omega
  by_cases hi : i < s.wbit
  · rw [if_pos (by omega), if_pos hi, key, Nat.mul_comm, Nat.testBit_two_pow_mul_add _ hd, if_neg (by omega)]
    congr 2; omega
  · rw [if_neg hi]
    by_cases h8' : i < s.wbit + 8
    · rw [if_pos h8', h8 _ (by omega), key, Nat.mul_comm, Nat.testBit_two_pow_mul_add _ hd, if_pos (by omega)]
      congr 2; omega
    · rw [if_neg h8', ← ht]
      congr 1; omega

theorem byteStream_cons (b : Nat) (l : List Nat) (e : Bool) :
    (∀ i, i < 8 → byteStream (b :: l, e) i = some (b.testBit (7 - i))) ∧ ∀ i, byteStream (b :: l, e) (8 + i) = byteStream (l, e) i := by
  constructor
  · intro i hi
    simp [byteStream, show i / 8 = 0 by omega, show i % 8 = i by omega]
  · intro i
    simp [byteStream, show (8 + i) / 8 = i / 8 + 1 by omega]

theorem unstuff_zero (r : List Nat) : unstuff (255 :: 0 :: r) = (255 :: (unstuff r).1, (unstuff r).2) := by
  simp [unstuff]

theorem unstuff_marker {d : Nat} (hd : d ≠ 0) (r : List Nat) : unstuff (255 :: d :: r) = ([], true) := by
  obtain ⟨k, rfl⟩ := Nat.exists_eq_succ_of_ne_zero hd
  simp [unstuff]

theorem unstuff_other {d : Nat} (hd : d ≠ 255) (r : List Nat) : unstuff (d :: r) = (d :: (unstuff r).1, (unstuff r).2) := by
  cases r with
  | nil => simp [unstuff, hd]
  | cons a r => rw [unstuff.eq_def]; simp [hd]

theorem ff_bits : ∀ i, i < 8 → some true = some (Nat.testBit 255 (7 - i)) := by decide

/-- The rounds that are enough. -/
def togo (need : Nat) (s : In) (flg : Bool) : Nat := 2 * ((need - s.wbit + 7) / 8) - (if flg then 1 else 0)

theorem fill_spec (need : Nat) (hn : need ≤ 16) : ∀ fuel flg (s : In), s.Tidy → togo need s flg < fuel → (flg = true → s.marker = 0 ∧ s.wbit < need) →
    (∃ s1, fill need fuel flg s = .ok s1 ∧ s1.Tidy ∧ need ≤ s1.wbit ∧ s1.stream = full s flg) ∨ (fill need fuel flg s = .err .inp ∧ ∃ i, i < need ∧ full s flg i = none) := by
  intro fuel
  induction fuel with
  | zero => intro flg s _ hf; omega
  | succ fuel ih =>
    intro flg s ht hf hfl
    rw [fill]
    by_cases hw : s.wbit < need
    · rw [if_pos hw]
      by_cases hm : s.marker = 0
      · rw [if_neg (by simpa using hm)]
        rcases nextByte_spec ht.ok with ⟨hr, he⟩ | ⟨d, s1, he, hr, hd, h1, hm1, hw1, hb1⟩
        · right
          refine ⟨by rw [he]; rfl, s.wbit, hw, ?_⟩
          simp only [full, Nat.lt_irrefl, if_false, behind, hm, ne_eq, not_true_eq_false, if_false, hr]
          cases flg <;> simp [unstuff, byteStream]
        · rw [he]
          simp only [bind, R.bind]
          cases flg with
          | true =>
            simp only [if_true]
            -- the byte behind `FF`
            by_cases hd0 : d = 0
            · have hp := push (s := s1) (d := 255) (T := behind s true) (T' := behind { s1 with w := (s1.w * 256 + 255) % 2 ^ 32, wbit := s1.wbit + 8 } false) (by rw [hw1, hb1]; exact ht.w)
                (by omega) (by omega) rfl (by
                  intro i hi
                  simp only [behind, hm, ne_eq, not_true_eq_false, if_false, if_true, hr, hd0]
                  rw [unstuff_zero]
                  exact (byteStream_cons _ _ _).1 i hi) (by
                  intro i
                  simp only [behind, hm, hm1, ne_eq, not_true_eq_false, if_false, if_true, hr, hd0]
                  rw [unstuff_zero]
                  exact (byteStream_cons _ _ _).2 i)
              subst hd0
              simp only [ne_eq, not_true_eq_false, if_false]
              have := ih false { s1 with w := (s1.w * 256 + 255) % 2 ^ 32, wbit := s1.wbit + 8 } ⟨⟨h1.fits, h1.bytes, h1.buf, by simp only; omega, hp.2.1⟩, hp.1⟩
                (by simp only [togo] at hf ⊢; simp only [hb1] at *; simp at hf ⊢; omega) (by simp)
              have heq : full { s1 with w := (s1.w * 256 + 255) % 2 ^ 32, wbit := s1.wbit + 8 } false = full s true := by
                funext i
                have h := congrFun hp.2.2 i
                simp only [full]
                rw [h, hw1, hb1]
              rw [heq] at this
              exact this
            · have hp := push (s := s1) (d := 255) (T := behind s true) (T' := behind { s1 with marker := d, w := (s1.w * 256 + 255) % 2 ^ 32, wbit := s1.wbit + 8 } false) (by rw [hw1, hb1]; exact ht.w)
                (by omega) (by omega) rfl (by
                  intro i hi
                  simp only [behind, hm, ne_eq, not_true_eq_false, if_false, if_true, hr]
                  rw [unstuff_marker hd0]
                  simp only [byteStream, List.getElem?_nil, if_true]
                  exact ff_bits i hi) (by
                  intro i
                  simp only [behind, hm, ne_eq, not_true_eq_false, if_false, if_true, hr, hd0, not_false_eq_true]
                  rw [unstuff_marker hd0]
                  simp only [byteStream, List.getElem?_nil, if_true])
              simp only [ne_eq, hd0, not_false_eq_true, if_true]
              have := ih false { s1 with marker := d, w := (s1.w * 256 + 255) % 2 ^ 32, wbit := s1.wbit + 8 } ⟨⟨h1.fits, h1.bytes, h1.buf, by simp only; omega, hp.2.1⟩, hp.1⟩
                (by simp only [togo] at hf ⊢; simp only [hb1] at *; simp at hf ⊢; omega) (by simp)
              have heq : full { s1 with marker := d, w := (s1.w * 256 + 255) % 2 ^ 32, wbit := s1.wbit + 8 } false = full s true := by
                funext i
                have h := congrFun hp.2.2 i
                simp only [full]
                rw [h, hw1, hb1]
              rw [heq] at this
              exact this
          | false =>
            simp only [Bool.false_eq_true, if_false]
            by_cases hd5 : d = 255
            · rw [if_pos hd5]
              have := ih true s1 ⟨h1, by rw [hw1, hb1]; exact ht.w⟩ (by simp only [togo] at hf ⊢; simp only [hb1] at *; simp at hf ⊢; omega) (by intro _; exact ⟨by rw [hm1, hm], by rw [hb1]; exact hw⟩)
              have heq : full s1 true = full s false := by
                funext i
                simp only [full, hb1, hw1, behind, hm1, hm, ne_eq, not_true_eq_false, if_false, if_true, hr, hd5, Bool.false_eq_true]
              rw [heq] at this
              exact this
            · rw [if_neg hd5]
              have hu : unstuff s.rest = (d :: (unstuff s1.rest).1, (unstuff s1.rest).2) := by rw [hr, unstuff_other hd5]
              have hp := push (s := s1) (d := d) (T := behind s false) (T' := behind { s1 with w := (s1.w * 256 + d) % 2 ^ 32, wbit := s1.wbit + 8 } false) (by rw [hw1, hb1]; exact ht.w)
                (by omega) hd rfl (by
                  intro i hi
                  simp only [behind, hm, ne_eq, not_true_eq_false, if_false, hu, Bool.false_eq_true]
                  exact (byteStream_cons _ _ _).1 i hi) (by
                  intro i
                  simp only [behind, hm, hm1, ne_eq, not_true_eq_false, if_false, hu, Bool.false_eq_true]
                  exact (byteStream_cons _ _ _).2 i)
              have := ih false { s1 with w := (s1.w * 256 + d) % 2 ^ 32, wbit := s1.wbit + 8 } ⟨⟨h1.fits, h1.bytes, h1.buf, by simp only; omega, hp.2.1⟩, hp.1⟩
                (by simp only [togo] at hf ⊢; simp only [hb1] at *; simp at hf ⊢; omega) (by simp)
              have heq : full { s1 with w := (s1.w * 256 + d) % 2 ^ 32, wbit := s1.wbit + 8 } false = full s false := by
                funext i
                have h := congrFun hp.2.2 i
                simp only [full]
                rw [h, hw1, hb1]
              rw [heq] at this
              exact this
      · rw [if_pos hm]
        have hflg : flg = false := by cases flg with | false => rfl | true => exact absurd (hfl rfl).1 hm
        subst hflg
        have hp := push (s := s) (d := 255) (T := behind s false) (T' := behind { s with w := (s.w * 256 + 255) % 2 ^ 32, wbit := s.wbit + 8 } false) ht.w (by omega) (by omega) rfl
          (by intro i hi; simp only [behind, ne_eq, hm, not_false_eq_true, if_true]; exact ff_bits i hi) (by intro i; simp only [behind, ne_eq, hm, not_false_eq_true, if_true])
        have := ih false { s with w := (s.w * 256 + 255) % 2 ^ 32, wbit := s.wbit + 8 } ⟨⟨ht.ok.fits, ht.ok.bytes, ht.ok.buf, by simp only; omega, hp.2.1⟩, hp.1⟩
          (by simp only [togo] at hf ⊢; simp at hf ⊢; omega) (by simp)
        have heq : full { s with w := (s.w * 256 + 255) % 2 ^ 32, wbit := s.wbit + 8 } false = full s false := hp.2.2
        rw [heq] at this
        exact this
    · rw [if_neg hw]
      left
      have hflg : flg = false := by cases flg with | false => rfl | true => exact absurd (hfl rfl).2 hw
      subst hflg
      exact ⟨s, rfl, ht, by omega, (full_false s).symm⟩

/-- The bits that are prepared. -/
theorem fill_masked {s : In} (h : s.Ok) (need : Nat) (hn : need ≤ 16) :
    (∃ s1, fill need rounds false (masked s) = .ok s1 ∧ s1.Tidy ∧ need ≤ s1.wbit ∧ s1.stream = s.stream) ∨ (fill need rounds false (masked s) = .err .inp ∧ ∃ i, i < need ∧ s.stream i = none) := by
  obtain ⟨h1, h2⟩ := masked_tidy h
  have := fill_spec need hn rounds false (masked s) h1 (by simp [togo, rounds]; omega) (by simp)
  rw [full_false, h2] at this
  exact this

theorem num_none {S : Stream} : ∀ {n i : Nat}, i < n → S i = none → S.num n = none := by
  intro n
  induction n with
  | zero => intro i h; omega
  | succ n ih =>
    intro i h hs
    simp only [Stream.num]
    by_cases hi : i = n
    · subst hi; rw [hs]; split <;> simp_all
    · rw [ih (by omega) hs]

/-- The number in the register. -/
theorem num_reg {s : In} (ht : s.Tidy) : ∀ n, n ≤ s.wbit → s.stream.num n = some (s.w / 2 ^ (s.wbit - n)) := by
  intro n
  induction n with
  | zero => intro _; simp only [Stream.num, Nat.sub_zero]; rw [Nat.div_eq_of_lt ht.w]
  | succ n ih =>
    intro hn
    rw [Stream.num, ih (by omega)]
    have : s.stream n = some (s.w.testBit (s.wbit - 1 - n)) := by simp only [In.stream]; rw [if_pos (by omega)]
    rw [this]
    simp only [Option.some.injEq]
    have e : s.wbit - n = (s.wbit - (n + 1)) + 1 := by omega
    rw [e, Nat.pow_succ, ← Nat.div_div_eq_div_mul, show s.wbit - 1 - n = s.wbit - (n + 1) by omega, Nat.testBit_eq_decide_div_mod_eq]
    generalize s.w / 2 ^ (s.wbit - (n + 1)) = q
    by_cases hq : q % 2 = 1 <;> simp [hq] <;> omega

/-- Bits are taken from the register. -/
theorem take_reg {s : In} (ht : s.Tidy) {n : Nat} (hn : n ≤ s.wbit) : ({ s with wbit := s.wbit - n } : In).Ok ∧ ({ s with wbit := s.wbit - n } : In).stream = s.stream.drop n := by
  refine ⟨⟨ht.ok.fits, ht.ok.bytes, ht.ok.buf, by have := ht.ok.wbit; simp only; omega, ht.ok.w⟩, ?_⟩
  funext i
  simp only [In.stream, Stream.drop, In.rest]
  by_cases hi : i < s.wbit - n
  · rw [if_pos hi, if_pos (by omega)]; congr 2; omega
  · have h2 : ¬ n + i < s.wbit := by omega
    simp only [hi, h2, if_false, show n + i - s.wbit = i - (s.wbit - n) by omega]

/-- `bitext` takes bits from the stream. -/
theorem bitext_spec {s : In} (h : s.Ok) {n : Nat} (hn : n ≤ 16) :
    (∃ v s1, bitext s n = .ok (v, s1) ∧ s.stream.num n = some v ∧ s1.Ok ∧ s1.stream = s.stream.drop n) ∨ (bitext s n = .err .inp ∧ s.stream.num n = none) := by
  rcases fill_masked h n hn with ⟨s1, he, ht, hw, hs⟩ | ⟨he, i, hi, hs⟩
  · left
    obtain ⟨h1, h2⟩ := take_reg ht hw
    refine ⟨s1.w / 2 ^ (s1.wbit - n), _, ?_, ?_, h1, by rw [h2, hs]⟩
    · simp only [bitext, he, bind, R.bind]
      rw [Nat.mod_eq_of_lt (by have := ht.ok.wbit; omega)]
    · rw [← hs]; exact num_reg ht n hw
  · right
    exact ⟨by simp only [bitext, he, bind, R.bind], num_none hi hs⟩

end Verif.Jpg
