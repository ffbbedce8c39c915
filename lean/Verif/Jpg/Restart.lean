import Verif.Jpg.Props

/-!
# Restart markers (C134)
-/

namespace Verif.Jpg

theorem marker_iff (hi lo n : Nat) (hh : hi < 256) (hl : lo < 256) :
    ((hi * 256 + lo) / 256 ≠ 255 ∨ (hi * 256 + lo) % 256 / 64 ≠ 3 ∨ (hi * 256 + lo) % 32 / 16 ≠ 1 ∨ (hi * 256 + lo) % 16 / 8 ≠ 0 ∨ (hi * 256 + lo) % 8 ≠ n % 8) ↔
    ¬ (hi = 0xFF ∧ (lo = 0xD0 + n % 8 ∨ lo = 0xF0 + n % 8)) := by omega

/-- C134: where a restart is due and the decoder met a marker, it goes on exactly if the marker is the one with the number that is due (or that byte with bit 5 set); the marker is then gone, and the bits in front of it, too. -/
theorem C134_restart {s : In} {n : Nat} (hm : s.marker ≠ 0) (hb : s.marker < 256) :
    restart s n = if s.marker = 0xD0 + n % 8 ∨ s.marker = 0xF0 + n % 8 then .ok { s with marker := 0, wbit := 0 } else .err .fmt1 := by
  have := marker_iff 255 s.marker n (by decide) hb
  simp only [restart, if_pos hm]
  show (if _ then _ else _) = _
  by_cases h : s.marker = 0xD0 + n % 8 ∨ s.marker = 0xF0 + n % 8
  · rw [if_pos h, if_neg (by rw [show (0xFF00 : Nat) = 255 * 256 from rfl, this]; simp [h])]
  · rw [if_neg h, if_pos (by rw [show (0xFF00 : Nat) = 255 * 256 from rfl, this]; simp [h])]

/-- C134: where no marker was met yet, the next two bytes have to be the marker. -/
theorem C134_restart_bytes {s : In} {n : Nat} (hm : s.marker = 0) (h2 : 2 ≤ s.dctr) (hp : s.dptr + 1 < szbuf) (ha : s.buf s.dptr < 256) (hb : s.buf (s.dptr + 1) < 256) :
    restart s n = if s.buf s.dptr = 0xFF ∧ (s.buf (s.dptr + 1) = 0xD0 + n % 8 ∨ s.buf (s.dptr + 1) = 0xF0 + n % 8) then .ok { s with dptr := s.dptr + 2, dctr := s.dctr - 2, wbit := 0 } else .err .fmt1 := by
  have := marker_iff _ _ n ha hb
  have e1 : nextByte s = .ok (s.buf s.dptr, { s with dptr := s.dptr + 1, dctr := s.dctr - 1 }) := by
    unfold nextByte
    rw [if_neg (by omega)]
    show (if _ then _ else _) = _
    rw [if_pos (by omega)]
  have e2 : nextByte { s with dptr := s.dptr + 1, dctr := s.dctr - 1 } = .ok (s.buf (s.dptr + 1), { s with dptr := s.dptr + 2, dctr := s.dctr - 2 }) := by
    unfold nextByte
    rw [if_neg (by simp only; omega)]
    show (if _ then _ else _) = _
    rw [if_pos (by simp only; omega)]
    rfl
  have e3 : twoBytes s = .ok (s.buf s.dptr * 256 + s.buf (s.dptr + 1), { s with dptr := s.dptr + 2, dctr := s.dctr - 2 }) := by
    unfold twoBytes
    rw [e1]
    show (do let (b, s2) ← nextByte { s with dptr := s.dptr + 1, dctr := s.dctr - 1 }; R.ok ((s.buf s.dptr * 256 + b) % 2 ^ 16, s2)) = _
    rw [e2]
    show R.ok ((s.buf s.dptr * 256 + s.buf (s.dptr + 1)) % 2 ^ 16, _) = _
    rw [Nat.mod_eq_of_lt (by omega)]
  simp only [restart, hm, ne_eq, not_true_eq_false, if_false, e3]
  simp only [bind, R.bind]
  by_cases h : s.buf s.dptr = 0xFF ∧ (s.buf (s.dptr + 1) = 0xD0 + n % 8 ∨ s.buf (s.dptr + 1) = 0xF0 + n % 8)
  · rw [if_pos h, if_neg (fun hc => this.1 hc h)]
  · rw [if_neg h, if_pos (this.2 h)]

/-- The bytes F0 to F7 are markers that the standard reserves for extensions; they are taken for restart markers. -/
theorem C134_restart_violated (buf : Nat → Nat) : restart ⟨buf, 0, 0, [], 0xF3, 0, 0⟩ 3 = .ok ⟨buf, 0, 0, [], 0, 0, 0⟩ :=
  C134_restart (s := ⟨buf, 0, 0, [], 0xF3, 0, 0⟩) (n := 3) (by simp) (by simp)

example (buf : Nat → Nat) : restart ⟨buf, 7, 9, [], 0xD2, 0, 5⟩ 10 = .ok ⟨buf, 7, 9, [], 0, 0, 0⟩ :=
  C134_restart (s := ⟨buf, 7, 9, [], 0xD2, 0, 5⟩) (n := 10) (by simp) (by simp)
example : (restart ⟨fun i => if i = 4 then 0xFF else 0xD1, 4, 9, [], 0, 0, 5⟩ 9) = .ok ⟨fun i => if i = 4 then 0xFF else 0xD1, 6, 7, [], 0, 0, 0⟩ :=
  C134_restart_bytes (s := ⟨fun i => if i = 4 then 0xFF else 0xD1, 4, 9, [], 0, 0, 5⟩) (n := 9) rfl (by decide) (by decide) (by decide) (by decide)

/-! ## Where restarts are due -/

/-- `k` units of a scan were decoded. -/
inductive Units (F : Arith) (jd : JD) : Nat → Scan → Prop
  | start (i : In) : Units F jd 0 ⟨i, fun _ => 0, 0, 0⟩
  | step {k s s' x y r} : Units F jd k s → unit F jd s x y = .ok (r, s') → Units F jd (k + 1) s'

theorem next_div_mod (m : Nat) {n : Nat} (hn : 0 < n) : (m % n + 1 = n ∧ (m + 1) % n = 0 ∧ (m + 1) / n = m / n + 1) ∨ (m % n + 1 < n ∧ (m + 1) % n = m % n + 1 ∧ (m + 1) / n = m / n) := by
  have hd := Nat.div_add_mod m n
  have hl := Nat.mod_lt m hn
  by_cases h : m % n + 1 = n
  · refine Or.inl ⟨h, ?_⟩
    have e : m + 1 = n * (m / n + 1) := by rw [Nat.mul_add, Nat.mul_one]; omega
    rw [e]
    exact ⟨Nat.mul_mod_right _ _, Nat.mul_div_cancel_left _ hn⟩
  · refine Or.inr ⟨by omega, ?_⟩
    have e : m + 1 = n * (m / n) + (m % n + 1) := by omega
    rw [e]
    exact ⟨by rw [Nat.mul_add_mod, Nat.mod_eq_of_lt (by omega)], by rw [Nat.mul_add_div hn, Nat.div_eq_of_lt (show m % n + 1 < n by omega), Nat.add_zero]⟩

theorem restart_mod (s : In) (a : Nat) : restart s (a % 2 ^ 16) = restart s a := by
  simp only [restart, Nat.mod_mod_of_dvd a (show 8 ∣ 2 ^ 16 by decide)]

theorem unit_counts {F : Arith} {jd : JD} {s s' : Scan} {x y : Nat} {r : Rect} (h : unit F jd s x y = .ok (r, s')) : ∃ s1, interval jd s = .ok s1 ∧ s'.rst = s1.rst ∧ s'.rsc = s1.rsc := by
  unfold unit at h
  cases e : interval jd s with
  | err e' => rw [e] at h; cases h
  | ub => rw [e] at h; cases h
  | ok s1 =>
    rw [e] at h
    simp only [bind, R.bind] at h
    cases e2 : mcuLoad F jd (jd.msx * jd.msy + 2) 0 s1.inp s1.dcv [] with
    | err _ => rw [e2] at h; cases h
    | ub => rw [e2] at h; cases h
    | ok p =>
      rw [e2] at h
      simp only at h
      cases e3 : mcuOutput jd p.2.2 x y with
      | err _ => rw [e3] at h; cases h
      | ub => rw [e3] at h; cases h
      | ok q => rw [e3] at h; cases h; exact ⟨s1, rfl, rfl, rfl⟩

theorem interval_counts {jd : JD} {s s1 : Scan} (hn : jd.nrst ≠ 0) (h : interval jd s = .ok s1) :
    if s.rst = jd.nrst then s1.rst = 1 ∧ s1.rsc = (s.rsc + 1) % 2 ^ 16 else s1.rst = (s.rst + 1) % 2 ^ 16 ∧ s1.rsc = s.rsc := by
  unfold interval at h
  rw [if_neg hn] at h
  by_cases hr : s.rst = jd.nrst
  · rw [if_pos hr] at h ⊢
    cases e : restart s.inp s.rsc with
    | err _ => rw [e] at h; cases h
    | ub => rw [e] at h; cases h
    | ok i => rw [e] at h; cases h; exact ⟨rfl, rfl⟩
  · rw [if_neg hr] at h ⊢
    cases h; exact ⟨rfl, rfl⟩

theorem units_counts {F : Arith} {jd : JD} (hn : 0 < jd.nrst) (hn2 : jd.nrst < 65536) {k : Nat} {s : Scan} (h : Units F jd k s) :
    (k = 0 ∧ s.rst = 0 ∧ s.rsc = 0) ∨ (∃ m, k = m + 1 ∧ s.rst = m % jd.nrst + 1 ∧ s.rsc = m / jd.nrst % 2 ^ 16) := by
  induction h with
  | start i => exact Or.inl ⟨rfl, rfl, rfl⟩
  | @step k s s' x y r hs hu ih =>
    obtain ⟨s1, e, er, ec⟩ := unit_counts hu
    have hc := interval_counts (by omega) e
    refine Or.inr ⟨k, rfl, ?_⟩
    rw [er, ec]
    rcases ih with ⟨rfl, h1, h2⟩ | ⟨m, rfl, h1, h2⟩
    · rw [h1, if_neg (by omega), h2] at hc
      rw [hc.1, hc.2, Nat.zero_mod, Nat.zero_div]
      exact ⟨rfl, rfl⟩
    · rcases next_div_mod m hn with ⟨g1, g2, g3⟩ | ⟨g1, g2, g3⟩
      · rw [h1, if_pos g1, h2] at hc
        rw [hc.1, hc.2, g2, g3]
        exact ⟨rfl, by omega⟩
      · rw [h1, if_neg (by omega), h2] at hc
        rw [hc.1, hc.2, g2, g3]
        exact ⟨by omega, rfl⟩

/-- C134: with a restart interval of `n` units a restart is due before each unit whose number is a multiple of `n`, but for the first one; the marker that is due then has the number of the multiple, less one. The predictions start again from zero there. Before other units nothing is taken from
the data and the predictions are kept. -/
theorem C134_interval {F : Arith} {jd : JD} (hn : 0 < jd.nrst) (hn2 : jd.nrst < 65536) {k : Nat} {s : Scan} (h : Units F jd k s) :
    (k = 0 ∨ k % jd.nrst ≠ 0 → ∃ s', interval jd s = .ok s' ∧ s'.inp = s.inp ∧ s'.dcv = s.dcv) ∧
    (0 < k → k % jd.nrst = 0 → (∀ i, restart s.inp (k / jd.nrst - 1) = .ok i → ∃ s', interval jd s = .ok s' ∧ s'.inp = i ∧ s'.dcv = fun _ => 0) ∧
      ∀ e, restart s.inp (k / jd.nrst - 1) = .err e → interval jd s = .err e) := by
  unfold interval
  rw [if_neg (by omega)]
  rcases units_counts hn hn2 h with ⟨rfl, h1, h2⟩ | ⟨m, rfl, h1, h2⟩
  · exact ⟨fun _ => ⟨_, if_neg (by omega), rfl, rfl⟩, fun h0 => absurd h0 (Nat.lt_irrefl 0)⟩
  · rcases next_div_mod m hn with ⟨g1, g2, g3⟩ | ⟨g1, g2, g3⟩
    · refine ⟨fun hc => hc.elim (fun h => by omega) (fun h => absurd g2 h), fun _ _ => ?_⟩
      rw [g3, Nat.add_sub_cancel, if_pos (by omega), h2, restart_mod]
      exact ⟨fun i hi => ⟨_, by rw [hi]; rfl, rfl, rfl⟩, fun e he => by rw [he]; rfl⟩
    · refine ⟨fun _ => ⟨_, if_neg (by omega), rfl, rfl⟩, fun _ hc => by omega⟩

namespace Example

/-- The decoder for the picture of C108, with a restart interval of one unit. -/
def restarting : JD := { (prepare 4106 (picture.file (fun _ => 0) tables [] code [1, 2, 3])).1 with nrst := 1 }

def firstUnit : R (Rect × Scan) := unit (flat true) restarting ⟨restarting.inp, fun _ => 0, 0, 0⟩ 0 0

/-- After the first unit a restart is due, with number 0. -/
example : ∃ s, Units (flat true) restarting 1 s ∧ (∀ e, restart s.inp 0 = .err e → interval restarting s = .err e) := by
  have h : (match firstUnit with | .ok _ => true | _ => false) = true := by decide +kernel
  cases e : firstUnit with
  | err _ => rw [e] at h; cases h
  | ub => rw [e] at h; cases h
  | ok p =>
    have hu : Units (flat true) restarting 1 p.2 := .step (.start _) (x := 0) (y := 0) (r := p.1) e
    exact ⟨p.2, hu, ((C134_interval (by decide) (by decide) hu).2 (by decide) (by decide)).2⟩

end Example

end Verif.Jpg
