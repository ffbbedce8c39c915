import Verif.Flash.Sim

/-!
# C47, C48: the constant heap, and moving values to it
-/

namespace Verif.Flash

/-! ## C47 -/

/-- Operations on the constant heap. -/
inductive Op where
  /-- allocate a cell -/
  | cell
  /-- allocate words -/
  | raw (n : Nat)
  /-- allocate and write words -/
  | data (ws : List W)
  /-- allocate and write bytes -/
  | bytes (bs : List (BitVec 8))
  /-- write the car or the cdr of a cell -/
  | car (c : Nat) (w : W)
  | cdr (c : Nat) (w : W)
  /-- write a word -/
  | word (i : Nat) (w : W)

/-- The heap, the regions handed out so far (first word, number of words), and the words in cells and raw regions that have not been written yet. -/
structure G where
  h : H
  regions : List (Nat × Nat)
  fresh : List Nat

/-- The number of words that bytes are stored in. -/
def wordsFor (wb n : Nat) : Nat := n / wb + if n % wb = 0 then 0 else 1

def G.step (s : G) : Op → G
  | .cell =>
    match s.h.allocCell with
    | (h, .ok, c) => ⟨h, (c, 2) :: s.regions, c :: (c + 1) :: s.fresh⟩
    | (h, _, _) => { s with h := h }
  | .raw n =>
    match s.h.allocRaw n with
    | (h, .ok, p) => ⟨h, (p, n) :: s.regions, List.range' p n ++ s.fresh⟩
    | (h, _, _) => { s with h := h }
  | .data ws =>
    match s.h.writeRaw ws with
    | (h, .ok, p) => { s with h := h, regions := (p, ws.length) :: s.regions }
    | (h, _, _) => { s with h := h }
  | .bytes bs =>
    match s.h.writePadded bs with
    | (h, .ok, p) => { s with h := h, regions := (p, wordsFor s.h.wb bs.length) :: s.regions }
    | (h, _, _) => { s with h := h }
  | .car c w => { s with h := (s.h.writeCar c w).1, fresh := s.fresh.erase c }
  | .cdr c w => { s with h := (s.h.writeCdr c w).1, fresh := s.fresh.erase (c + 1) }
  | .word i w => { s with h := (s.h.constWrite i w).1, fresh := s.fresh.erase i }

/-- The heap after some operations. -/
def G.run (s : G) (ops : List Op) : G := ops.foldl G.step s

/-- Sizes are so small that they can be added to the size of the heap in a machine word. -/
def Op.small (h : H) : Op → Prop
  | .raw n => n + h.size < h.M
  | .data ws => ws.length + h.size < h.M
  | .bytes bs => bs.length / h.wb + 1 + h.size < h.M
  | _ => True

/-- Words are only written if they are in a cell or raw region that has been handed out, and have not been written before. -/
def Op.polite (s : G) : Op → Prop
  | .car c _ => c ∈ s.fresh
  | .cdr c _ => c + 1 ∈ s.fresh
  | .word i _ => i ∈ s.fresh
  | _ => True

/-- All operations are polite. -/
def Polite : G → List Op → Prop
  | _, [] => True
  | s, op :: ops => op.polite s ∧ Polite (s.step op) ops

/-- Regions do not overlap. -/
def Apart (a b : Nat × Nat) : Prop := a.1 + a.2 ≤ b.1 ∨ b.1 + b.2 ≤ a.1

/-- The bookkeeping that no failing write changes. -/
structure Book (h0 : H) (s : G) : Prop where
  M : s.h.M = h0.M
  wb : s.h.wb = h0.wb
  size : s.h.size = h0.size
  next : s.h.next ≤ s.h.size
  inside : ∀ r, r ∈ s.regions → r.1 + r.2 ≤ s.h.next
  apart : s.regions.Pairwise Apart

theorem write_book (h : H) (i : Nat) (w : W) : (h.write i w).1.M = h.M ∧ (h.write i w).1.wb = h.wb ∧ (h.write i w).1.size = h.size ∧ (h.write i w).1.next = h.next := by
  unfold H.write
  simp only
  split
  · cases h.mem i <;> simp
  · simp

theorem writeLoop_book (h : H) (i : Nat) (ws : List W) :
    (h.writeLoop i ws).1.M = h.M ∧ (h.writeLoop i ws).1.wb = h.wb ∧ (h.writeLoop i ws).1.size = h.size ∧ (h.writeLoop i ws).1.next = h.next := by
  induction ws generalizing h i with
  | nil => simp [H.writeLoop]
  | cons w ws ih =>
    have hw := write_book h i w
    rw [H.writeLoop]
    rcases e : h.write i w with ⟨h1, b⟩
    rw [e] at hw
    simp only at hw
    cases b with
    | true => simp only [ih h1 (i + 1), hw, and_self]
    | false => simp only [hw, and_self]

theorem writeRaw_book {h : H} {ws : List W} (hw : ws.length + h.size < h.M) (hn : h.next ≤ h.size) {h' s p} (e : h.writeRaw ws = (h', s, p)) :
    h'.M = h.M ∧ h'.wb = h.wb ∧ h'.size = h.size ∧ h.next ≤ h'.next ∧ h'.next ≤ h'.size ∧ (s = .ok → p = h.next ∧ h'.next = h.next + ws.length) := by
  have hb := writeLoop_book h h.next ws
  have hm : (h.next + ws.length) % h.M = h.next + ws.length := Nat.mod_eq_of_lt (by omega)
  unfold H.writeRaw at e
  rw [hm] at e
  rcases e1 : h.writeLoop h.next ws with ⟨h1, b⟩
  rw [e1] at hb e
  simp only at hb
  obtain ⟨b1, b2, b3, b4⟩ := hb
  split at e
  · rename_i hlt
    cases b with
    | true => cases e; exact ⟨b1, b2, b3, by simp, by simp only [b3]; omega, fun _ => ⟨rfl, rfl⟩⟩
    | false => cases e; exact ⟨b1, b2, b3, by omega, by omega, by simp⟩
  · cases e; exact ⟨rfl, rfl, rfl, by omega, by omega, by simp⟩

theorem writePadded_book {h : H} {bs : List (BitVec 8)} (hw : bs.length / h.wb + h.size + 1 < h.M) (hn : h.next ≤ h.size) {h' s p} (e : h.writePadded bs = (h', s, p)) :
    h'.M = h.M ∧ h'.wb = h.wb ∧ h'.size = h.size ∧ h.next ≤ h'.next ∧ h'.next ≤ h'.size ∧ (s = .ok → p = h.next ∧ h'.next = h.next + wordsFor h.wb bs.length) := by
  have hl := fullWords_length h.wb (bs.length / h.wb) bs
  unfold H.writePadded at e
  simp only at e
  unfold wordsFor
  split at e
  · rename_i h0
    have := writeRaw_book (by omega) hn e
    simpa [h0, hl] using this
  · rename_i h0
    split at e
    · rcases e1 : h.writeRaw (fullWords h.wb (bs.length / h.wb) bs) with ⟨h1, s1, p1⟩
      have b1 := writeRaw_book (by omega) hn e1
      rw [e1] at e
      cases s1 with
      | ok =>
        rcases e2 : h1.writeRaw [lastWord h.wb bs] with ⟨h2, s2, p2⟩
        have b2 := writeRaw_book (by simp; omega) b1.2.2.2.2.1 e2
        simp only [e2] at e
        cases e
        obtain ⟨p1, n1⟩ := b1.2.2.2.2.2 rfl
        refine ⟨b2.1.trans b1.1, b2.2.1.trans b1.2.1, b2.2.2.1.trans b1.2.2.1, by omega, b2.2.2.2.2.1, fun hs => ⟨p1, ?_⟩⟩
        have := (b2.2.2.2.2.2 hs).2
        simp [h0] at this ⊢; omega
      | full => cases e; exact ⟨b1.1, b1.2.1, b1.2.2.1, b1.2.2.2.1, b1.2.2.2.2.1, by simp⟩
      | werror => cases e; exact ⟨b1.1, b1.2.1, b1.2.2.1, b1.2.2.2.1, b1.2.2.2.2.1, by simp⟩
    · rename_i h1
      have b := writeRaw_book (by simp; omega) hn e
      refine ⟨b.1, b.2.1, b.2.2.1, b.2.2.2.1, b.2.2.2.2.1, fun hs => ⟨(b.2.2.2.2.2 hs).1, ?_⟩⟩
      have := (b.2.2.2.2.2 hs).2
      simp [h0] at this ⊢; omega

theorem Book.add {h0 : H} {s : G} (b : Book h0 s) {h' : H} {p n : Nat} {fr : List Nat} (e1 : h'.M = s.h.M) (e2 : h'.wb = s.h.wb) (e3 : h'.size = s.h.size) (hp : s.h.next ≤ p) (hn : h'.next = p + n) (hs : h'.next ≤ h'.size) :
    Book h0 ⟨h', (p, n) :: s.regions, fr⟩ := by
  refine ⟨e1.trans b.M, e2.trans b.wb, e3.trans b.size, hs, ?_, List.pairwise_cons.2 ⟨?_, b.apart⟩⟩
  · intro r hr
    simp only [List.mem_cons] at hr
    rcases hr with rfl | hr
    · simp only; omega
    · have := b.inside r hr; simp only; omega
  · intro r hr
    have := b.inside r hr
    exact .inr (by simp only; omega)

theorem Book.same {h0 : H} {s : G} (b : Book h0 s) {h' : H} {fr : List Nat} (e1 : h'.M = s.h.M) (e2 : h'.wb = s.h.wb) (e3 : h'.size = s.h.size) (hp : s.h.next ≤ h'.next) (hs : h'.next ≤ h'.size) :
    Book h0 ⟨h', s.regions, fr⟩ :=
  ⟨e1.trans b.M, e2.trans b.wb, e3.trans b.size, hs, fun r hr => by have := b.inside r hr; simp only; omega, b.apart⟩

theorem Book.step {h0 : H} {s : G} (hM : h0.size + 8 ≤ h0.M) (he : h0.size % 2 = 0) (b : Book h0 s) (op : Op) (hs : op.small h0) : Book h0 (s.step op) := by
  have b1 := b.M
  have b2 := b.size
  have b3 := b.wb
  have bn := b.next
  have hwr : ∀ i w, Book h0 ⟨(s.h.write i w).1, s.regions, s.fresh.erase i⟩ := by
    intro i w
    obtain ⟨w1, w2, w3, w4⟩ := write_book s.h i w
    exact b.same w1 w2 w3 (by omega) (by omega)
  cases op with
  | cell =>
    simp only [G.step]
    have hc : s.h.allocCell = if s.h.align.next + 1 < s.h.size then ({ s.h with next := s.h.align.next + 2 }, .ok, s.h.align.next) else (s.h.align, .full, 0) := by
      have : (s.h.align.next + 1) % s.h.M = s.h.align.next + 1 := Nat.mod_eq_of_lt (by simp only [H.align]; split <;> omega)
      simp only [H.allocCell]
      rw [show s.h.align.M = s.h.M from rfl, show s.h.align.size = s.h.size from rfl, this]
      rfl
    have ha : s.h.next ≤ s.h.align.next ∧ s.h.align.next ≤ s.h.size := by simp only [H.align]; split <;> omega
    rw [hc]
    by_cases h : s.h.align.next + 1 < s.h.size
    · simp only [h, if_true]; exact b.add rfl rfl rfl ha.1 rfl (by simp only; omega)
    · simp only [h, if_false]; exact b.same rfl rfl rfl ha.1 ha.2
  | raw n =>
    simp only [Op.small] at hs
    have hm : (s.h.next + n) % s.h.M = s.h.next + n := Nat.mod_eq_of_lt (by omega)
    simp only [G.step, H.allocRaw, hm]
    by_cases h : s.h.next + n < s.h.size
    · simp only [h, if_true]; exact b.add rfl rfl rfl (Nat.le_refl _) rfl (by simp only; omega)
    · simp only [h, if_false]; exact b
  | data ws =>
    simp only [Op.small] at hs
    rcases e : s.h.writeRaw ws with ⟨h', st, p⟩
    have w := writeRaw_book (by omega) bn e
    simp only [G.step, e]
    cases st with
    | ok => have := w.2.2.2.2.2 rfl; exact b.add w.1 w.2.1 w.2.2.1 (by omega) (by omega) w.2.2.2.2.1
    | full => exact b.same w.1 w.2.1 w.2.2.1 w.2.2.2.1 w.2.2.2.2.1
    | werror => exact b.same w.1 w.2.1 w.2.2.1 w.2.2.2.1 w.2.2.2.2.1
  | bytes bs =>
    simp only [Op.small] at hs
    rcases e : s.h.writePadded bs with ⟨h', st, p⟩
    have w := writePadded_book (by rw [b3]; omega) bn e
    simp only [G.step, e]
    cases st with
    | ok => have := w.2.2.2.2.2 rfl; exact b.add w.1 w.2.1 w.2.2.1 (by omega) (by omega) w.2.2.2.2.1
    | full => exact b.same w.1 w.2.1 w.2.2.1 w.2.2.2.1 w.2.2.2.2.1
    | werror => exact b.same w.1 w.2.1 w.2.2.1 w.2.2.2.1 w.2.2.2.2.1
  | car c w =>
    have := hwr c w
    simp only [G.step, H.writeCar]
    rcases e : s.h.write c w with ⟨h', t⟩
    rw [e] at this
    cases t <;> exact this
  | cdr c w =>
    have := hwr (c + 1) w
    simp only [G.step, H.writeCdr]
    rcases e : s.h.write (c + 1) w with ⟨h', t⟩
    rw [e] at this
    cases t <;> exact this
  | word i w =>
    have := hwr i w
    simp only [G.step, H.constWrite]
    rcases e : s.h.write i w with ⟨h', t⟩
    rw [e] at this
    cases t <;> exact this

/-- For all sequences of operations on a heap, even if writes fail and words are written that should not be: the regions that have been handed out do not overlap and are inside of the heap. -/
theorem C47_regions_partial {M wb size : Nat} {bad : Nat → Bool} {h0 : H} (hi : init M wb size bad = some h0) (hM : size + 8 ≤ M) (ops : List Op) (hs : ∀ op, op ∈ ops → op.small h0) :
    let s := G.run ⟨h0, [], []⟩ ops
    s.regions.Pairwise Apart ∧ ∀ r, r ∈ s.regions → r.1 + r.2 ≤ size := by
  unfold init at hi
  split at hi
  · cases hi
  · rename_i he
    cases hi
    have : ∀ (ops : List Op) (s : G), Book ⟨M, wb, size, 0, bad, fun _ => none, []⟩ s → (∀ op, op ∈ ops → op.small ⟨M, wb, size, 0, bad, fun _ => none, []⟩) →
        Book ⟨M, wb, size, 0, bad, fun _ => none, []⟩ (s.run ops) := by
      intro ops
      induction ops with
      | nil => intro s b _; exact b
      | cons op ops ih =>
        intro s b hs
        exact ih (s.step op) (b.step hM (by simpa using he) op (hs op (by simp))) (fun o ho => hs o (by simp [ho]))
    have b := this ops ⟨⟨M, wb, size, 0, bad, fun _ => none, []⟩, [], []⟩ ⟨rfl, rfl, rfl, by simp, by simp, .nil⟩ hs
    refine ⟨b.apart, fun r hr => ?_⟩
    have h1 := b.inside r hr
    have h2 := b.next
    have h3 := b.size
    simp only at h3
    omega

/-- The words that have been handed out and not been written are erased. -/
structure Fine (h0 : H) (s : G) : Prop where
  inv : Inv s.h
  M : s.h.M = h0.M
  wb : s.h.wb = h0.wb
  size : s.h.size = h0.size
  fresh : ∀ i, i ∈ s.fresh → i < s.h.next ∧ s.h.mem i = none
  nodup : s.fresh.Nodup

theorem Fine.ext {h0 : H} {s : G} (f : Fine h0 s) {h' : H} {rs : List (Nat × Nat)} (x : Ext s.h h' (fun _ => False)) : Fine h0 ⟨h', rs, s.fresh⟩ :=
  ⟨x.inv, x.M.trans f.M, x.wb.trans f.wb, x.size.trans f.size, fun i hi => by
    obtain ⟨h1, h2⟩ := f.fresh i hi
    exact ⟨Nat.lt_of_lt_of_le h1 x.next, by rw [x.others i h1 (fun h => h)]; exact h2⟩, f.nodup⟩

theorem Fine.step {h0 : H} {s : G} (f : Fine h0 s) (op : Op) (hs : op.small h0) (hp : op.polite s) : Fine h0 (s.step op) := by
  have e1 := f.M
  have e2 := f.size
  have e3 := f.wb
  have hwr : ∀ i w, i ∈ s.fresh → ∃ h', s.h.write i w = (h', true) ∧ Fine h0 ⟨h', s.regions, s.fresh.erase i⟩ := by
    intro i w hi
    obtain ⟨h1, h2⟩ := f.fresh i hi
    obtain ⟨h', e, x, m, n⟩ := write_open f.inv w h1 h2
    refine ⟨h', e, x.inv, x.M.trans e1, x.wb.trans e3, x.size.trans e2, fun j hj => ?_, f.nodup.erase i⟩
    obtain ⟨j1, j2⟩ := (f.nodup.mem_erase_iff).1 hj
    obtain ⟨h3, h4⟩ := f.fresh j j2
    exact ⟨by simp only; omega, by simp only; rw [x.others j h3 j1]; exact h4⟩
  cases op with
  | cell =>
    rcases cell_cases f.inv with ⟨h2, c, e, x, hm, c1, c2, f0, f1, _⟩ | ⟨h2, e, x, _⟩
    · simp only [G.step, e]
      have := (f.ext x (rs := s.regions))
      have hlt : ∀ i, i ∈ s.fresh → i < c := fun i hi => by have := (f.fresh i hi).1; omega
      refine ⟨x.inv, this.M, this.wb, this.size, ?_, ?_⟩
      · intro i hi
        simp only [List.mem_cons] at hi
        rcases hi with rfl | rfl | hi
        · exact ⟨by simp only; omega, f0⟩
        · exact ⟨by simp only; omega, f1⟩
        · exact this.fresh i hi
      · refine List.nodup_cons.2 ⟨?_, List.nodup_cons.2 ⟨?_, f.nodup⟩⟩
        · simp only [List.mem_cons]
          rintro (h | h)
          · omega
          · have := hlt _ h; omega
        · intro h; have := hlt _ h; omega
    · simp only [G.step, e]; exact f.ext x
  | raw n =>
    simp only [Op.small] at hs
    rcases allocRaw_spec f.inv (n := n) (by omega) with ⟨h2, e, x, hm, nx⟩ | ⟨e, _⟩
    · simp only [G.step, e]
      have := (f.ext x (rs := s.regions))
      refine ⟨x.inv, this.M, this.wb, this.size, ?_, ?_⟩
      · intro i hi
        simp only [List.mem_append, List.mem_range'_1] at hi
        rcases hi with hi | hi
        · refine ⟨by simp only; omega, ?_⟩
          simp only [hm]; exact f.inv.free i hi.1
        · exact this.fresh i hi
      · refine List.nodup_append.2 ⟨List.nodup_range', f.nodup, ?_⟩
        intro a ha b hb
        have h1 := (f.fresh b hb).1
        simp only [List.mem_range'_1] at ha
        omega
    · simp only [G.step, e]; exact f
  | data ws =>
    simp only [Op.small] at hs
    rcases writeRaw_spec f.inv (ws := ws) (by omega) with ⟨h2, e, x, _, _⟩ | ⟨e, _⟩
    · simp only [G.step, e]; exact f.ext x
    · simp only [G.step, e]; exact f
  | bytes bs =>
    simp only [Op.small] at hs
    rcases writePadded_spec f.inv (bs := bs) (by rw [e3]; omega) with ⟨h2, p, n, all, e, x, _⟩ | ⟨h2, e, x, _⟩ | ⟨h2, p, e, x, _⟩
    · simp only [G.step, e]; exact f.ext x
    · simp only [G.step, e]; exact f.ext x
    · simp only [G.step, e]; exact f.ext x
  | car c w =>
    obtain ⟨h', e, f'⟩ := hwr c w hp
    simp only [G.step, H.writeCar, e]; exact f'
  | cdr c w =>
    obtain ⟨h', e, f'⟩ := hwr (c + 1) w hp
    simp only [G.step, H.writeCdr, e]; exact f'
  | word i w =>
    obtain ⟨h', e, f'⟩ := hwr i w hp
    simp only [G.step, H.constWrite, e]; exact f'

/-- In a flash memory that works, the write function is called at most once for each word, if words of cells and raw regions are written only once. -/
theorem C47_write_once_partial {M wb size : Nat} {h0 : H} (hi : init M wb size (fun _ => false) = some h0) (hwb : 0 < wb) (hM : size + 8 ≤ M) (ops : List Op) (hs : ∀ op, op ∈ ops → op.small h0)
    (hp : Polite ⟨h0, [], []⟩ ops) : (G.run ⟨h0, [], []⟩ ops).h.log.Nodup := by
  unfold init at hi
  split at hi
  · cases hi
  · rename_i he
    cases hi
    have : ∀ (ops : List Op) (s : G), Fine ⟨M, wb, size, 0, fun _ => false, fun _ => none, []⟩ s → (∀ op, op ∈ ops → op.small ⟨M, wb, size, 0, fun _ => false, fun _ => none, []⟩) →
        Polite s ops → Fine ⟨M, wb, size, 0, fun _ => false, fun _ => none, []⟩ (s.run ops) := by
      intro ops
      induction ops with
      | nil => intro s b _ _; exact b
      | cons op ops ih =>
        intro s b hs hp
        exact ih (s.step op) (b.step op (hs op (by simp)) hp.1) (fun o ho => hs o (by simp [ho])) hp.2
    have hne : size % 2 = 0 := by simpa using he
    exact (this ops _ ⟨⟨fun _ => rfl, hwb, hne, hM, Nat.zero_le _, fun _ _ => rfl, by simp, List.nodup_nil⟩, rfl, rfl, rfl, by simp, List.nodup_nil⟩ hs hp).inv.once

/-- A sequence of operations: a list cell, a byte array with its header, an array. -/
def demoOps : List Op := [.bytes [1, 2, 3, 4, 5], .cell, .data [.n 5, .a 0], .car 2 (.a 4), .cdr 2 (.v (.sym 0x30)), .raw 3, .word 8 (.v .nil), .word 6 (.v .nil)]

def demoHeap : H := ⟨2 ^ 32, 4, 64, 0, fun _ => false, fun _ => none, []⟩

example : let s := G.run ⟨demoHeap, [], []⟩ demoOps; s.regions = [(6, 3), (4, 2), (2, 2), (0, 2)] ∧ s.h.log = [6, 8, 3, 2, 5, 4, 1, 0] := by decide +kernel

example : (G.run ⟨demoHeap, [], []⟩ demoOps).h.log.Nodup := by
  refine C47_write_once_partial (M := 2 ^ 32) (wb := 4) (size := 64) rfl (by decide) (by decide) demoOps ?_ ?_
  · intro op h
    simp only [demoOps, List.mem_cons, List.not_mem_nil, or_false] at h
    rcases h with rfl | rfl | rfl | rfl | rfl | rfl | rfl | rfl <;> simp [Op.small]
  · exact ⟨trivial, trivial, trivial, by unfold Op.polite; decide +kernel, by unfold Op.polite; decide +kernel, trivial, by unfold Op.polite; decide +kernel, by unfold Op.polite; decide +kernel, trivial⟩

/-- If a write fails the words before it are written again by the next operation. -/
theorem C47_failed_write_violated :
    let s := G.run ⟨{ demoHeap with bad := fun i => i == 1 }, [], []⟩ [.data [.n 7, .n 8], .data [.n 9, .n 10]]
    s.h.log = [0, 1, 0] ∧ s.regions = [] := by decide +kernel

/-- A size of almost 2^32 words wraps around: the words in front are handed out again. -/
theorem C47_wrap_violated :
    let s := G.run ⟨demoHeap, [], []⟩ [.cell, .raw (2 ^ 32 - 2), .cell]
    s.regions = [(0, 2), (2, 2 ^ 32 - 2), (0, 2)] := by decide +kernel

/-! ## C48 -/

/-- Moving a value: the result denotes the same data, all of it in flash; or the flash is full, then the data would not have been certain to fit. What was written in flash stays as it is, and the
write function is called at most once for each word. -/
theorem C48_move_partial {R : Ram} {h : H} {v : V} {d : D} {lim : Nat} (iv : Inv h) (hl : lim + h.size < h.M) (hf : Fits h.wb lim d) (hr : Rep R h.mem h.wb false v d) (g : Nat → Option V) (K : List Wd) :
    ∃ n h', ((∃ r, steps R n (.next ⟨.k 29 :: K, v, h, g⟩) = .next ⟨K, r, h', g⟩ ∧ Rep R h'.mem h.wb true r d) ∨
        (steps R n (.next ⟨.k 29 :: K, v, h, g⟩) = .err 0x22 h' g ∧ h.size ≤ h.next + need h.wb d)) ∧
      (∀ i w, h.mem i = some w → h'.mem i = some w) ∧ h'.log.Nodup ∧ Inv h' := by
  obtain ⟨n, ⟨h', r, e, x, p, _⟩ | ⟨h', e, x, q⟩⟩ := (moved_all (R := R) d hf).1 iv rfl hl hr (g := g) (K := K)
  · exact ⟨n, h', .inl ⟨r, e, p⟩, x.keep, x.inv.once, x.inv⟩
  · exact ⟨n, h', .inr ⟨e, q⟩, x.keep, x.inv.once, x.inv⟩

/-- A list of symbols. -/
inductive Syms (R : Ram) (fl : Nat → Option W) : V → List Nat → Prop
  | nil : Syms R fl .nil []
  | ram {a s y ss} : R a = .pair (.imm s) y → Syms R fl y ss → Syms R fl (.cons (.ram a)) (s :: ss)
  | flash {i s y ss} : fl i = some (.v (.imm s)) → fl (i + 1) = some (.v y) → Syms R fl y ss → Syms R fl (.cons (.flash i)) (s :: ss)

theorem Syms.mono {R : Ram} {fl fl' : Nat → Option W} (hm : ∀ i w, fl i = some w → fl' i = some w) {v ss} (r : Syms R fl v ss) : Syms R fl' v ss := by
  induction r with
  | nil => exact .nil
  | ram h _ ih => exact .ram h ih
  | flash h1 h2 _ ih => exact .flash (hm _ _ h1) (hm _ _ h2) ih

theorem Rep.const_of_flash {R : Ram} {fl wb v d} (r : Rep R fl wb false v d) (h1 : ∀ a, v ≠ .cons (.ram a)) (h2 : ∀ ty a, v ≠ .ptr ty (.ram a)) : Rep R fl wb true v d := by
  cases r with
  | imm => exact .imm
  | pair => exact absurd rfl (h1 _)
  | raw => exact absurd rfl (h2 _ _)
  | ind => exact absurd rfl (h2 _ _)
  | bytes => exact absurd rfl (h2 _ _)
  | arr => exact absurd rfl (h2 _ _)
  | fpair a b c d => exact .fpair a b c d
  | fraw a b => exact .fraw a b
  | find a b c d => exact .find a b c d
  | fbytes a b c d e f => exact .fbytes a b c d e f
  | farr a b c d e f g => exact .farr a b c d e f g

/-- `(move-to-flash x1 ... xn)` (`D0` gives the data that the variables hold): afterwards each of them holds the same data in flash, other variables are unchanged and the result is `t`; or the flash is full, then
still every variable holds the same data. -/
theorem C48_variables_partial {R : Ram} {h : H} {lim : Nat} {g : Nat → Option V} {D0 : Nat → Option D} (iv : Inv h) (hl : lim + h.size < h.M)
    (hg : ∀ s d, D0 s = some d → Fits h.wb lim d ∧ ∃ v, g s = some v ∧ Rep R h.mem h.wb false v d) {args : V} {ss : List Nat} (ha : Syms R h.mem args ss) (hss : ∀ s, s ∈ ss → ∃ d, D0 s = some d)
    (r0 : V) (K : List Wd) :
    ∃ n h' g', (steps R n (.next ⟨.k 28 :: .v args :: K, r0, h, g⟩) = .next ⟨K, .sym 2, h', g'⟩ ∧ (∀ s, s ∈ ss → ∃ v d, D0 s = some d ∧ g' s = some v ∧ Rep R h'.mem h.wb true v d) ∨
        steps R n (.next ⟨.k 28 :: .v args :: K, r0, h, g⟩) = .err 0x22 h' g') ∧
      (∀ s, s ∉ ss → g' s = g s) ∧ (∀ s d, D0 s = some d → ∃ v, g' s = some v ∧ Rep R h'.mem h.wb false v d) ∧ (∀ i w, h.mem i = some w → h'.mem i = some w) ∧ h'.log.Nodup := by
  induction ss generalizing h g args r0 with
  | nil =>
    cases ha
    exact ⟨1, h, g, .inl ⟨rfl, by simp⟩, fun _ _ => rfl, fun s d hd => (hg s d hd).2, fun _ _ h => h, iv.once⟩
  | cons s ss ih =>
    obtain ⟨p, y, rfl, hp, hy⟩ : ∃ p y, args = .cons p ∧ pairOf R h p = some (.imm s, y) ∧ Syms R h.mem y ss := by
      cases ha with
      | ram h0 h1 => exact ⟨_, _, rfl, by simp only [pairOf, h0], h1⟩
      | flash h0 h1 h2 => exact ⟨_, _, rfl, by simp only [pairOf, h0, h1], h2⟩
    obtain ⟨d, hd⟩ := hss s (by simp)
    obtain ⟨fd, v, hv, rv⟩ := hg s d hd
    -- the value is in flash already
    have skip : (∀ a, v ≠ .cons (.ram a)) → (∀ ty a, v ≠ .ptr ty (.ram a)) → steps R 1 (.next ⟨.k 28 :: .v (.cons p) :: K, r0, h, g⟩) = .next ⟨.k 28 :: .v y :: K, r0, h, g⟩ := by
      intro h1 h2
      simp only [steps, step, moveToFlash, hp, hv]
    by_cases hv1 : (∃ a, v = .cons (.ram a)) ∨ (∃ ty a, v = .ptr ty (.ram a))
    · have e1 : steps R 1 (.next ⟨.k 28 :: .v (.cons p) :: K, r0, h, g⟩) = .next ⟨.k 29 :: .k 1 :: .v (.imm s) :: .k 28 :: .v y :: K, v, h, g⟩ := by
        simp only [steps, step, moveToFlash, hp, hv]
        rcases hv1 with ⟨a, rfl⟩ | ⟨ty, a, rfl⟩ <;> rfl
      obtain ⟨n, ⟨h1, r, e, x, pr, _⟩ | ⟨h1, e, x, _⟩⟩ := (moved_all (R := R) d fd).1 iv rfl hl rv (g := g) (K := .k 1 :: .v (.imm s) :: .k 28 :: .v y :: K)
      · have e2 : steps R (1 + n + 1) (.next ⟨.k 28 :: .v (.cons p) :: K, r0, h, g⟩) = .next ⟨.k 28 :: .v y :: K, r, h1, fun t => if t = s then some r else g t⟩ := by
          rw [steps_add, steps_add, e1, e]; rfl
        obtain ⟨n', h', g', i1, i2, i3, i4, i5⟩ := ih (h := h1) (g := fun t => if t = s then some r else g t) x.inv (by rw [x.size, x.M]; exact hl) (by
          intro t d' hd'
          rw [x.wb]
          obtain ⟨fd', v', hv', rv'⟩ := hg t d' hd'
          refine ⟨fd', ?_⟩
          by_cases ht : t = s
          · subst ht
            rw [hd] at hd'; cases hd'
            exact ⟨r, by simp, pr.weaken⟩
          · exact ⟨v', by simp [ht, hv'], rv'.mono x.keep⟩) (hy.mono x.keep) (fun t ht => hss t (by simp [ht])) r
        rw [x.wb] at i1 i3
        have hadd : steps R (1 + n + 1 + n') (.next ⟨.k 28 :: .v (.cons p) :: K, r0, h, g⟩) = steps R n' (.next ⟨.k 28 :: .v y :: K, r, h1, fun t => if t = s then some r else g t⟩) := by
          rw [steps_add, e2]
        refine ⟨1 + n + 1 + n', h', g', ?_, ?_, i3, fun i w hw => i4 i w (x.keep i w hw), i5⟩
        · rw [hadd]
          rcases i1 with ⟨i1, j1⟩ | i1
          · refine .inl ⟨i1, ?_⟩
            intro t ht
            by_cases hts : t ∈ ss
            · exact j1 t hts
            · have : t = s := by simpa [hts] using ht
              subst this
              have hx := i2 t hts
              simp only [if_true] at hx
              exact ⟨r, d, hd, hx, pr.mono i4⟩
          · exact .inr i1
        · intro t ht
          simp only [List.mem_cons, not_or] at ht
          rw [i2 t ht.2]
          simp [ht.1]
      · refine ⟨1 + n, h1, g, .inr ?_, fun _ _ => rfl, fun t d' hd' => ?_, x.keep, x.inv.once⟩
        · rw [steps_add, e1, e]
        · obtain ⟨_, v', hv', rv'⟩ := hg t d' hd'
          exact ⟨v', hv', rv'.mono x.keep⟩
    · have n1 : ∀ a, v ≠ .cons (.ram a) := fun a h => hv1 (.inl ⟨a, h⟩)
      have n2 : ∀ ty a, v ≠ .ptr ty (.ram a) := fun ty a h => hv1 (.inr ⟨ty, a, h⟩)
      obtain ⟨n', h', g', i1, i2, i3, i4, i5⟩ := ih iv hl hg hy (fun t ht => hss t (by simp [ht])) r0
      have hadd : steps R (1 + n') (.next ⟨.k 28 :: .v (.cons p) :: K, r0, h, g⟩) = steps R n' (.next ⟨.k 28 :: .v y :: K, r0, h, g⟩) := by
        rw [steps_add, skip n1 n2]
      refine ⟨1 + n', h', g', ?_, fun t ht => i2 t (fun h => ht (by simp [h])), i3, i4, i5⟩
      rw [hadd]
      rcases i1 with ⟨i1, j1⟩ | i1
      · refine .inl ⟨i1, ?_⟩
        intro t ht
        by_cases hts : t ∈ ss
        · exact j1 t hts
        · have : t = s := by simpa [hts] using ht
          subst this
          exact ⟨v, d, hd, (i2 t hts).trans hv, (rv.const_of_flash n1 n2).mono i4⟩
      · exact .inr i1

/-- Constant data that is not a list stays in place, and nothing is written. -/
theorem C48_in_place_partial {R : Ram} {h : H} {g : Nat → Option V} {K : List Wd} {ty i : Nat} :
    steps R 1 (.next ⟨.k 29 :: K, .ptr ty (.flash i), h, g⟩) = .next ⟨K, .ptr ty (.flash i), h, g⟩ := rfl

/-! ### Examples -/

/-- `("ab" [1 5u32] . 7)`: a string, an array with a boxed number, and 7. -/
def demoRam : Ram := fun a =>
  if a = 0 then .pair (.ptr 1 (.ram 1)) (.cons (.ram 2))
  else if a = 1 then .bytes [97, 98, 0]
  else if a = 2 then .pair (.ptr 2 (.ram 3)) (.imm 7)
  else if a = 3 then .arr [.imm 16, .ptr 3 (.ram 4)]
  else if a = 4 then .raw 0x32 5
  else if a = 5 then .arr []
  else if a = 6 then .other 0x3B
  else if a = 7 then .pair (.ptr 4 (.ram 6)) .nil
  else .pair (.imm 16) (.cons (.flash 0))

def demoData : D := .cons (.bytes 1 [97, 98, 0]) (.cons (.arr 2 [.imm 16, .raw 3 0x32 5]) (.imm 7))

theorem demo_rep : Rep demoRam demoHeap.mem 4 false (.cons (.ram 0)) demoData := by
  refine .pair rfl (.bytes rfl) (.pair rfl (.arr rfl rfl ?_) .imm)
  intro k x d h1 h2
  match k, h1, h2 with
  | 0, h1, h2 => cases h1; cases h2; exact .imm
  | 1, h1, h2 => cases h1; cases h2; exact .raw rfl

theorem demo_inv : Inv demoHeap := ⟨fun _ => rfl, by decide, by decide, by decide, by decide, fun _ _ => rfl, by simp [demoHeap], by simp [demoHeap]⟩

theorem demo_fits : Fits 4 8 demoData := by
  refine .cons (.bytes (by decide)) (.cons (.arr (by simp) (by decide) ?_) .imm)
  intro d hd
  simp only [List.mem_cons, List.not_mem_nil, or_false] at hd
  rcases hd with rfl | rfl
  · exact .imm
  · exact .raw

example : ∃ n h' r, steps demoRam n (.next ⟨[.k 29], .cons (.ram 0), demoHeap, fun _ => none⟩) = .next ⟨[], r, h', fun _ => none⟩ ∧ Rep demoRam h'.mem 4 true r demoData := by
  obtain ⟨n, h', ⟨r, e, p⟩ | ⟨_, q⟩, _⟩ := C48_move_partial (h := demoHeap) demo_inv (lim := 8) (by decide) demo_fits demo_rep (fun _ => none) []
  · exact ⟨n, h', r, e, p⟩
  · exact absurd q (by decide)

/-- The result and some words of the flash. -/
def Out.look (o : Out) (is : List Nat) : Option (V × List (Option W)) :=
  match o with
  | .next m => some (m.r, is.map m.h.mem)
  | _ => none

/-- An empty array: the code reads its first element. -/
theorem C48_empty_array_violated : step demoRam ⟨[.k 29], .ptr 2 (.ram 5), demoHeap, fun _ => none⟩ = .ub := rfl

/-- An array in defragmentable memory is not moved, and the list in flash refers to RAM (where nothing keeps the array alive). -/
theorem C48_defrag_violated : (steps demoRam 5 (.next ⟨[.k 29], .cons (.ram 7), demoHeap, fun _ => none⟩)).look [0, 1] =
    some (.cons (.flash 0), [some (.v (.ptr 4 (.ram 6))), some (.v .nil)]) := by decide +kernel

/-- A constant list inside of a list is copied: `(1 . x)` with `x = (2)` at index 0. -/
theorem C48_copied_violated :
    (steps demoRam 7 (.next ⟨[.k 29], .cons (.ram 8),
      { demoHeap with next := 2, mem := fun i => if i = 0 then some (.v (.imm 32)) else if i = 1 then some (.v .nil) else none, log := [1, 0] }, fun _ => none⟩)).look [2, 3, 4, 5] =
    some (.cons (.flash 2), [some (.v (.imm 16)), some (.v (.cons (.flash 4))), some (.v (.imm 32)), some (.v .nil)]) := by decide +kernel

end Verif.Flash
