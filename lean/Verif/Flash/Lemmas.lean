import Verif.Flash.Spec

/-!
# Lemmas about the constant heap
-/

namespace Verif.Flash

/-- The state of the constant heap in a working flash memory. -/
structure Inv (h : H) : Prop where
  good : ∀ i, h.bad i = false
  wb : 0 < h.wb
  even : h.size % 2 = 0
  small : h.size + 8 ≤ h.M
  next : h.next ≤ h.size
  free : ∀ i, h.next ≤ i → h.mem i = none
  log : ∀ i, i ∈ h.log ↔ h.mem i ≠ none
  once : h.log.Nodup

/-- What operations do to the heap: words that are written stay, words below `next` are only written if they are in `O`. -/
structure Ext (h h' : H) (O : Nat → Prop) : Prop where
  inv : Inv h'
  M : h'.M = h.M
  wb : h'.wb = h.wb
  size : h'.size = h.size
  next : h.next ≤ h'.next
  keep : ∀ i w, h.mem i = some w → h'.mem i = some w
  others : ∀ i, i < h.next → ¬ O i → h'.mem i = h.mem i

theorem Ext.refl {h : H} {O} (i : Inv h) : Ext h h O := ⟨i, rfl, rfl, rfl, Nat.le_refl _, fun _ _ h => h, fun _ _ _ => rfl⟩

theorem Ext.trans {h h1 h2 : H} {O O1 : Nat → Prop} (e1 : Ext h h1 O) (e2 : Ext h1 h2 O1) (ho : ∀ i, i < h.next → O1 i → O i) : Ext h h2 O :=
  ⟨e2.inv, e2.M.trans e1.M, e2.wb.trans e1.wb, e2.size.trans e1.size, Nat.le_trans e1.next e2.next, fun i w hw => e2.keep i w (e1.keep i w hw),
    fun i hi hn => (e2.others i (Nat.lt_of_lt_of_le hi e1.next) (fun h => hn (ho i hi h))).trans (e1.others i hi hn)⟩

theorem Ext.weaken {h h' : H} {O O1 : Nat → Prop} (x : Ext h h' O1) (ho : ∀ i, i < h.next → O1 i → O i) : Ext h h' O :=
  ⟨x.inv, x.M, x.wb, x.size, x.next, x.keep, fun i hi hn => x.others i hi (fun hh => hn (ho i hi hh))⟩

/-- Writing an erased word. -/
theorem write_free {h : H} {i : Nat} (w : W) (hs : i < h.size) (hb : h.bad i = false) (hf : h.mem i = none) :
    h.write i w = ({ h with mem := fun j => if j = i then some w else h.mem j, log := i :: h.log }, true) := by
  simp [H.write, hs, hb, hf]

theorem write_open {h : H} (iv : Inv h) {i : Nat} (w : W) (hi : i < h.next) (hf : h.mem i = none) :
    ∃ h', h.write i w = (h', true) ∧ Ext h h' (· = i) ∧ h'.mem i = some w ∧ h'.next = h.next := by
  refine ⟨_, write_free w (Nat.lt_of_lt_of_le hi iv.next) (iv.good i) hf, ⟨⟨iv.good, iv.wb, iv.even, iv.small, iv.next, ?_, ?_, ?_⟩, rfl, rfl, rfl, Nat.le_refl _, ?_, ?_⟩, by simp, rfl⟩
  · intro j hj
    have : j ≠ i := by intro h; subst h; exact absurd hi (Nat.not_lt.2 hj)
    simp only [this, if_false]; exact iv.free j hj
  · intro j
    have := iv.log j
    by_cases h : j = i <;> simp [h, this]
  · have := iv.log i
    simp [hf] at this
    exact List.nodup_cons.2 ⟨this, iv.once⟩
  · intro j w' hw
    have : j ≠ i := by intro h; subst h; rw [hf] at hw; cases hw
    simp [this, hw]
  · intro j _ hn
    simp [show ¬ j = i from hn]

theorem writeLoop_spec {h : H} {i : Nat} {ws : List W} (hb : ∀ i, h.bad i = false) (hs : i + ws.length ≤ h.size) (hf : ∀ j, i ≤ j → h.mem j = none)
    (hl : ∀ i, i ∈ h.log ↔ h.mem i ≠ none) (ho : h.log.Nodup) :
    ∃ h', h.writeLoop i ws = (h', true) ∧ h'.M = h.M ∧ h'.wb = h.wb ∧ h'.size = h.size ∧ h'.next = h.next ∧ h'.bad = h.bad ∧
      (∀ j, j < i → h'.mem j = h.mem j) ∧ (∀ k, h'.mem (i + k) = ws[k]?) ∧ (∀ i, i ∈ h'.log ↔ h'.mem i ≠ none) ∧ h'.log.Nodup := by
  induction ws generalizing h i with
  | nil => exact ⟨h, rfl, rfl, rfl, rfl, rfl, rfl, fun _ _ => rfl, fun k => by simp [hf (i + k) (by omega)], hl, ho⟩
  | cons w ws ih =>
    simp only [List.length_cons] at hs
    have hw := write_free (h := h) (i := i) w (by omega) (hb i) (hf i (Nat.le_refl _))
    obtain ⟨h', e, e1, e2, e3, e4, e5, m1, m2, l1, l2⟩ := ih (h := { h with mem := fun j => if j = i then some w else h.mem j, log := i :: h.log }) (i := i + 1)
      hb (by simpa using by omega) (fun j hj => by simp [show j ≠ i by omega, hf j (by omega)])
      (fun j => by have := hl j; by_cases h : j = i <;> simp [h, this])
      (List.nodup_cons.2 ⟨by have := hl i; simp [hf i (Nat.le_refl _)] at this; exact this, ho⟩)
    refine ⟨h', ?_, e1, e2, e3, e4, e5, ?_, ?_, l1, l2⟩
    · simp only [H.writeLoop, hw, e]
    · intro j hj
      rw [m1 j (by omega)]
      simp [show j ≠ i by omega]
    · intro k
      cases k with
      | zero => rw [Nat.add_zero, m1 i (by omega)]; simp
      | succ k => rw [show i + (k + 1) = i + 1 + k by omega, m2 k]; simp

theorem writeRaw_spec {h : H} (iv : Inv h) {ws : List W} (hw : ws.length + h.size < h.M) :
    (∃ h', h.writeRaw ws = (h', .ok, h.next) ∧ Ext h h' (fun _ => False) ∧ (∀ (k : Nat) w, ws[k]? = some w → h'.mem (h.next + k) = some w) ∧ h'.next = h.next + ws.length) ∨
    (h.writeRaw ws = (h, .full, 0) ∧ h.size ≤ h.next + ws.length) := by
  have h1 := iv.next
  have e : (h.next + ws.length) % h.M = h.next + ws.length := Nat.mod_eq_of_lt (by omega)
  by_cases hs : h.next + ws.length < h.size
  · obtain ⟨h', e0, e1, e2, e3, e4, e5, m1, m2, l1, l2⟩ := writeLoop_spec (h := h) (i := h.next) (ws := ws) iv.good (by omega) iv.free iv.log iv.once
    refine .inl ⟨{ h' with next := h.next + ws.length }, ?_, ⟨⟨?_, ?_, ?_, ?_, ?_, ?_, l1, l2⟩, e1, e2, e3, by simp, ?_, ?_⟩, ?_, rfl⟩
    · simp only [H.writeRaw, e, hs, if_true, e0]
    · rw [e5]; exact iv.good
    · rw [e2]; exact iv.wb
    · rw [e3]; exact iv.even
    · rw [e3, e1]; exact iv.small
    · simp only [e3]; omega
    · intro i hi
      simp only at hi ⊢
      have := m2 (i - h.next)
      rw [show h.next + (i - h.next) = i by omega] at this
      rw [this]; exact List.getElem?_eq_none (by omega)
    · intro i w hw
      by_cases hi : i < h.next
      · simp only [m1 i hi, hw]
      · rw [iv.free i (by omega)] at hw; cases hw
    · intro i hi _
      exact m1 i hi
    · intro k w hk
      simp only [m2 k, hk]
  · exact .inr ⟨by simp only [H.writeRaw, e, hs, if_false], by omega⟩

theorem allocRaw_spec {h : H} (iv : Inv h) {n : Nat} (hw : n + h.size < h.M) :
    (∃ h', h.allocRaw n = (h', .ok, h.next) ∧ Ext h h' (fun _ => False) ∧ h'.mem = h.mem ∧ h'.next = h.next + n) ∨
    (h.allocRaw n = (h, .full, 0) ∧ h.size ≤ h.next + n) := by
  have h1 := iv.next
  have e : (h.next + n) % h.M = h.next + n := Nat.mod_eq_of_lt (by omega)
  by_cases hs : h.next + n < h.size
  · refine .inl ⟨{ h with next := h.next + n }, by simp only [H.allocRaw, e, hs, if_true], ⟨⟨iv.good, iv.wb, iv.even, iv.small, Nat.le_of_lt hs, ?_, iv.log, iv.once⟩, rfl, rfl, rfl, by simp, fun _ _ h => h,
      fun _ _ _ => rfl⟩, rfl, rfl⟩
    intro i hi
    simp only at hi
    exact iv.free i (by omega)
  · exact .inr ⟨by simp only [H.allocRaw, e, hs, if_false], by omega⟩

theorem allocCell_spec {h : H} (iv : Inv h) :
    (∃ h' c, h.allocCell = (h', .ok, c) ∧ Ext h h' (fun _ => False) ∧ h'.mem = h.mem ∧ h.next ≤ c ∧ c % 2 = 0 ∧ h'.next = c + 2 ∧ c ≤ h.next + 1) ∨
    (∃ h', h.allocCell = (h', .full, 0) ∧ Ext h h' (fun _ => False) ∧ h'.mem = h.mem ∧ h.size ≤ h.next + 2) := by
  have h1 := iv.next
  have h2 := iv.even
  have h3 := iv.small
  obtain ⟨c, hc⟩ : ∃ c, (if h.next % 2 = 1 then h.next + 1 else h.next) = c := ⟨_, rfl⟩
  have c1 : h.next ≤ c ∧ c ≤ h.next + 1 ∧ c % 2 = 0 ∧ c ≤ h.size := by split at hc <;> omega
  have e : (c + 1) % h.M = c + 1 := Nat.mod_eq_of_lt (by omega)
  by_cases hs : c + 1 < h.size
  · refine .inl ⟨{ h with next := c + 2 }, c, by simp only [H.allocCell, H.align, hc, e, hs, if_true], ⟨⟨iv.good, iv.wb, iv.even, iv.small, ?_, ?_, iv.log, iv.once⟩, rfl, rfl, rfl, ?_, fun _ _ h => h,
      fun _ _ _ => rfl⟩, rfl, c1.1, c1.2.2.1, rfl, c1.2.1⟩
    · simp only; omega
    · intro i hi
      simp only at hi
      exact iv.free i (by omega)
    · simp only; omega
  · refine .inr ⟨{ h with next := c }, by simp only [H.allocCell, H.align, hc, e, hs, if_false], ⟨⟨iv.good, iv.wb, iv.even, iv.small, ?_, ?_, iv.log, iv.once⟩, rfl, rfl, rfl, ?_, fun _ _ h => h,
      fun _ _ _ => rfl⟩, rfl, by omega⟩
    · simp only; omega
    · intro i hi
      simp only at hi
      exact iv.free i (by omega)
    · simp only; omega

/-! ## Byte arrays -/

theorem Bytes.mono {fl fl' : Nat → Option W} (hm : ∀ i w, fl i = some w → fl' i = some w) {i n bs} (b : Bytes fl i n bs) : Bytes fl' i n bs := by
  induction b with
  | nil => exact .nil
  | cons h _ ih => exact .cons (hm _ _ h) ih

theorem Bytes.append {fl : Nat → Option W} {i n m bs cs} (b : Bytes fl i n bs) (c : Bytes fl (i + n) m cs) : Bytes fl i (n + m) (bs ++ cs) := by
  induction b with
  | nil => simpa using c
  | @cons i n b bs h _ ih =>
    have := ih (by rw [show i + 1 + n = i + (n + 1) by omega]; exact c)
    rw [List.append_assoc, show n + 1 + m = n + m + 1 by omega]
    exact .cons h this

theorem fullWords_length (wb k : Nat) (bs : List (BitVec 8)) : (fullWords wb k bs).length = k := by
  induction k generalizing bs with
  | zero => rfl
  | succ k ih => simp [fullWords, ih]

theorem fullWords_bytes {fl : Nat → Option W} {wb k i : Nat} {bs : List (BitVec 8)} (hm : ∀ (j : Nat) w, (fullWords wb k bs)[j]? = some w → fl (i + j) = some w) :
    Bytes fl i k (bs.take (k * wb)) := by
  induction k generalizing bs i with
  | zero => simpa using Bytes.nil
  | succ k ih =>
    have h0 := hm 0 _ rfl
    have := ih (bs := bs.drop wb) (i := i + 1) (fun j w hj => by rw [show i + 1 + j = i + (j + 1) by omega]; exact hm (j + 1) w (by simpa [fullWords] using hj))
    have e : bs.take ((k + 1) * wb) = bs.take wb ++ (bs.drop wb).take (k * wb) := by
      rw [show (k + 1) * wb = wb + k * wb by rw [Nat.succ_mul]; omega, List.take_add]
    rw [e]
    exact .cons h0 this

theorem writePadded_spec {h : H} (iv : Inv h) {bs : List (BitVec 8)} (hw : bs.length / h.wb + h.size < h.M) :
    (∃ h' p n all, h.writePadded bs = (h', .ok, p) ∧ Ext h h' (fun _ => False) ∧ Bytes h'.mem p n all ∧ bs = all.take bs.length ∧ h'.next ≤ h.next + bs.length / h.wb + 1) ∨
    (∃ h', h.writePadded bs = (h', .full, 0) ∧ Ext h h' (fun _ => False) ∧ h.size ≤ h.next + bs.length / h.wb + 1) ∨
    (∃ h' p, h.writePadded bs = (h', .full, p) ∧ Ext h h' (fun _ => False) ∧ h.size ≤ h.next + bs.length / h.wb + 1) := by
  have hlen := fullWords_length h.wb (bs.length / h.wb) bs
  have hsm := iv.small
  have key : ∀ {h1 : H} {p : Nat}, Inv h1 → h1.wb = h.wb → h1.M = h.M → h1.size = h.size → ∀ n0, Bytes h1.mem p n0 (bs.take (bs.length / h.wb * h.wb)) → h1.next = p + n0 →
      (∃ h' n all, h1.writeRaw [lastWord h.wb bs] = (h', .ok, h1.next) ∧ Ext h1 h' (fun _ => False) ∧ Bytes h'.mem p n all ∧ bs = all.take bs.length ∧ h'.next = h1.next + 1) ∨
      (h1.writeRaw [lastWord h.wb bs] = (h1, .full, 0) ∧ h1.size ≤ h1.next + 1) := by
    intro h1 p iv1 e1 e2 e3 n0 hb hn
    rcases writeRaw_spec iv1 (ws := [lastWord h.wb bs]) (by simp; omega) with ⟨h', e, x, m, nx⟩ | ⟨e, f⟩
    · have hm := m 0 _ rfl
      rw [Nat.add_zero, hn] at hm
      refine .inl ⟨h', n0 + 1, _, e, x, Bytes.append (hb.mono x.keep) (.cons hm .nil) , ?_, nx⟩
      rw [List.append_nil, ← List.append_assoc, List.take_append_drop]
      simp
    · exact .inr ⟨e, by simpa using f⟩
  unfold H.writePadded
  simp only
  split
  · rename_i h0
    rcases writeRaw_spec iv (ws := fullWords h.wb (bs.length / h.wb) bs) (by omega) with ⟨h', e, x, m, nx⟩ | ⟨e, f⟩
    · refine .inl ⟨h', h.next, _, _, e, x, fullWords_bytes m, ?_, by omega⟩
      have : bs.length / h.wb * h.wb = bs.length := by have := Nat.div_add_mod bs.length h.wb; rw [Nat.mul_comm]; omega
      rw [this]; simp
    · exact .inr (.inl ⟨h, e, .refl iv, by omega⟩)
  · split
    · rcases writeRaw_spec iv (ws := fullWords h.wb (bs.length / h.wb) bs) (by omega) with ⟨h', e, x, m, nx⟩ | ⟨e, f⟩
      · simp only [e]
        rcases key x.inv x.wb x.M x.size _ (fullWords_bytes m) (by omega) with ⟨h2, n, all, e2, x2, b, hb, nx2⟩ | ⟨e2, f⟩
        · simp only [e2]
          exact .inl ⟨h2, h.next, n, all, rfl, x.trans x2 (fun _ _ h => h), b, hb, by omega⟩
        · simp only [e2]
          exact .inr (.inr ⟨h', _, rfl, x, by have := x.size; omega⟩)
      · simp only [e]
        exact .inr (.inl ⟨h, rfl, .refl iv, by omega⟩)
    · rename_i h1
      have h0 : bs.length / h.wb = 0 := by omega
      rcases key iv rfl rfl rfl (p := h.next) 0 (by rw [h0]; simpa using Bytes.nil) rfl with ⟨h2, n, all, e2, x2, b, hb, nx2⟩ | ⟨e2, f⟩
      · exact .inl ⟨h2, h.next, n, all, e2, x2, b, hb, by omega⟩
      · exact .inr (.inl ⟨h, e2, .refl iv, by omega⟩)

/-! ## Data -/

theorem Rep.mono {R : Ram} {fl fl' : Nat → Option W} {wb : Nat} (hm : ∀ i w, fl i = some w → fl' i = some w) {c v d} (r : Rep R fl wb c v d) : Rep R fl' wb c v d := by
  induction r with
  | imm => exact .imm
  | pair h _ _ i1 i2 => exact .pair h i1 i2
  | raw h => exact .raw h
  | ind h => exact .ind h
  | bytes h => exact .bytes h
  | arr h1 h2 _ ih => exact .arr h1 h2 ih
  | fpair h1 h2 _ _ i1 i2 => exact .fpair (hm _ _ h1) (hm _ _ h2) i1 i2
  | fraw h1 h2 => exact .fraw (hm _ _ h1) (hm _ _ h2)
  | find h1 h2 h3 h4 => exact .find (hm _ _ h1) (hm _ _ h2) (hm _ _ h3) (hm _ _ h4)
  | fbytes h1 h2 h3 h4 b e => exact .fbytes (hm _ _ h1) (hm _ _ h2) (hm _ _ h3) (hm _ _ h4) (b.mono hm) e
  | farr h1 h2 h3 h4 l e _ ih => exact .farr (hm _ _ h1) (hm _ _ h2) (hm _ _ h3) (hm _ _ h4) l (fun k x hk => hm _ _ (e k x hk)) ih

theorem Rep.weaken {R : Ram} {fl : Nat → Option W} {wb : Nat} {v d} (r : Rep R fl wb true v d) : Rep R fl wb false v d := by
  cases r with
  | imm => exact .imm
  | fpair h1 h2 i1 i2 => exact .fpair h1 h2 i1 i2
  | fraw h1 h2 => exact .fraw h1 h2
  | find h1 h2 h3 h4 => exact .find h1 h2 h3 h4
  | fbytes h1 h2 h3 h4 b e => exact .fbytes h1 h2 h3 h4 b e
  | farr h1 h2 h3 h4 l e ih => exact .farr h1 h2 h3 h4 l e ih

end Verif.Flash
