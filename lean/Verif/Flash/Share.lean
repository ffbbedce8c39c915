import Verif.Flash.Props

/-!
# Constant arrays made from memory that the host already has

Source: `src/lbm_c_interop.c:226-254` (`lbm_share_const_array`). The data may be anywhere, so that the pointer to it is a number; the bytes there are the host's and not part of the model.
-/

namespace Verif.Flash

/-- `share_const_array` (lbm_c_interop.c:226-240). -/
def H.fillShared (h : H) (c d n : Nat) : H × Bool :=
  match h.writeRaw [.n n, .n d] with
  | (h1, .ok, p) =>
    match h1.writeCar c (.a p) with
    | (h2, .ok) =>
      match h2.writeCdr c (.v (.sym 0x30)) with
      | (h3, .ok) => (h3, true)
      | (h3, _) => (h3, false)
    | (h2, _) => (h2, false)
  | (h1, _, _) => (h1, false)

/-- `lbm_share_const_array` (lbm_c_interop.c:242-254) with `request_flash_storage_cell` (eval_cps.c:4538-4550); `ty` is the type of byte arrays. `none`: the function returns 0. -/
def H.shareConst (h : H) (ty d n : Nat) : H × Option V :=
  match h.allocCell with
  | (h1, .ok, c) =>
    match h1.fillShared c d n with
    | (h2, true) => (h2, some (.ptr ty (.flash c)))
    | (h2, false) => (h2, none)
  | (h1, _, _) => (h1, none)

/-- A sequence of calls. -/
def H.shareAll (h : H) (ty : Nat) : List (Nat × Nat) → H × List (Option V)
  | [] => (h, [])
  | (d, n) :: rs =>
    match h.shareConst ty d n with
    | (h1, r) => ((h1.shareAll ty rs).1, r :: (h1.shareAll ty rs).2)

/-! ## Specification -/

/-- What an array access finds (`lbm_heap_array_get_size`, `lbm_heap_array_get_data_ro`, heap.c:1297-1317): pointer and size in the header of a byte array in flash. -/
def H.arrayAt (h : H) : V → Option (Nat × Nat)
  | .ptr _ (.flash c) =>
    match h.mem c, h.mem (c + 1) with
    | some (.a p), some (.v x) =>
      if x = .sym 0x30 then
        match h.mem p, h.mem (p + 1) with
        | some (.n n), some (.n d) => some (d, n)
        | _, _ => none
      else none
    | _, _ => none
  | _ => none

/-- Everything that is written in flash stays. -/
def Keeps (h h' : H) : Prop := ∀ i w, h.mem i = some w → h'.mem i = some w

/-! ## Lemmas -/

theorem Keeps.trans {h h1 h2 : H} (a : Keeps h h1) (b : Keeps h1 h2) : Keeps h h2 := fun i w e => b i w (a i w e)

theorem write_keeps (h : H) (i : Nat) (w : W) : Keeps h (h.write i w).1 := by
  intro j x e
  simp only [H.write]
  split
  · split
    · next hn =>
      by_cases hj : j = i
      · subst hj; rw [hn] at e; cases e
      · simpa [hj] using e
    · exact e
  · exact e

theorem write_true {h h' : H} {i : Nat} {w : W} (e : h.write i w = (h', true)) : h'.mem i = some w := by
  simp only [H.write] at e
  split at e
  · split at e
    · cases e; simp
    · next x hx =>
      simp only [Prod.mk.injEq, decide_eq_true_eq] at e
      obtain ⟨rfl, rfl⟩ := e
      exact hx
  · cases e

theorem writeLoop_keeps : ∀ (ws : List W) (h : H) (i : Nat), Keeps h (h.writeLoop i ws).1 := by
  intro ws
  induction ws with
  | nil => intro h i j w e; exact e
  | cons w ws ih =>
    intro h i
    simp only [H.writeLoop]
    have hk := write_keeps h i w
    split
    · next h1 e => rw [e] at hk; exact hk.trans (ih h1 (i + 1))
    · next h1 e => rw [e] at hk; exact hk

theorem writeLoop_true : ∀ (ws : List W) (h : H) (i : Nat), (h.writeLoop i ws).2 = true → ∀ (k : Nat) (w : W), ws[k]? = some w → (h.writeLoop i ws).1.mem (i + k) = some w := by
  intro ws
  induction ws with
  | nil => intro h i _ k w e; simp at e
  | cons w ws ih =>
    intro h i
    simp only [H.writeLoop]
    split
    · next h1 e =>
      intro ht k x hx
      cases k with
      | zero =>
        simp only [List.getElem?_cons_zero, Option.some.injEq] at hx
        subst hx
        exact writeLoop_keeps ws h1 (i + 1) _ _ (by simpa using write_true e)
      | succ k =>
        have := ih h1 (i + 1) ht k x (by simpa using hx)
        rwa [show i + (k + 1) = i + 1 + k by omega]
    · intro ht; cases ht

theorem writeRaw_keeps (h : H) (ws : List W) : Keeps h (h.writeRaw ws).1 := by
  have hk := writeLoop_keeps ws h h.next
  simp only [H.writeRaw]
  split
  · split
    · next h1 e => rw [e] at hk; exact hk
    · next h1 e => rw [e] at hk; exact hk
  · exact fun _ _ e => e

theorem writeRaw_true {h h' : H} {ws : List W} {p : Nat} (e : h.writeRaw ws = (h', .ok, p)) : ∀ (k : Nat) (w : W), ws[k]? = some w → h'.mem (p + k) = some w := by
  have ht := writeLoop_true ws h h.next
  simp only [H.writeRaw] at e
  split at e
  · split at e
    · next h1 el =>
      cases e
      rw [el] at ht
      exact ht rfl
    · cases e
  · cases e

theorem fill_spec (h : H) (c d n : Nat) : Keeps h (h.fillShared c d n).1 ∧ ((h.fillShared c d n).2 = true →
    ∃ p, (h.fillShared c d n).1.mem c = some (.a p) ∧ (h.fillShared c d n).1.mem (c + 1) = some (.v (.sym 0x30)) ∧ (h.fillShared c d n).1.mem p = some (.n n) ∧
      (h.fillShared c d n).1.mem (p + 1) = some (.n d)) := by
  have hk := writeRaw_keeps h [.n n, .n d]
  simp only [H.fillShared]
  split
  · next h1 p e =>
    rw [e] at hk
    have hw := writeRaw_true e
    have k1 := write_keeps h1 c (.a p)
    simp only [H.writeCar]
    cases e1 : h1.write c (.a p) with
    | mk h2 b =>
      rw [e1] at k1
      cases b with
      | false => exact ⟨hk.trans k1, by simp⟩
      | true =>
        have k2 := write_keeps h2 (c + 1) (.v (.sym 0x30))
        simp only [H.writeCdr]
        cases e2 : h2.write (c + 1) (.v (.sym 0x30)) with
        | mk h3 b =>
          rw [e2] at k2
          cases b with
          | false => exact ⟨(hk.trans k1).trans k2, by simp⟩
          | true =>
            refine ⟨(hk.trans k1).trans k2, fun _ => ⟨p, k2 _ _ (write_true e1), write_true e2, k2 _ _ (k1 _ _ ?_), k2 _ _ (k1 _ _ ?_)⟩⟩
            · simpa using hw 0 (.n n) rfl
            · exact hw 1 (.n d) rfl
  · next h1 s p hne e => rw [e] at hk; exact ⟨hk, by simp⟩

theorem allocCell_mem (h : H) : h.allocCell.1.mem = h.mem := by
  simp only [H.allocCell, H.align]
  split <;> split <;> rfl

theorem arrayAt_keeps {h h' : H} {v : V} {x : Nat × Nat} (hk : Keeps h h') (e : h.arrayAt v = some x) : h'.arrayAt v = some x := by
  unfold H.arrayAt at e ⊢
  split at e
  · next c =>
    split at e
    · next p y e1 e2 =>
      split at e
      · next hy =>
        split at e
        · next n d e3 e4 =>
          simp only [hk _ _ e1, hk _ _ e2, hy, if_true, hk _ _ e3, hk _ _ e4]
          exact e
        · cases e
      · cases e
    · cases e
  · cases e

/-! ## C128 -/

/-- C128 for one call, in every state of the constant heap, also when words of the flash memory cannot be written: everything that was written stays; if the call
succeeds, the result is an array with the pointer and the size that were given, and it stays this array in whatever is written later. -/
theorem C128_share (h : H) (ty d n : Nat) : Keeps h (h.shareConst ty d n).1 ∧
    ∀ v, (h.shareConst ty d n).2 = some v → ∀ h', Keeps (h.shareConst ty d n).1 h' → h'.arrayAt v = some (d, n) := by
  have hm := allocCell_mem h
  simp only [H.shareConst]
  split
  · next h1 c e =>
    rw [e] at hm
    have k0 : Keeps h h1 := by intro i w x; rw [show h1.mem = h.mem from hm]; exact x
    obtain ⟨k1, hf⟩ := fill_spec h1 c d n
    split
    · next h2 e2 =>
      rw [e2] at k1 hf
      refine ⟨k0.trans k1, ?_⟩
      intro v hv h' hk
      cases hv
      obtain ⟨p, a1, a2, a3, a4⟩ := hf rfl
      refine arrayAt_keeps hk ?_
      simp only at a1 a2 a3 a4
      simp [H.arrayAt, a1, a2, a3, a4]
    · next h2 e2 => rw [e2] at k1; exact ⟨k0.trans k1, by simp⟩
  · next h1 s p hne e =>
    rw [e] at hm
    exact ⟨by intro i w x; rw [show h1.mem = h.mem from hm]; exact x, by simp⟩

/-- C128 for what was in flash before: every constant value keeps its meaning. -/
theorem C128_others (h : H) (ty d n : Nat) {R : Ram} {wb : Nat} {c : Bool} {v : V} {x : D} (r : Rep R h.mem wb c v x) : Rep R (h.shareConst ty d n).1.mem wb c v x :=
  r.mono (C128_share h ty d n).1

/-- C128 for the room that is needed, with a working flash memory: the call succeeds exactly if after alignment there are more than four words left; it then uses four words behind all that are in use. When it fails nothing is written. -/
theorem C128_room {h : H} (iv : Inv h) (ty d n : Nat) {c : Nat} (hc : c = h.next + h.next % 2) :
    (c + 4 < h.size → ∃ h', h.shareConst ty d n = (h', some (.ptr ty (.flash c))) ∧ Inv h' ∧ h'.next = c + 4) ∧
    (h.size ≤ c + 4 → ∃ h', h.shareConst ty d n = (h', none) ∧ Inv h' ∧ h'.mem = h.mem) := by
  have hs := iv.small
  have hn := iv.next
  have hev := iv.even
  rcases allocCell_spec iv with ⟨h1, c1, e, x, hm, g1, g2, g3, g4⟩ | ⟨h1, e, x, hm, f⟩
  · have hcc : c1 = c := by omega
    subst hcc
    have s1 : h1.size = h.size := x.size
    have M1 : h1.M = h.M := x.M
    rcases writeRaw_spec x.inv (ws := [.n n, .n d]) (by simp; omega) with ⟨h2, e2, x2, m2, n2⟩ | ⟨e2, f2⟩
    · have n2' : h2.next = c1 + 4 := by simp at n2; omega
      have f0 : h2.mem c1 = none := by rw [x2.others _ (by omega) (fun h => h), hm]; exact iv.free _ g1
      have f1 : h2.mem (c1 + 1) = none := by rw [x2.others _ (by omega) (fun h => h), hm]; exact iv.free _ (by omega)
      obtain ⟨h3, e3, x3, _, n3⟩ := write_open x2.inv (.a h1.next) (by omega : c1 < h2.next) f0
      obtain ⟨h4, e4, x4, _, n4⟩ := write_open x3.inv (.v (.sym 0x30)) (i := c1 + 1) (by omega) (by rw [x3.others _ (by omega) (by omega)]; exact f1)
      have hsh : h.shareConst ty d n = (h4, some (.ptr ty (.flash c1))) := by
        simp only [H.shareConst, e, H.fillShared, e2, H.writeCar, H.writeCdr, e3, e4]
      refine ⟨fun _ => ⟨h4, hsh, x4.inv, by omega⟩, fun hle => ?_⟩
      exfalso
      -- the raw write succeeds only below the end
      have hlt : h1.next + 2 < h1.size := by
        have e2' := e2
        simp only [H.writeRaw, List.length_cons, List.length_nil] at e2'
        split at e2'
        · next hlt => rwa [Nat.mod_eq_of_lt (by omega)] at hlt
        · cases e2'
      omega
    · refine ⟨fun hlt => ?_, fun _ => ⟨h1, by simp only [H.shareConst, e, H.fillShared, e2], x.inv, hm⟩⟩
      simp at f2
      omega
  · refine ⟨fun hlt => ?_, fun _ => ⟨h1, by simp only [H.shareConst, e], x.inv, hm⟩⟩
    omega

/-- C128 over a sequence of calls: at the end every array that was made has the pointer and the size given for it. -/
theorem C128_all : ∀ (rs : List (Nat × Nat)) (h : H) (ty k : Nat) (v : V), (h.shareAll ty rs).2[k]? = some (some v) → (h.shareAll ty rs).1.arrayAt v = rs[k]? := by
  have keep : ∀ (rs : List (Nat × Nat)) (h : H) (ty : Nat), Keeps h (h.shareAll ty rs).1 := by
    intro rs
    induction rs with
    | nil => intro h ty i w e; exact e
    | cons r rs ih =>
      intro h ty
      obtain ⟨d, n⟩ := r
      exact (C128_share h ty d n).1.trans (ih _ ty)
  intro rs
  induction rs with
  | nil => intro h ty k v e; simp [H.shareAll] at e
  | cons r rs ih =>
    intro h ty k v e
    obtain ⟨d, n⟩ := r
    simp only [H.shareAll] at e ⊢
    cases k with
    | zero =>
      simp only [List.getElem?_cons_zero, Option.some.injEq] at e
      simpa using (C128_share h ty d n).2 v e _ (keep rs _ ty)
    | succ k =>
      simp only [List.getElem?_cons_succ] at e ⊢
      exact ih _ ty k v e

/-- Two arrays: "abc" at address 1000 and 16 bytes at address 2000. -/
example : (demoHeap.shareAll 1 [(1000, 4), (2000, 16)]).2 = [some (.ptr 1 (.flash 0)), some (.ptr 1 (.flash 4))] ∧
    (demoHeap.shareAll 1 [(1000, 4), (2000, 16)]).1.arrayAt (.ptr 1 (.flash 0)) = some (1000, 4) := by
  have e : (demoHeap.shareAll 1 [(1000, 4), (2000, 16)]).2 = [some (.ptr 1 (.flash 0)), some (.ptr 1 (.flash 4))] := by decide +kernel
  exact ⟨e, C128_all [(1000, 4), (2000, 16)] demoHeap 1 0 _ (by rw [e]; rfl)⟩

example : ∃ h', demoHeap.shareConst 1 1000 4 = (h', some (.ptr 1 (.flash 0))) ∧ Inv h' ∧ h'.next = 4 :=
  (C128_room demo_inv 1 1000 4 (c := 0) rfl).1 (by decide)

end Verif.Flash
