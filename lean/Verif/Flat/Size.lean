import Verif.Flat.Lemmas

namespace Verif.Flat

open Verif.Val (Build payload)

/-- Induction over values. -/
theorem FV.ind {P : FV → Prop} (cons : ∀ a d, P a → P d → P (.cons a d))
    (lisp : ∀ es, (∀ e ∈ es, P e) → P (.lispArray es))
    (leaf : ∀ v, (∀ a d, v ≠ .cons a d) → (∀ es, v ≠ .lispArray es) → P v) : ∀ v, P v := by
  intro v
  refine FV.rec (motive_1 := P) (motive_2 := fun es => ∀ e ∈ es, P e)
    cons (fun es h => lisp es h) ?_ ?_ ?_ ?_ ?_ ?_ ?_ ?_ ?_ ?_ ?_ ?_ ?_ ?_ ?_ v
  case refine_14 => intro e he; cases he
  case refine_15 =>
    intro e es h1 h2 x hx
    rcases List.mem_cons.1 hx with rfl | hx
    · exact h1
    · exact h2 x hx
  all_goals (intros; apply leaf <;> simp)

/-- A writer call: the buffer keeps its size, is never overrun, is only
appended to, and on success grows by `k` bytes. -/
structure Wr (k : Nat) (v : Buf) (r : Buf × Bool) : Prop where
  size : r.1.size = v.size
  safe : v.out.length ≤ v.size → r.1.out.length ≤ v.size
  app : v.out <+: r.1.out
  len : r.2 = true → r.1.out.length = v.out.length + k

theorem wr_byte (v : Buf) (x : Byte) : Wr 1 v (writeByte v x) := by
  unfold writeByte; split <;> constructor <;> simp_all
theorem wr_bytes (v : Buf) (xs : List Byte) : Wr xs.length v (writeBytes v xs) := by
  unfold writeBytes; split <;> constructor <;> simp_all
theorem wr_word (v : Buf) (w : BitVec 32) : Wr 4 v (writeWord v w) := by
  unfold writeWord; split <;> constructor <;> simp_all [wordBytes]
theorem wr_dword (v : Buf) (w : BitVec 64) : Wr 8 v (writeDword v w) := by
  unfold writeDword; split <;> constructor <;> simp_all [dwordBytes]

theorem wr_then {j k : Nat} {v : Buf} {r : Buf × Bool} {f : Buf → Buf × Bool}
    (h : Wr j v r) (hf : ∀ v, Wr k v (f v)) : Wr (j + k) v (andThen r f) := by
  unfold andThen
  split
  · rename_i hr
    have h2 := hf r.1
    constructor
    · rw [h2.size, h.size]
    · intro hv
      have := h2.safe (by rw [h.size]; exact h.safe hv)
      rw [h.size] at this
      exact this
    · exact h.app.trans h2.app
    · intro ht
      rw [h2.len ht, h.len hr]; omega
  · rename_i hr
    exact ⟨h.size, h.safe, h.app, fun ht => absurd ht hr⟩

/-- A flattening call: as `Wr`, with a result code. -/
structure Fl (k : Int) (v : Buf) (r : Buf × Int) : Prop where
  size : r.1.size = v.size
  safe : v.out.length ≤ v.size → r.1.out.length ≤ v.size
  app : v.out <+: r.1.out
  len : r.2 = 0 → (r.1.out.length : Int) = v.out.length + k

theorem fl_code {k : Nat} {v : Buf} {r : Buf × Bool} (h : Wr k v r) : Fl k v (code r) := by
  refine ⟨h.size, h.safe, h.app, ?_⟩
  intro h0
  have : r.2 = true := by
    cases hr : r.2
    · simp [code, hr] at h0
    · rfl
  have := h.len this
  show (r.1.out.length : Int) = _
  omega

theorem fl_fail {k : Int} {v : Buf} {c : Int} (hc : c ≠ 0) : Fl k v (v, c) :=
  ⟨rfl, fun h => h, List.prefix_refl _, fun h => absurd h hc⟩

/-- What the size computation promises about the writer. -/
def Promise (b : Build) (syms : Syms) (maxDepth : Nat) (v : FV) : Prop :=
  ∀ buf : Buf, ∃ k : Int, Fl k buf (flattenC b syms buf v) ∧
    ((flattenC b syms buf v).2 = 0 → 0 < k ∧ ∀ depth,
      sizeInternal b syms maxDepth depth v = .ok k ∨
      sizeInternal b syms maxDepth depth v = .error (-5))

theorem promise_elems (b : Build) (syms : Syms) (maxDepth : Nat) : ∀ es : List FV,
    (∀ e ∈ es, Promise b syms maxDepth e) → ∀ buf : Buf, ∃ k : Int,
      Fl k buf (flattenC.flattenElems b syms buf es) ∧
      ((flattenC.flattenElems b syms buf es).2 = 0 → 0 ≤ k ∧ ∀ depth sum,
        sizeInternal.sizeElems b syms maxDepth depth es sum = .ok (sum + k) ∨
        sizeInternal.sizeElems b syms maxDepth depth es sum = .error (-5)) := by
  intro es
  induction es with
  | nil =>
    intro _ buf
    refine ⟨0, ⟨rfl, fun h => h, List.prefix_refl _, fun _ => by simp [flattenC.flattenElems]⟩,
      fun _ => ⟨by omega, fun depth sum => Or.inl ?_⟩⟩
    simp [sizeInternal.sizeElems, pure, Except.pure]
  | cons e es ih =>
    intro h buf
    obtain ⟨k1, f1, s1⟩ := h e (by simp) buf
    simp only [flattenC.flattenElems]
    split
    · rename_i h0
      obtain ⟨k2, f2, s2⟩ := ih (fun x hx => h x (by simp [hx])) (flattenC b syms buf e).1
      refine ⟨k1 + k2, ⟨by rw [f2.size, f1.size], ?_, f1.app.trans f2.app, ?_⟩, ?_⟩
      · intro hv
        have := f2.safe (by rw [f1.size]; exact f1.safe hv)
        rw [f1.size] at this
        exact this
      · intro hz
        rw [f2.len hz, f1.len h0]; omega
      · intro hz
        obtain ⟨p1, s1⟩ := s1 h0
        obtain ⟨p2, s2⟩ := s2 hz
        refine ⟨by omega, fun depth sum => ?_⟩
        simp only [sizeInternal.sizeElems, bind, Except.bind]
        rcases s1 (depth + 1) with e1 | e1 <;> rw [e1]
        · simp only []
          rcases s2 depth (sum + k1) with e2 | e2 <;> rw [e2]
          · left; congr 1; omega
          · right; rfl
        · right; rfl
    · rename_i h0
      exact ⟨k1, f1, fun hz => absurd hz h0⟩

theorem promise (b : Build) (syms : Syms) (maxDepth : Nat) : ∀ v, Promise b syms maxDepth v := by
  apply FV.ind
  · intro a d ha hd buf
    have hw : Wr 1 buf (fCons buf) := wr_byte buf _
    simp only [flattenC]
    split
    · rename_i hr
      obtain ⟨k1, f1, s1⟩ := ha (fCons buf).1
      split
      · rename_i h0
        obtain ⟨k2, f2, s2⟩ := hd (flattenC b syms (fCons buf).1 a).1
        refine ⟨1 + k1 + k2, ⟨by rw [f2.size, f1.size, hw.size], ?_, hw.app.trans (f1.app.trans f2.app), ?_⟩, ?_⟩
        · intro hv
          have := f2.safe (by rw [f1.size]; exact f1.safe (by rw [hw.size]; exact hw.safe hv))
          rw [f1.size, hw.size] at this
          exact this
        · intro hz
          rw [f2.len hz, f1.len h0, hw.len hr]; omega
        · intro hz
          obtain ⟨p1, s1⟩ := s1 h0
          obtain ⟨p2, s2⟩ := s2 hz
          refine ⟨by omega, fun depth => ?_⟩
          simp only [sizeInternal, bind, Except.bind, pure, Except.pure]
          split
          · exact Or.inr rfl
          rcases s1 (depth + 1) with e1 | e1 <;> rw [e1]
          · simp only [if_pos (show k1 > 0 from p1)]
            rcases s2 (depth + 1) with e2 | e2 <;> rw [e2]
            · left; simp only [if_pos (show k2 > 0 from p2)]
            · right; rfl
          · right; rfl
      · rename_i h0
        exact ⟨k1, ⟨by rw [f1.size, hw.size], fun hv => by
          have := f1.safe (by rw [hw.size]; exact hw.safe hv)
          rw [hw.size] at this; exact this, hw.app.trans f1.app, fun hz => absurd hz h0⟩,
          fun hz => absurd hz h0⟩
    · exact ⟨0, ⟨hw.size, hw.safe, hw.app, fun h => by simp at h⟩, fun h => by simp at h⟩
  · intro es hes buf
    have hw : Wr 5 buf (fLispArray buf (BitVec.ofNat 32 es.length)) :=
      wr_then (wr_byte buf _) (fun v => wr_word v _)
    simp only [flattenC]
    split
    · rename_i hr
      obtain ⟨k, f, s⟩ := promise_elems b syms maxDepth es hes (fLispArray buf (BitVec.ofNat 32 es.length)).1
      refine ⟨5 + k, ⟨by rw [f.size, hw.size], fun hv => by
          have := f.safe (by rw [hw.size]; exact hw.safe hv)
          rw [hw.size] at this; exact this, hw.app.trans f.app, fun hz => ?_⟩, fun hz => ?_⟩
      · rw [f.len hz, hw.len hr]; omega
      · obtain ⟨p, s⟩ := s hz
        refine ⟨by omega, fun depth => ?_⟩
        simp only [sizeInternal]
        split
        · exact Or.inr rfl
        · rcases s depth (4 + 1) with e | e <;> rw [e]
          · left; rfl
          · right; rfl
    · exact ⟨0, ⟨hw.size, hw.safe, hw.app, fun h => by simp at h⟩, fun h => by simp at h⟩
  · intro v hc hl buf
    cases v with
    | cons a d => exact absurd rfl (hc a d)
    | lispArray es => exact absurd rfl (hl es)
    | sym id =>
      simp only [flattenC]
      cases hn : syms.nameOf id with
      | none =>
        exact ⟨0, fl_fail (by simp [fSymString]), fun h => by simp [code, fSymString] at h⟩
      | some s =>
        have hw : Wr (1 + (s ++ [0]).length) buf (fSymString buf (some s)) :=
          wr_then (wr_byte buf _) (fun v => wr_bytes v _)
        refine ⟨_, fl_code hw, fun _ => ⟨by omega, fun depth => ?_⟩⟩
        simp only [sizeInternal, hn]
        split
        · exact Or.inr rfl
        · left; simp [pure, Except.pure]
    | byte c =>
      have hw : Wr 2 buf (fB buf c) := wr_then (wr_byte buf _) (fun v => wr_byte v _)
      refine ⟨2, fl_code hw, fun _ => ⟨by omega, fun depth => ?_⟩⟩
      simp only [sizeInternal]
      split
      · exact Or.inr rfl
      · exact Or.inl rfl
    | int z =>
      cases b with
      | b32 =>
        have hw : Wr 5 buf (fI .b32 buf z) := wr_then (wr_byte buf _) (fun v => wr_word v _)
        refine ⟨5, fl_code hw, fun _ => ⟨by omega, fun depth => ?_⟩⟩
        simp only [sizeInternal]; split
        · exact Or.inr rfl
        · exact Or.inl rfl
      | b64 =>
        have hw : Wr 9 buf (fI .b64 buf z) := wr_then (wr_byte buf _) (fun v => wr_dword v _)
        refine ⟨9, fl_code hw, fun _ => ⟨by omega, fun depth => ?_⟩⟩
        simp only [sizeInternal]; split
        · exact Or.inr rfl
        · exact Or.inl rfl
    | uint z =>
      cases b with
      | b32 =>
        have hw : Wr 5 buf (fU .b32 buf z) := wr_then (wr_byte buf _) (fun v => wr_word v _)
        refine ⟨5, fl_code hw, fun _ => ⟨by omega, fun depth => ?_⟩⟩
        simp only [sizeInternal]; split
        · exact Or.inr rfl
        · exact Or.inl rfl
      | b64 =>
        have hw : Wr 9 buf (fU .b64 buf z) := wr_then (wr_byte buf _) (fun v => wr_dword v _)
        refine ⟨9, fl_code hw, fun _ => ⟨by omega, fun depth => ?_⟩⟩
        simp only [sizeInternal]; split
        · exact Or.inr rfl
        · exact Or.inl rfl
    | i32 x =>
      have hw : Wr 5 buf (fI32 buf x) := wr_then (wr_byte buf _) (fun v => wr_word v _)
      refine ⟨5, fl_code hw, fun _ => ⟨by omega, fun depth => ?_⟩⟩
      simp only [sizeInternal]; split
      · exact Or.inr rfl
      · exact Or.inl rfl
    | u32 x =>
      have hw : Wr 5 buf (fU32 buf x) := wr_then (wr_byte buf _) (fun v => wr_word v _)
      refine ⟨5, fl_code hw, fun _ => ⟨by omega, fun depth => ?_⟩⟩
      simp only [sizeInternal]; split
      · exact Or.inr rfl
      · exact Or.inl rfl
    | float x =>
      have hw : Wr 5 buf (fFloat buf x) := wr_then (wr_byte buf _) (fun v => wr_word v _)
      refine ⟨5, fl_code hw, fun _ => ⟨by omega, fun depth => ?_⟩⟩
      simp only [sizeInternal]; split
      · exact Or.inr rfl
      · exact Or.inl rfl
    | i64 x =>
      have hw : Wr 9 buf (fI64 buf x) := wr_then (wr_byte buf _) (fun v => wr_dword v _)
      refine ⟨9, fl_code hw, fun _ => ⟨by omega, fun depth => ?_⟩⟩
      simp only [sizeInternal]; split
      · exact Or.inr rfl
      · exact Or.inl rfl
    | u64 x =>
      have hw : Wr 9 buf (fU64 buf x) := wr_then (wr_byte buf _) (fun v => wr_dword v _)
      refine ⟨9, fl_code hw, fun _ => ⟨by omega, fun depth => ?_⟩⟩
      simp only [sizeInternal]; split
      · exact Or.inr rfl
      · exact Or.inl rfl
    | double x =>
      have hw : Wr 9 buf (fDouble buf x) := wr_then (wr_byte buf _) (fun v => wr_dword v _)
      refine ⟨9, fl_code hw, fun _ => ⟨by omega, fun depth => ?_⟩⟩
      simp only [sizeInternal]; split
      · exact Or.inr rfl
      · exact Or.inl rfl
    | array bs =>
      have hw : Wr (1 + 4 + bs.length) buf (fLbmArray buf bs) :=
        wr_then (wr_then (wr_byte buf _) (fun v => wr_word v _)) (fun v => wr_bytes v _)
      simp only [flattenC]
      split
      · rename_i hpos
        refine ⟨_, fl_code hw, fun _ => ⟨by omega, fun depth => ?_⟩⟩
        simp only [sizeInternal, if_pos hpos]
        split
        · exact Or.inr rfl
        · left; simp [pure, Except.pure]
      · exact ⟨0, fl_fail (by decide), fun h => by simp at h⟩
    | freedArray => exact ⟨0, fl_fail (by decide), fun h => by simp [flattenC] at h⟩
    | other => exact ⟨0, fl_fail (by decide), fun h => by simp [flattenC] at h⟩

end Verif.Flat
