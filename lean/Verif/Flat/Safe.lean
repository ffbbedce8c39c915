import Verif.Flat.Spec

namespace Verif.Flat

open Verif.Val (Build payload)

/-- `rest'` is what remains of `rest` after reading at least `k` bytes. -/
def Tail (k : Nat) (rest rest' : List Byte) : Prop := ∃ pre, k ≤ pre.length ∧ rest = pre ++ rest'

theorem Tail.len {k : Nat} {r r' : List Byte} (h : Tail k r r') : r'.length + k ≤ r.length := by
  obtain ⟨p, hp, rfl⟩ := h; simp; omega
theorem Tail.refl (r : List Byte) : Tail 0 r r := ⟨[], by simp, rfl⟩
theorem Tail.cons {k : Nat} {r r' : List Byte} (h : Tail k r r') (x : Byte) : Tail (k + 1) (x :: r) r' := by
  obtain ⟨p, hp, rfl⟩ := h; exact ⟨x :: p, by simp; omega, rfl⟩
theorem Tail.trans {j k : Nat} {r r' r'' : List Byte} (h : Tail j r r') (h' : Tail k r' r'') :
    Tail (j + k) r r'' := by
  obtain ⟨p, hp, rfl⟩ := h
  obtain ⟨q, hq, rfl⟩ := h'
  exact ⟨p ++ q, by simp; omega, by simp⟩
theorem Tail.mono {j k : Nat} {r r' : List Byte} (h : Tail j r r') (hk : k ≤ j) : Tail k r r' := by
  obtain ⟨p, hp, rfl⟩ := h; exact ⟨p, by omega, rfl⟩

theorem tail_byte {r r' : List Byte} {x : Byte} (h : extractByte r = some (x, r')) : Tail 1 r r' := by
  unfold extractByte at h
  split at h <;> cases h
  exact ⟨[_], by simp, rfl⟩
theorem tail_word {r r' : List Byte} {w : BitVec 32} (h : extractWord r = some (w, r')) : Tail 4 r r' := by
  unfold extractWord at h
  split at h <;> cases h
  exact ⟨[_, _, _, _], by simp, rfl⟩
theorem tail_dword {r r' : List Byte} {w : BitVec 64} (h : extractDword r = some (w, r')) : Tail 8 r r' := by
  unfold extractDword at h
  split at h <;> cases h
  exact ⟨[_, _, _, _, _, _, _, _], by simp, rfl⟩
theorem tail_cString : ∀ {r s r' : List Byte}, cString r = some (s, r') → Tail 1 r r' := by
  intro r
  induction r with
  | nil => intro s r' h; cases h
  | cons x r ih =>
    intro s r' h
    simp only [cString] at h
    split at h
    · cases h; exact ⟨[x], by simp, rfl⟩
    · split at h
      · rename_i hr
        cases h
        exact ((ih hr).cons x).mono (by omega)
      · cases h

/-- What a successful read may have consumed. -/
def Post (rest : List Byte) (budget : Nat) : Res → Prop
  | .ok _ rest' budget' => Tail 1 rest rest' ∧ budget + rest'.length ≤ budget' + rest.length
  | .fuel => False
  | _ => True

/-- The same for the elements of an array, of which there may be none. -/
def Post0 (rest : List Byte) (budget : Nat) : Res → Prop
  | .ok _ rest' budget' => Tail 0 rest rest' ∧ budget + rest'.length ≤ budget' + rest.length
  | .fuel => False
  | _ => True

theorem ite_post {P : Res → Prop} {c : Prop} [Decidable c] {x y : Res} (h1 : c → P x)
    (h2 : ¬c → P y) : P (if c then x else y) := by
  split
  · exact h1 ‹_›
  · exact h2 ‹_›

theorem post_elems {rec : Nat → List Byte → Res} {cap L : Nat}
    (hrec : ∀ budget rest, rest.length ≤ L → Post rest budget (rec budget rest)) :
    ∀ todo i acc budget rest, rest.length ≤ L →
      Post0 rest budget (unflatElems rec cap todo i acc budget rest) := by
  intro todo
  induction todo with
  | zero => intro i acc budget rest _; exact ⟨Tail.refl _, by omega⟩
  | succ todo ih =>
    intro i acc budget rest hL
    simp only [unflatElems]
    have h1 := hrec budget rest hL
    cases h : rec budget rest with
    | ok v r1 b1 =>
      rw [h] at h1
      simp only []
      split
      · have h2 := ih (i + 1) (v :: acc) b1 r1 (by have := h1.1.len; omega)
        revert h2
        cases unflatElems rec cap todo (i + 1) (v :: acc) b1 r1 with
        | ok v2 r2 b2 =>
          rintro ⟨h2, h3⟩
          exact ⟨(h1.1.trans h2).mono (by omega), by have := h1.2; omega⟩
        | fuel => exact id
        | _ => intro _; trivial
      · trivial
    | fuel => rw [h] at h1; exact h1
    | _ => trivial

/-- Reading consumes input, and the recursion bound of the model is never hit. -/
theorem unflat_post (b : Build) (syms : Syms) : ∀ fuel budget rest, rest.length < fuel →
    Post rest budget (unflat b syms fuel budget rest) := by
  intro fuel
  induction fuel with
  | zero => intro _ _ h; omega
  | succ fuel ih =>
    intro budget rest hlt
    have leaf : ∀ {k : Nat} {v : FV} {x : Byte} {r r' : List Byte} {b1 : Nat}, Tail k r r' →
        budget ≤ b1 + 1 → Post (x :: r) budget (.ok v r' b1) := by
      intro k v x r r' b1 ht hb
      exact ⟨(ht.cons x).mono (by omega), by have := ht.len; simp; omega⟩
    cases rest with
    | nil => trivial
    | cons curr r =>
      simp only [List.length_cons] at hlt
      rw [unflat.eq_def]
      dsimp only
      refine ite_post (fun _ => ?_) (fun _ => ?_)
      · -- cons
        have h1 := ih budget r (by omega)
        cases e1 : unflat b syms fuel budget r with
        | ok x r1 b1 =>
          rw [e1] at h1
          have h2 := ih b1 r1 (by have := h1.1.len; omega)
          simp only []
          cases e2 : unflat b syms fuel b1 r1 with
          | ok y r2 b2 =>
            rw [e2] at h2
            cases b2 with
            | zero => trivial
            | succ b2 =>
              refine ⟨((h1.1.trans h2.1).cons curr).mono (by omega), ?_⟩
              have := h1.2; have := h2.2; have := h1.1.len; have := h2.1.len
              simp; omega
          | fuel => rw [e2] at h2; exact h2
          | _ => trivial
        | fuel => rw [e1] at h1; exact h1
        | _ => trivial
      refine ite_post (fun _ => ?_) (fun _ => ?_)
      · -- lisp array
        cases e1 : extractWord r with
        | none => trivial
        | some p =>
          obtain ⟨n, r1⟩ := p
          have ht := tail_word e1
          cases budget with
          | zero => trivial
          | succ budget =>
            simp only []
            split
            · trivial
            · have h2 := post_elems (cap := allocatedElems b n) (L := r1.length)
                (rec := unflat b syms fuel) (fun bu re hre => ih bu re (by have := ht.len; omega))
                n.toNat 0 [] budget r1 (by omega)
              revert h2
              cases unflatElems (unflat b syms fuel) (allocatedElems b n) n.toNat 0 [] budget r1 with
              | ok v2 r2 b2 =>
                rintro ⟨h2, h3⟩
                refine ⟨((ht.trans h2).cons curr).mono (by omega), ?_⟩
                have := ht.len; simp; omega
              | fuel => exact id
              | _ => intro _; trivial
      refine ite_post (fun _ => ?_) (fun _ => ?_)
      · cases b with
        | b32 =>
          simp only []
          split
          · rename_i h; exact leaf (tail_word h) (by omega)
          · trivial
        | b64 =>
          simp only []
          split
          · rename_i h; exact leaf (tail_dword h) (by omega)
          · trivial
      refine ite_post (fun _ => ?_) (fun _ => ?_)
      · split
        · rename_i h; exact leaf (tail_byte h) (by omega)
        · trivial
      refine ite_post (fun _ => ?_) (fun _ => ?_)
      · split
        · rename_i h; exact leaf (tail_word h) (by omega)
        · trivial
      refine ite_post (fun _ => ?_) (fun _ => ?_)
      · split
        · rename_i h; exact leaf (tail_word h) (by omega)
        · trivial
      refine ite_post (fun _ => ?_) (fun _ => ?_)
      · split
        · rename_i h
          cases b with
          | b32 =>
            cases budget with
            | zero => exact leaf (tail_dword h) (by omega)
            | succ n => exact leaf (tail_dword h) (by omega)
          | b64 => exact leaf (tail_dword h) (by omega)
        · trivial
      refine ite_post (fun _ => ?_) (fun _ => ?_)
      · split
        · rename_i h
          cases b with
          | b32 =>
            cases budget with
            | zero => exact leaf (tail_dword h) (by omega)
            | succ n => exact leaf (tail_dword h) (by omega)
          | b64 => exact leaf (tail_dword h) (by omega)
        · trivial
      refine ite_post (fun _ => ?_) (fun _ => ?_)
      · split
        · rename_i h
          cases b with
          | b32 =>
            cases budget with
            | zero => trivial
            | succ n => exact leaf (tail_word h) (by omega)
          | b64 => exact leaf (tail_word h) (by omega)
        · trivial
      refine ite_post (fun _ => ?_) (fun _ => ?_)
      · split
        · rename_i h
          cases budget with
          | zero => trivial
          | succ n => exact leaf (tail_dword h) (by omega)
        · trivial
      refine ite_post (fun _ => ?_) (fun _ => ?_)
      · split
        · rename_i h
          cases b with
          | b32 =>
            cases budget with
            | zero => trivial
            | succ n => exact leaf (tail_word h) (by omega)
          | b64 => exact leaf (tail_word h) (by omega)
        · trivial
      refine ite_post (fun _ => ?_) (fun _ => ?_)
      · split
        · rename_i h
          cases b with
          | b32 =>
            cases budget with
            | zero => trivial
            | succ n => exact leaf (tail_word h) (by omega)
          | b64 => exact leaf (tail_word h) (by omega)
        · trivial
      refine ite_post (fun _ => ?_) (fun _ => ?_)
      · split
        · rename_i h
          cases budget with
          | zero => trivial
          | succ n => exact leaf (tail_dword h) (by omega)
        · trivial
      refine ite_post (fun _ => ?_) (fun _ => ?_)
      · split
        · rename_i h
          cases budget with
          | zero => trivial
          | succ n => exact leaf (tail_dword h) (by omega)
        · trivial
      refine ite_post (fun _ => ?_) (fun _ => ?_)
      · split
        · rename_i w r1 h
          cases budget with
          | zero => trivial
          | succ n =>
            simp only [alloc]
            split
            · exact leaf (k := 4) ((tail_word h).trans (k := 0)
                ⟨r1.take w.toNat, by omega, (List.take_append_drop _ _).symm⟩) (by omega)
            · trivial
        · trivial
      refine ite_post (fun _ => ?_) (fun _ => ?_)
      · split
        · trivial
        · rename_i h
          split
          · exact leaf (tail_cString h) (by omega)
          · trivial
      · trivial

/-! ## Safety of framed buffers -/

theorem cString_some {r : List Byte} (h : (0 : Byte) ∈ r) : ∃ p, cString r = some p := by
  induction r with
  | nil => cases h
  | cons x r ih =>
    simp only [cString]
    by_cases hx : x = 0
    · exact ⟨_, if_pos hx⟩
    · obtain ⟨p, hp⟩ := ih (by rcases List.mem_cons.1 h with h | h; exact absurd h.symm hx; exact h)
      exact ⟨(x :: p.1, p.2), by rw [if_neg hx, hp]⟩

theorem framed_elems {b : Build} {syms : Syms} {B fuel cap : Nat} {buf : List Byte}
    (hrec : ∀ p budget rest, buf = p ++ rest → B ≤ budget + p.length → rest.length < fuel →
      ∀ u, unflat b syms fuel budget rest ≠ .ub u) :
    ∀ todo i acc budget p rest, buf = p ++ rest → B ≤ budget + p.length → rest.length < fuel →
      todo + i ≤ cap → ∀ u, unflatElems (unflat b syms fuel) cap todo i acc budget rest ≠ .ub u := by
  intro todo
  induction todo with
  | zero => intro i acc budget p rest _ _ _ _ u h; cases h
  | succ todo ih =>
    intro i acc budget p rest hb hB hlt hcap u
    simp only [unflatElems]
    have h1 := unflat_post b syms fuel budget rest hlt
    have h2 := hrec p budget rest hb hB hlt
    cases h : unflat b syms fuel budget rest with
    | ok v r1 b1 =>
      rw [h] at h1
      simp only []
      rw [if_pos (by omega)]
      obtain ⟨⟨q, hq, rfl⟩, hbud⟩ := h1
      refine ih (i + 1) (v :: acc) b1 (p ++ q) r1 (by simp [hb]) ?_ ?_ (by omega) u
      · simp at hbud ⊢; omega
      · simp at hlt; omega
    | ub u' => exact absurd h (h2 u')
    | _ => intro h; cases h

theorem framed_safe (b : Build) (syms : Syms) (B : Nat) (buf : List Byte) (hF : Framed b B buf) :
    ∀ fuel p budget rest, buf = p ++ rest → B ≤ budget + p.length → rest.length < fuel →
      ∀ u, unflat b syms fuel budget rest ≠ .ub u := by
  intro fuel
  induction fuel with
  | zero => intro _ _ _ _ _ h; omega
  | succ fuel ih =>
    intro p budget rest hb hB hlt u
    cases rest with
    | nil => intro h; cases h
    | cons curr r =>
      have hFr := hF p curr r hb
      simp only [List.length_cons] at hlt
      rw [unflat.eq_def]
      dsimp only
      refine ite_post (P := (· ≠ .ub u)) (fun ht => ?_) (fun _ => ?_)
      · have h1 := unflat_post b syms fuel budget r (by omega)
        have n1 := ih (p ++ [curr]) budget r (by simp [hb]) (by simp; omega) (by omega)
        cases e1 : unflat b syms fuel budget r with
        | ok x r1 b1 =>
          rw [e1] at h1
          obtain ⟨⟨q, hq, rfl⟩, hbud⟩ := h1
          simp only [List.length_append] at hbud hlt
          have n2 := ih (p ++ [curr] ++ q) b1 r1 (by simp [hb]) (by simp; omega) (by omega)
          simp only []
          cases e2 : unflat b syms fuel b1 r1 with
          | ok y r2 b2 => cases b2 <;> (intro h; cases h)
          | ub u' => exact absurd e2 (n2 u')
          | _ => intro h; cases h
        | ub u' => exact absurd e1 (n1 u')
        | _ => intro h; cases h
      refine ite_post (P := (· ≠ .ub u)) (fun ht => ?_) (fun _ => ?_)
      · obtain ⟨hlen, hcnt⟩ := hFr.2.2 ht
        have hpos : 0 < budget := by rw [hb] at hlen; simp at hlen; omega
        cases e1 : extractWord r with
        | none => intro h; cases h
        | some pr =>
          obtain ⟨n, r1⟩ := pr
          obtain ⟨q, hq, hqr⟩ := tail_word e1
          obtain ⟨budget, rfl⟩ : ∃ k, budget = k + 1 := ⟨budget - 1, by omega⟩
          simp only []
          split
          · intro h; cases h
          · have hcap : n.toNat ≤ allocatedElems b n := by
              have := n.isLt
              cases b with
              | b32 =>
                have := hcnt n r1 e1 rfl
                simp only [allocatedElems]; omega
              | b64 => simp only [allocatedElems]; omega
            have hl : r.length = q.length + r1.length := by rw [hqr]; simp
            exact framed_elems ih n.toNat 0 [] budget (p ++ [curr] ++ q) r1 (by simp [hb, hqr])
              (by simp; omega) (by omega) (by omega) u
      refine ite_post (P := (· ≠ .ub u)) (fun ht => ?_) (fun _ => ?_)
      · cases b <;> simp only [] <;> split <;> (intro h; cases h)
      refine ite_post (P := (· ≠ .ub u)) (fun ht => ?_) (fun _ => ?_)
      · split <;> (intro h; cases h)
      refine ite_post (P := (· ≠ .ub u)) (fun ht => ?_) (fun _ => ?_)
      · split <;> (intro h; cases h)
      refine ite_post (P := (· ≠ .ub u)) (fun ht => ?_) (fun _ => ?_)
      · split <;> (intro h; cases h)
      refine ite_post (P := (· ≠ .ub u)) (fun ht => ?_) (fun _ => ?_)
      · split
        · cases b
          · cases budget <;> (intro h; cases h)
          · intro h; cases h
        · intro h; cases h
      refine ite_post (P := (· ≠ .ub u)) (fun ht => ?_) (fun _ => ?_)
      · split
        · cases b
          · cases budget <;> (intro h; cases h)
          · intro h; cases h
        · intro h; cases h
      refine ite_post (P := (· ≠ .ub u)) (fun ht => ?_) (fun _ => ?_)
      · split
        · cases b
          · cases budget <;> (intro h; cases h)
          · intro h; cases h
        · intro h; cases h
      refine ite_post (P := (· ≠ .ub u)) (fun ht => ?_) (fun _ => ?_)
      · split
        · cases budget <;> (intro h; cases h)
        · intro h; cases h
      refine ite_post (P := (· ≠ .ub u)) (fun ht => ?_) (fun _ => ?_)
      · split
        · cases b
          · cases budget <;> (intro h; cases h)
          · intro h; cases h
        · intro h; cases h
      refine ite_post (P := (· ≠ .ub u)) (fun ht => ?_) (fun _ => ?_)
      · split
        · cases b
          · cases budget <;> (intro h; cases h)
          · intro h; cases h
        · intro h; cases h
      refine ite_post (P := (· ≠ .ub u)) (fun ht => ?_) (fun _ => ?_)
      · split
        · cases budget <;> (intro h; cases h)
        · intro h; cases h
      refine ite_post (P := (· ≠ .ub u)) (fun ht => ?_) (fun _ => ?_)
      · split
        · cases budget <;> (intro h; cases h)
        · intro h; cases h
      refine ite_post (P := (· ≠ .ub u)) (fun ht => ?_) (fun _ => ?_)
      · split
        · rename_i w r1 hw
          cases budget with
          | zero => intro h; cases h
          | succ n =>
            simp only [alloc]
            rw [if_pos (hFr.1 ht w r1 hw)]
            intro h; cases h
        · intro h; cases h
      refine ite_post (P := (· ≠ .ub u)) (fun ht => ?_) (fun _ => ?_)
      · obtain ⟨pr, hpr⟩ := cString_some (hFr.2.1 ht)
        rw [hpr]
        simp only []
        split <;> (intro h; cases h)
      · intro h; cases h

end Verif.Flat
