import Verif.Proc.Model

/-!
# Contexts and their memory: proofs
-/

namespace Verif.Proc

open Verif.Mem (Mem Block Inv)

variable {w size : Nat} {m : Mem}

theorem free_perm (hw : size < 2 ^ w) {L R : List Block} {p k : Nat} (h : Inv true w size m L) (hp : L.Perm ((p, k) :: R)) : Inv true w size (Mem.free m p).1 R := by
  have := (Mem.free_result hw (h.perm hp.symm) List.mem_cons_self).2.1
  rwa [List.erase_cons_head] at this

theorem gc_inv (hw : size < 2 ^ w) {X : List Block} : ∀ (dead : List Block) {m : Mem} {o : List Block}, Inv true w size m (o ++ X) →
    Inv true w size (gc m o dead).1 ((gc m o dead).2 ++ X) ∧ (gc m o dead).2.Sublist o
  | [], _, _, h => ⟨h, .refl _⟩
  | b :: dead, m, o, h => by
    simp only [gc]
    split
    · rename_i hb
      obtain ⟨h1, h2⟩ := gc_inv hw dead (o := o.erase b) (free_perm hw (k := b.2) h (by
        rw [show ((b.1, b.2) :: (o.erase b ++ X)) = (b :: o.erase b) ++ X from rfl]
        exact (List.perm_cons_erase hb).append_right X))
      exact ⟨h1, h2.trans List.erase_sublist⟩
    · exact gc_inv hw dead h

/-- A function that allocates `k` words or fails. -/
def Allocates (w size k : Nat) (f : Mem → Option (Mem × Option Nat)) : Prop :=
  ∀ m live, Inv true w size m live → ∃ m' r, f m = some (m', r) ∧
    match r with
    | some a => Inv true w size m' ((a, k) :: live)
    | none => Inv true w size m' live

theorem allocate_allocates (hw : size < 2 ^ w) (n : Nat) : Allocates w size n (fun m => Mem.allocate m n) := by
  intro m live h
  rcases Mem.allocate_inv hw h n with ⟨m', p, e, _, h1, _⟩ | ⟨m', e, h1, _⟩
  · exact ⟨m', some p, e, h1⟩
  · exact ⟨m', none, e, h1⟩

theorem Inv.w_eq {live : List Block} (h : Inv true w size m live) : m.w = w := by obtain ⟨_, hh⟩ := h; exact hh.hw

theorem malloc_allocates (hw : size < 2 ^ w) (n : Nat) : Allocates w size (Mem.bytesToWords w n) (fun m => Mem.malloc m n) := by
  intro m live h
  simp only [Mem.malloc, Inv.w_eq h]
  split
  · exact ⟨m, none, rfl, h⟩
  · exact allocate_allocates hw _ m live h

theorem allocRetry_inv (hw : size < 2 ^ w) {k : Nat} {f : Mem → Option (Mem × Option Nat)} (hf : Allocates w size k f) {o X dead : List Block} (h : Inv true w size m (o ++ X)) :
    ∃ m' o' r, allocRetry f m o dead = some (m', o', r) ∧ o'.Sublist o ∧
      match r with
      | some a => Inv true w size m' (o' ++ (a, k) :: X)
      | none => Inv true w size m' (o' ++ X) := by
  obtain ⟨m1, r, e, h1⟩ := hf m _ h
  simp only [allocRetry, e]
  cases r with
  | some a => exact ⟨m1, o, some a, rfl, .refl _, h1.perm List.perm_middle⟩
  | none =>
    obtain ⟨h2, h3⟩ := gc_inv hw dead h1
    obtain ⟨m2, r2, e2, h4⟩ := hf _ _ h2
    simp only [e2]
    refine ⟨m2, _, r2, rfl, h3, ?_⟩
    cases r2 with
    | some a => exact h4.perm List.perm_middle
    | none => exact h4

/-- All blocks that are in use. -/
def S.live (s : S) : List Block := s.others ++ s.procs.flatMap Proc.blocks

/-- `create` never has undefined behaviour; if it fails it has given back what it had allocated. -/
theorem create_inv (hw : size < 2 ^ w) {bytes : Nat} {s : S} (h : Inv true w size s.mem s.live) (c : New) (parent puid : Option Nat) :
    ∃ s' r, create bytes s c parent puid = some (s', r) ∧ s'.others.Sublist s.others ∧ s'.run = s.run ∧ s'.log = s.log ∧ Inv true w size s'.mem s'.live ∧
      match r with
      | none => s'.procs = s.procs ∧ s'.next = s.next
      | some id => ∃ p : Proc, s'.procs = p :: s.procs ∧ p.id = id ∧ p.mail = [] ∧ p.trap = c.trap ∧ p.parent = parent ∧ p.uid = s.next ∧ p.puid = puid ∧ s'.next = s.next + 1 := by
  have hmw := Inv.w_eq h
  simp only [create, hmw]
  obtain ⟨m1, o1, r1, e1, hs1, h1⟩ := allocRetry_inv hw (malloc_allocates hw bytes) (dead := c.dead1) h
  simp only [e1]
  cases r1 with
  | none => exact ⟨_, _, rfl, hs1, rfl, rfl, h1, rfl, rfl⟩
  | some id =>
    simp only at h1 ⊢
    obtain ⟨m2, o2, r2, e2, hs2, h2⟩ := allocRetry_inv hw (allocate_allocates hw c.stack) (dead := c.dead2) h1
    simp only [e2]
    cases r2 with
    | none => exact ⟨_, _, rfl, hs2.trans hs1, rfl, rfl, free_perm hw h2 List.perm_middle, rfl, rfl⟩
    | some st =>
      simp only at h2 ⊢
      obtain ⟨m3, o3, r3, e3, hs3, h3⟩ := allocRetry_inv hw (allocate_allocates hw mailboxSize) (dead := c.dead3) h2
      simp only [e3]
      cases r3 with
      | none => exact ⟨_, _, rfl, (hs3.trans hs2).trans hs1, rfl, rfl, free_perm hw (free_perm hw h3 List.perm_middle) List.perm_middle, rfl, rfl⟩
      | some mb =>
        simp only at h3 ⊢
        cases hn : c.name with
        | none =>
          refine ⟨_, _, rfl, (hs3.trans hs2).trans hs1, rfl, rfl, ?_, _, rfl, rfl, rfl, rfl, rfl, rfl, rfl, rfl⟩
          refine h3.perm ?_
          rw [List.perm_iff_count]
          intro x
          simp only [S.live, List.flatMap_cons, Proc.blocks, Option.toList, List.append_nil, List.cons_append, List.nil_append, List.count_append, List.count_cons]
          omega
        | some len =>
          simp only
          obtain ⟨m4, o4, r4, e4, hs4, h4⟩ := allocRetry_inv hw (malloc_allocates hw (len + 1)) (dead := c.dead4) h3
          simp only [e4]
          cases r4 with
          | none =>
            refine ⟨_, _, rfl, ((hs4.trans hs3).trans hs2).trans hs1, rfl, rfl, ?_, rfl, rfl⟩
            refine free_perm hw (free_perm hw (free_perm hw (k := c.stack) (R := o4 ++ (mb, mailboxSize) :: (id, Mem.bytesToWords w bytes) :: s.procs.flatMap Proc.blocks) h4 ?_) List.perm_middle) List.perm_middle
            exact (List.Perm.append_left _ (List.Perm.swap _ _ _)).trans List.perm_middle
          | some nm =>
            refine ⟨_, _, rfl, ((hs4.trans hs3).trans hs2).trans hs1, rfl, rfl, ?_, _, rfl, rfl, rfl, rfl, rfl, rfl, rfl, rfl⟩
            refine h4.perm ?_
            rw [List.perm_iff_count]
            intro x
            simp only [S.live, List.flatMap_cons, Proc.blocks, Option.toList, List.cons_append, List.nil_append, List.count_append, List.count_cons]
            omega

/-- The contexts have different ids. -/
theorem ids_nodup {s : S} (h : Inv true w size s.mem s.live) : (s.procs.map Proc.id).Nodup := by
  have hp := Mem.inv_pairwise h
  have hin := fun b hb => Mem.inv_inside h (b := b) hb
  simp only [S.live] at hp hin
  rw [List.pairwise_append] at hp
  replace hp := hp.2.1
  replace hin : ∀ b ∈ s.procs.flatMap Proc.blocks, b.1 + b.2 ≤ size ∧ 1 ≤ b.2 := fun b hb => hin b (List.mem_append_right _ hb)
  generalize s.procs = l at hp hin
  induction l with
  | nil => exact List.nodup_nil
  | cons p l ih =>
    rw [List.flatMap_cons, List.pairwise_append] at hp
    rw [List.map_cons, List.nodup_cons]
    refine ⟨fun hm => ?_, ih hp.2.1 fun b hb => hin b (by rw [List.flatMap_cons]; exact List.mem_append_right _ hb)⟩
    obtain ⟨q, hq, e⟩ := List.mem_map.1 hm
    have h1 : (p.id, p.words) ∈ p.blocks := by simp [Proc.blocks]
    have h2 : (q.id, q.words) ∈ l.flatMap Proc.blocks := List.mem_flatMap.2 ⟨q, hq, by simp [Proc.blocks]⟩
    have h3 := hp.2.2 _ h1 _ h2 p.id
    have h4 := (hin (p.id, p.words) (by rw [List.flatMap_cons]; exact List.mem_append_left _ h1)).2
    have h5 := (hin (q.id, q.words) (by rw [List.flatMap_cons]; exact List.mem_append_right _ h2)).2
    simp only [Mem.Block.covers] at h3 h4 h5
    omega

theorem running_mem {s : S} {p : Proc} (h : s.running = some p) : p ∈ s.procs ∧ s.run = some p.id := by
  simp only [S.running] at h
  split at h
  · cases h
  · rename_i c e
    have h1 := List.mem_of_find?_eq_some h
    have h2 := List.find?_some h
    simp only [decide_eq_true_eq] at h2
    exact ⟨h1, by rw [e, h2]⟩

/-- All contexts but one, by its id. -/
theorem filter_split {l : List Proc} (hn : (l.map Proc.id).Nodup) {p : Proc} (hp : p ∈ l) :
    ∃ l1 l2, l = l1 ++ p :: l2 ∧ l.filter (fun q => q.id ≠ p.id) = l1 ++ l2 := by
  obtain ⟨l1, l2, rfl⟩ := List.append_of_mem hp
  refine ⟨l1, l2, rfl, ?_⟩
  rw [List.map_append, List.map_cons, List.nodup_append] at hn
  obtain ⟨_, h2, h3⟩ := hn
  rw [List.nodup_cons] at h2
  have e1 : l1.filter (fun q => decide (q.id ≠ p.id)) = l1 := List.filter_eq_self.2 fun q hq => by
    simp only [decide_eq_true_eq]
    exact h3 _ (List.mem_map_of_mem hq) _ List.mem_cons_self
  have e2 : l2.filter (fun q => decide (q.id ≠ p.id)) = l2 := List.filter_eq_self.2 fun q hq => by
    simp only [decide_eq_true_eq]
    exact fun e => h2.1 (e ▸ List.mem_map_of_mem hq)
  simp only [List.filter_append, List.filter_cons, e1, e2]
  simp

/-- `finish` gives back all memory of the context. -/
theorem finish_inv (hw : size < 2 ^ w) {s : S} (h : Inv true w size s.mem s.live) {p : Proc} (hp : p ∈ s.procs) : Inv true w size (s.finish p).mem (s.finish p).live := by
  obtain ⟨l1, l2, e, hf⟩ := filter_split (ids_nodup h) hp
  have key : s.live.Perm (p.stack :: (p.name.toList ++ (p.mbox :: (p.id, p.words) :: (s.finish p).live))) := by
    rw [List.perm_iff_count]
    intro x
    simp only [S.live, S.finish, e] at hf ⊢
    rw [hf]
    simp only [List.flatMap_append, List.flatMap_cons, Proc.blocks, List.cons_append, List.nil_append, List.count_append, List.count_cons]
    omega
  have h1 := free_perm hw h key
  simp only [S.finish] at h1 ⊢
  cases hn : p.name with
  | none =>
    rw [hn] at h1
    exact free_perm hw (free_perm hw h1 (.refl _)) (.refl _)
  | some b =>
    rw [hn] at h1
    exact free_perm hw (free_perm hw (free_perm hw (k := b.2) h1 (.refl _)) (.refl _)) (.refl _)

/-- Delivery does not change memory. -/
theorem deliver_live {s : S} {c : Nat} {v : Msg} {u : Nat} : (s.deliver c v u).mem = s.mem ∧ (s.deliver c v u).live = s.live ∧ (s.deliver c v u).run = s.run ∧ (s.deliver c v u).next = s.next := by
  simp only [S.deliver]
  split
  · exact ⟨rfl, rfl, rfl, rfl⟩
  · refine ⟨rfl, ?_, rfl, rfl⟩
    simp only [S.live, List.flatMap_map]
    congr 2
    funext q
    split <;> rfl

end Verif.Proc
