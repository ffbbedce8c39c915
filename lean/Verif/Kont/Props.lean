import Verif.Kont.Model
import Verif.Mem.Props

/-! C121: capturing and applying continuations in the memory. -/

namespace Verif.Kont
open Verif.Mem

/-! ## Specification -/

/-- The words in use of stack or array `i`, from the bottom. -/
def contents (s : Sys) (i : Nat) : Option (List Nat) := (get s i).map fun o => (List.range o.used).map fun k => s.word (o.base + k)

/-- The blocks of all stacks and arrays. -/
def owned (s : Sys) : List Block := s.objs.filterMap fun o => o.map fun o => (o.base, o.size)

/-- The stack of process `i` has room for all words of the continuation `c`. -/
def Fits (s : Sys) (i c : Nat) : Prop := ∀ o k, get s i = some o → get s c = some k → k.size ≤ o.size

/-- What can happen. `who` is the stack or array that the step is about, if there is one. In between, other parts of the system use the memory as they like,
but neither free these blocks nor write to them. The continuation that is applied fits. -/
inductive Step (w size : Nat) : Option Nat → Sys → Sys → Prop
  | other {s : Sys} {m : Mem} {f : Nat → Nat} {live rest : List Block} : Reach true w size m live → live.Perm (owned s ++ rest) →
      (∀ b ∈ owned s, ∀ i, b.covers i → f i = s.word i) → Step w size none s ⟨m, f, s.objs⟩
  | spawn {s s' : Sys} {n : Nat} {r : Option Nat} : spawn s n = some (s', r) → Step w size none s s'
  | push {s : Sys} (i v : Nat) : Step w size (some i) s (push s i v).1
  | drop {s : Sys} (i k : Nat) : Step w size (some i) s (drop s i k).1
  | capture {s s' : Sys} {i flag env : Nat} {r : Option Nat} : capture s i flag env = some (s', r) → Step w size (some i) s s'
  | resume {s : Sys} {i c : Nat} : Fits s i c → Step w size (some i) s (resume s i c).1
  | release {s : Sys} (i : Nat) : Step w size (some i) s (release s i)

/-- States that occur. -/
inductive KReach (w size : Nat) : Sys → Prop
  | init {m : Mem} {live : List Block} {f : Nat → Nat} : Reach true w size m live → KReach w size ⟨m, f, []⟩
  | step {s s' : Sys} {who : Option Nat} : KReach w size s → Step w size who s s' → KReach w size s'

/-- Steps none of which is about `c`. -/
inductive Without (w size c : Nat) : Sys → Sys → Prop
  | refl {s : Sys} : Without w size c s s
  | step {s s1 s' : Sys} {who : Option Nat} : Without w size c s s1 → Step w size who s1 s' → who ≠ some c → Without w size c s s'

/-! ## The invariant -/

structure Good (w size : Nat) (s : Sys) (rest : List Block) : Prop where
  inv : Inv true w size s.mem (owned s ++ rest)
  used : ∀ i o, get s i = some o → o.used ≤ o.size
  own : ∀ c k i o, get s c = some k → k.kind = .saved i → get s i = some o → o.kind = .stack ∧ k.size ≤ o.size
  full : ∀ c k i, get s c = some k → k.kind = .saved i → k.used = k.size ∧ 1 ≤ k.size ∧ i < s.objs.length

theorem get_lt {s : Sys} {i : Nat} {o : Obj} (h : get s i = some o) : ∃ hi : i < s.objs.length, s.objs[i] = some o := by
  unfold get at h
  by_cases hi : i < s.objs.length
  · rw [List.getElem?_eq_getElem hi] at h
    exact ⟨hi, by simpa using h⟩
  · rw [List.getElem?_eq_none (by omega)] at h
    cases h

theorem get_set {s : Sys} {i j : Nat} {x : Option Obj} {m : Mem} {f : Nat → Nat} (hi : i < s.objs.length) :
    get ⟨m, f, s.objs.set i x⟩ j = if j = i then x else get s j := by
  unfold get
  simp only
  rw [List.getElem?_set]
  by_cases h : i = j
  · subst h; simp [hi]
  · rw [if_neg h, if_neg (Ne.symm h)]

theorem get_push {s : Sys} {j : Nat} {x : Obj} {m : Mem} {f : Nat → Nat} :
    get ⟨m, f, s.objs ++ [some x]⟩ j = if j = s.objs.length then some x else get s j := by
  unfold get
  simp only
  rw [List.getElem?_append]
  by_cases h : j < s.objs.length
  · rw [if_pos h, if_neg (by omega)]
  · rw [if_neg h]
    by_cases h2 : j = s.objs.length
    · subst h2; simp
    · rw [if_neg h2, List.getElem?_eq_none (by simp; omega), List.getElem?_eq_none (by omega)]

/-- The list of the blocks, with the block of one object first. -/
theorem owned_split : ∀ (l : List (Option Obj)) (i : Nat) (o : Obj), l[i]? = some (some o) →
    ∃ r, (l.filterMap fun o => o.map fun o => (o.base, o.size)).Perm ((o.base, o.size) :: r) ∧
      (∀ x : Obj, ((l.set i (some x)).filterMap fun o => o.map fun o => (o.base, o.size)).Perm ((x.base, x.size) :: r)) ∧
      ((l.set i none).filterMap fun o => o.map fun o => (o.base, o.size)) = r ∧
      ∀ j b, j ≠ i → l[j]? = some (some b) → (b.base, b.size) ∈ r
  | [], i, o, h => by simp at h
  | a :: l, 0, o, h => by
    simp only [List.length_cons, Nat.zero_lt_succ, List.getElem?_cons_zero, Option.some.injEq] at h
    subst h
    refine ⟨l.filterMap fun o => o.map fun o => (o.base, o.size), by simp, fun x => by simp, by simp, fun j b hj hb => ?_⟩
    obtain ⟨j, rfl⟩ : ∃ k, j = k + 1 := ⟨j - 1, by omega⟩
    rw [List.getElem?_cons_succ] at hb
    exact List.mem_filterMap.2 ⟨some b, List.mem_of_getElem? hb, rfl⟩
  | a :: l, i + 1, o, h => by
    rw [List.getElem?_cons_succ] at h
    obtain ⟨r, h1, h2, h3, h4⟩ := owned_split l i o h
    cases a with
    | none =>
      refine ⟨r, by simpa using h1, fun x => by simpa using h2 x, by simpa using h3, fun j b hj hb => ?_⟩
      cases j with
      | zero => simp at hb
      | succ j => exact h4 j b (by omega) (by simpa using hb)
    | some a =>
      refine ⟨(a.base, a.size) :: r, ?_, fun x => ?_, by simpa using h3, fun j b hj hb => ?_⟩
      · simpa using (h1.cons _).trans (List.Perm.swap _ _ _)
      · simpa using ((h2 x).cons _).trans (List.Perm.swap _ _ _)
      · cases j with
        | zero => simp only [List.getElem?_cons_zero, Option.some.injEq] at hb; subst hb; exact List.mem_cons_self
        | succ j => exact List.mem_cons_of_mem _ (h4 j b (by omega) (by simpa using hb))

theorem get_some {s : Sys} {i : Nat} {o : Obj} (h : get s i = some o) : s.objs[i]? = some (some o) := by
  obtain ⟨hi, e⟩ := get_lt h
  rw [List.getElem?_eq_getElem hi, e]

theorem owned_mem {s : Sys} {i : Nat} {o : Obj} (h : get s i = some o) : (o.base, o.size) ∈ owned s :=
  List.mem_filterMap.2 ⟨some o, List.mem_of_getElem? (get_some h), rfl⟩

/-- Two stacks or arrays have no word in common. -/
theorem apart {w size : Nat} {s : Sys} {rest : List Block} (h : Good w size s rest) {i j : Nat} {o p : Obj} (hij : j ≠ i) (hi : get s i = some o) (hj : get s j = some p) {a : Nat}
    (ha : Block.covers (o.base, o.size) a) : ¬ Block.covers (p.base, p.size) a := by
  obtain ⟨r, h1, _, _, h4⟩ := owned_split s.objs i o (get_some hi)
  have hp := inv_pairwise (h.inv.perm (h1.symm.append_right rest))
  rw [List.cons_append, List.pairwise_cons] at hp
  exact fun hb => hp.1 _ (List.mem_append_left _ (h4 j p hij (get_some hj))) a ⟨ha, hb⟩

/-- The blocks are the same when only the stack pointer of one stack changes. -/
theorem owned_used {s : Sys} {i : Nat} {o x : Obj} (h : get s i = some o) (hb : x.base = o.base) (hs : x.size = o.size) (m : Mem) (f : Nat → Nat) :
    (owned ⟨m, f, s.objs.set i (some x)⟩).Perm (owned s) := by
  obtain ⟨r, h1, h2, _, _⟩ := owned_split s.objs i o (get_some h)
  have := h2 x
  rw [hb, hs] at this
  exact this.trans h1.symm

/-- A stack pointer changes. -/
theorem good_used {w size : Nat} {s : Sys} {rest : List Block} (h : Good w size s rest) {i b n u u' : Nat} (hi : get s i = some ⟨b, n, u, .stack⟩) (hu : u' ≤ n) (f : Nat → Nat) :
    Good w size ⟨s.mem, f, s.objs.set i (some ⟨b, n, u', .stack⟩)⟩ rest := by
  obtain ⟨hl, _⟩ := get_lt hi
  refine ⟨h.inv.perm ((owned_used hi (by rfl) (by rfl) _ _).append_right rest), fun j o hj => ?_, fun c k j o hc hk hj => ?_, fun c k j hc hk => ?_⟩
  · rw [get_set hl] at hj
    split at hj
    · cases hj; exact hu
    · exact h.used j o hj
  · rw [get_set hl] at hc hj
    split at hc
    · cases hc; cases hk
    · split at hj
      · rename_i hji
        cases hj; subst hji
        exact ⟨rfl, (h.own c k j _ hc hk hi).2⟩
      · exact h.own c k j o hc hk hj
  · rw [get_set hl] at hc
    split at hc
    · cases hc; cases hk
    · have := h.full c k j hc hk
      simpa using this

/-- A new block. -/
theorem good_add {w size : Nat} {s : Sys} {rest : List Block} (h : Good w size s rest) {m : Mem} {f : Nat → Nat} {o : Obj} (hi : Inv true w size m ((o.base, o.size) :: (owned s ++ rest)))
    (hu : o.used ≤ o.size) (hk : ∀ i, o.kind = .saved i → o.used = o.size ∧ 1 ≤ o.size ∧ ∃ t, get s i = some t ∧ t.kind = .stack ∧ o.size ≤ t.size) :
    Good w size ⟨m, f, s.objs ++ [some o]⟩ rest := by
  have hlt : ∀ {j x}, get s j = some x → j ≠ s.objs.length := fun hj e => by obtain ⟨h1, _⟩ := get_lt hj; omega
  refine ⟨hi.perm ?_, fun j x hj => ?_, fun c k j x hc hkk hj => ?_, fun c k j hc hkk => ?_⟩
  · have e : owned ⟨m, f, s.objs ++ [some o]⟩ = owned s ++ [(o.base, o.size)] := by simp [owned]
    rw [e, List.append_assoc]
    exact List.perm_middle
  · rw [get_push] at hj
    split at hj
    · cases hj; exact hu
    · exact h.used j x hj
  · rw [get_push] at hc hj
    split at hc
    · cases hc
      obtain ⟨_, _, t, h1, h2, h3⟩ := hk j hkk
      rw [if_neg (hlt h1), h1] at hj
      cases hj
      exact ⟨h2, h3⟩
    · split at hj
      · have := (h.full c k j hc hkk).2.2
        omega
      · exact h.own c k j x hc hkk hj
  · rw [get_push] at hc
    split at hc
    · cases hc
      obtain ⟨h1, h2, t, h3, _⟩ := hk j hkk
      obtain ⟨h4, _⟩ := get_lt h3
      exact ⟨h1, h2, by simp; omega⟩
    · have := h.full c k j hc hkk
      exact ⟨this.1, this.2.1, by simp; omega⟩

theorem Good.word {w size : Nat} {s : Sys} {rest : List Block} (h : Good w size s rest) (f : Nat → Nat) : Good w size ⟨s.mem, f, s.objs⟩ rest :=
  ⟨h.inv, h.used, h.own, h.full⟩

theorem Good.mem {w size : Nat} {s : Sys} {rest rest' : List Block} (h : Good w size s rest) {m : Mem} (f : Nat → Nat) (hi : Inv true w size m (owned s ++ rest')) :
    Good w size ⟨m, f, s.objs⟩ rest' := ⟨hi, h.used, h.own, h.full⟩

/-- One step: the invariant, and what the step leaves alone. -/
theorem step_good {w size : Nat} (hs : 0 < size) (hw : size < 2 ^ w) {s s' : Sys} {who : Option Nat} {rest : List Block} (h : Good w size s rest) (st : Step w size who s s') :
    (∃ rest', Good w size s' rest') ∧ ∀ j o, some j ≠ who → get s j = some o → get s' j = some o ∧ ∀ a, Block.covers (o.base, o.size) a → s'.word a = s.word a := by
  cases st with
  | @other _ m f live r hr hp hf =>
    refine ⟨⟨r, h.mem f ((reach_inv hs hw hr).perm hp.symm)⟩, fun j o _ hj => ⟨hj, fun a ha => hf _ (owned_mem hj) a ha⟩⟩
  | @spawn _ _ n r e =>
    unfold spawn at e
    rcases allocate_inv hw h.inv n with ⟨m', p, e1, h1, h2, -⟩ | ⟨m', e1, h2, -⟩
    · rw [e1] at e
      simp only [Option.map_some, Option.some.injEq, Prod.mk.injEq] at e
      obtain ⟨rfl, _⟩ := e
      refine ⟨⟨rest, good_add h h2 (Nat.zero_le _) (fun i hi => by cases hi)⟩, fun j o _ hj => ⟨?_, fun a ha => ?_⟩⟩
      · rw [get_push, if_neg, hj]
        obtain ⟨h4, _⟩ := get_lt hj; omega
      · have hpw := inv_pairwise h2
        rw [List.pairwise_cons] at hpw
        exact if_neg fun hc => hpw.1 _ (List.mem_append_left _ (owned_mem hj)) a ⟨hc, ha⟩
    · rw [e1] at e
      simp only [Option.map_some, Option.some.injEq, Prod.mk.injEq] at e
      obtain ⟨rfl, _⟩ := e
      exact ⟨⟨rest, h.mem _ h2⟩, fun j o _ hj => ⟨hj, fun a _ => rfl⟩⟩
  | push i v =>
    unfold push
    split
    · rename_i b n u e
      have hu : u ≤ n := h.used i _ e
      by_cases hn : u = n
      · rw [if_pos hn]; exact ⟨⟨rest, h⟩, fun j o _ hj => ⟨hj, fun a _ => rfl⟩⟩
      · rw [if_neg hn]
        refine ⟨⟨rest, good_used h e (by omega) _⟩, fun j o hji hj => ?_⟩
        have hne : j ≠ i := fun e => hji (by rw [e])
        obtain ⟨hl, _⟩ := get_lt e
        refine ⟨by rw [get_set hl, if_neg hne]; exact hj, fun a ha => ?_⟩
        refine if_neg fun hc => ?_
        exact apart h hne e hj (a := a) ⟨by show b ≤ a; omega, by show a < b + n; omega⟩ ha
    · exact ⟨⟨rest, h⟩, fun j o _ hj => ⟨hj, fun a _ => rfl⟩⟩
  | drop i k =>
    unfold drop
    split
    · rename_i b n u e
      have hu : u ≤ n := h.used i _ e
      by_cases hn : k > u
      · rw [if_pos hn]; exact ⟨⟨rest, h⟩, fun j o _ hj => ⟨hj, fun a _ => rfl⟩⟩
      · rw [if_neg hn]
        refine ⟨⟨rest, good_used h e (by omega) _⟩, fun j o hji hj => ?_⟩
        have hne : j ≠ i := fun e => hji (by rw [e])
        obtain ⟨hl, _⟩ := get_lt e
        exact ⟨by rw [get_set hl, if_neg hne]; exact hj, fun a _ => rfl⟩
    · exact ⟨⟨rest, h⟩, fun j o _ hj => ⟨hj, fun a _ => rfl⟩⟩
  | @capture _ _ i flag env r e =>
    unfold capture at e
    split at e
    · rename_i b n u eo
      have hu : u ≤ n := h.used i _ eo
      obtain ⟨hl, _⟩ := get_lt eo
      by_cases hn : u + 1 < n
      · rw [if_pos hn] at e
        have hout : ∀ j o, some j ≠ some i → get s j = some o → ∀ a, Block.covers (o.base, o.size) a → a ≠ b + u := fun j o hji hj a ha hc =>
          apart h (fun e => hji (by rw [e])) eo hj (a := a) ⟨by show b ≤ a; omega, by show a < b + n; omega⟩ ha
        rcases allocate_inv hw h.inv (u + 1) with ⟨m', p, e1, h1, h2, -⟩ | ⟨m', e1, h2, -⟩
        · rw [e1] at e
          simp only [Option.map_some, Option.some.injEq, Prod.mk.injEq] at e
          obtain ⟨rfl, _⟩ := e
          have hg := good_used (u' := u + 1) h eo (by omega) s.word
          have ha := good_add (m := m') (f := setWord (copy (setWord s.word (b + u) flag) p b (u + 1)) (b + u) env) (o := ⟨p, u + 1, u + 1, .saved i⟩) hg
            (h2.perm (((owned_used eo (by rfl) (by rfl) _ _).append_right rest).cons _)) (Nat.le_refl _) (fun j hj => by
              cases hj
              exact ⟨rfl, Nat.le_add_left _ _, _, by rw [get_set hl, if_pos rfl], rfl, by show u + 1 ≤ n; omega⟩)
          refine ⟨⟨rest, ha⟩, fun j o hji hj => ?_⟩
          have hne : j ≠ i := fun e => hji (by rw [e])
          constructor
          · have := get_push (s := ⟨s.mem, s.word, s.objs.set i (some ⟨b, n, u + 1, .stack⟩)⟩) (j := j) (x := ⟨p, u + 1, u + 1, .saved i⟩) (m := m')
              (f := setWord (copy (setWord s.word (b + u) flag) p b (u + 1)) (b + u) env)
            rw [this, if_neg, get_set hl, if_neg hne, hj]
            obtain ⟨h4, _⟩ := get_lt hj
            simp; omega
          · intro a ha
            have h5 := hout j o hji hj a ha
            have hpw := inv_pairwise h2
            rw [List.pairwise_cons] at hpw
            have h6 : ¬ (p ≤ a ∧ a < p + (u + 1)) := fun hc => hpw.1 _ (List.mem_append_left _ (owned_mem hj)) a ⟨hc, ha⟩
            simp only [setWord, copy]
            rw [if_neg h5, if_neg h6, if_neg h5]
        · rw [e1] at e
          simp only [Option.map_some, Option.some.injEq, Prod.mk.injEq] at e
          obtain ⟨rfl, _⟩ := e
          refine ⟨⟨rest, h.mem _ h2⟩, fun j o hji hj => ⟨hj, fun a ha => ?_⟩⟩
          exact if_neg (hout j o hji hj a ha)
      · rw [if_neg hn] at e
        cases e
        exact ⟨⟨rest, h⟩, fun j o _ hj => ⟨hj, fun a _ => rfl⟩⟩
    · cases e
      exact ⟨⟨rest, h⟩, fun j o _ hj => ⟨hj, fun a _ => rfl⟩⟩
  | @resume _ i c hfit =>
    unfold resume
    split
    · rename_i b n u p k x y eo ec
      have hk : k ≤ n := hfit _ _ eo ec
      refine ⟨⟨rest, good_used h eo (by omega) _⟩, fun j o hji hj => ?_⟩
      have hne : j ≠ i := fun e => hji (by rw [e])
      obtain ⟨hl, _⟩ := get_lt eo
      refine ⟨by rw [get_set hl, if_neg hne]; exact hj, fun a ha => ?_⟩
      exact if_neg fun hc => apart h hne eo hj (a := a) ⟨hc.1, by show a < b + n; omega⟩ ha
    · exact ⟨⟨rest, h⟩, fun j o _ hj => ⟨hj, fun a _ => rfl⟩⟩
  | release i =>
    unfold release
    cases e : get s i with
    | none => exact ⟨⟨rest, h⟩, fun j o _ hj => ⟨hj, fun a _ => rfl⟩⟩
    | some o =>
      simp only
      obtain ⟨hl, _⟩ := get_lt e
      obtain ⟨r, h1, _, h3, _⟩ := owned_split s.objs i o (get_some e)
      have hr := free_result hw (h.inv.perm (h1.symm.append_right rest)) (p := o.base) (k := o.size) (by simp)
      rw [List.cons_append, List.erase_cons_head] at hr
      refine ⟨⟨rest, ⟨?_, fun j x hj => ?_, fun c k j x hc hk hj => ?_, fun c k j hc hk => ?_⟩⟩, fun j x hji hj => ?_⟩
      · have : owned ⟨(free s.mem o.base).1, s.word, s.objs.set i none⟩ = r := h3
        rw [this]; exact hr.2.1
      · rw [get_set hl] at hj
        split at hj
        · cases hj
        · exact h.used j x hj
      · rw [get_set hl] at hc hj
        split at hc
        · cases hc
        · split at hj
          · cases hj
          · exact h.own c k j x hc hk hj
      · rw [get_set hl] at hc
        split at hc
        · cases hc
        · simpa using h.full c k j hc hk
      · have hne : j ≠ i := fun e => hji (by rw [e])
        exact ⟨by rw [get_set hl, if_neg hne]; exact hj, fun _ _ => by trivial⟩

theorem kreach_good {w size : Nat} (hs : 0 < size) (hw : size < 2 ^ w) {s : Sys} (h : KReach w size s) : ∃ rest, Good w size s rest := by
  induction h with
  | @init m live f hr =>
    exact ⟨live, reach_inv hs hw hr, fun i o hi => by simp [get] at hi, fun i o j x hi => by simp [get] at hi, fun i o j hi => by simp [get] at hi⟩
  | step _ st ih => obtain ⟨r, hg⟩ := ih; exact (step_good hs hw hg st).1

/-! ## C121 -/

theorem contents_keep {s s' : Sys} {j : Nat} {o : Obj} (hj : get s j = some o) (hj' : get s' j = some o) (hu : o.used ≤ o.size)
    (h : ∀ a, Block.covers (o.base, o.size) a → s'.word a = s.word a) : contents s' j = contents s j := by
  unfold contents
  rw [hj, hj', Option.map_some, Option.map_some]
  congr 1
  apply List.map_congr_left
  intro k hk
  have := List.mem_range.1 hk
  exact h _ ⟨Nat.le_add_right _ _, by show o.base + k < o.base + o.size; omega⟩

/-- C121: whatever a process does with its stack, including capturing and applying continuations that fit, other stacks and all captured continuations keep their
contents. Nothing is read or written outside of the blocks: the words in use are words of the block. -/
theorem C121_others {w size : Nat} (hs : 0 < size) (hw : size < 2 ^ w) {s s' : Sys} {who : Option Nat} (h : KReach w size s) (st : Step w size who s s') (j : Nat) (hj : some j ≠ who)
    (he : get s j ≠ none) : contents s' j = contents s j ∧ get s' j = get s j := by
  obtain ⟨rest, hg⟩ := kreach_good hs hw h
  cases e : get s j with
  | none => exact absurd e he
  | some o =>
    obtain ⟨h1, h2⟩ := (step_good hs hw hg st).2 j o hj e
    exact ⟨contents_keep e h1 (hg.used j o e) h2, h1⟩

theorem without_keeps {w size c : Nat} (hs : 0 < size) (hw : size < 2 ^ w) {s s' : Sys} (h : KReach w size s) (hw' : Without w size c s s') (he : get s c ≠ none) :
    KReach w size s' ∧ contents s' c = contents s c ∧ get s' c = get s c := by
  induction hw' with
  | refl => exact ⟨h, rfl, rfl⟩
  | step _ st hne ih =>
    obtain ⟨h1, h2, h3⟩ := ih
    obtain ⟨h4, h5⟩ := C121_others hs hw h1 st c (Ne.symm hne) (by rw [h3]; exact he)
    exact ⟨h1.step st, h4.trans h2, h5.trans h3⟩

/-- What `call-cc` has stored: the words of the stack, and the flag. -/
theorem capture_contents {w size : Nat} (hw : size < 2 ^ w) {s s' : Sys} {rest : List Block} (h : Good w size s rest) {i flag env c : Nat}
    (e : capture s i flag env = some (s', some c)) :
    ∃ l, contents s i = some l ∧ contents s' c = some (l ++ [flag]) ∧ contents s' i = some (l ++ [env]) ∧ ∃ p k, get s' c = some ⟨p, k, k, .saved i⟩ := by
  unfold capture at e
  split at e
  · rename_i b n u eo
    obtain ⟨hl, _⟩ := get_lt eo
    by_cases hn : u + 1 < n
    · rw [if_pos hn] at e
      rcases allocate_inv hw h.inv (u + 1) with ⟨m', p, e1, h1, h2, -⟩ | ⟨m', e1, h2, -⟩
      · rw [e1] at e
        simp only [Option.map_some, Option.some.injEq, Prod.mk.injEq] at e
        obtain ⟨rfl, rfl⟩ := e
        have hpw := inv_pairwise h2
        rw [List.pairwise_cons] at hpw
        have hd : ∀ a, b ≤ a → a < b + n → ¬ (p ≤ a ∧ a < p + (u + 1)) := fun a h3 h4 hc => hpw.1 _ (List.mem_append_left _ (owned_mem eo)) a ⟨hc, ⟨h3, h4⟩⟩
        have g := fun j => get_push (s := ⟨s.mem, s.word, s.objs.set i (some ⟨b, n, u + 1, .stack⟩)⟩) (j := j) (x := ⟨p, u + 1, u + 1, .saved i⟩) (m := m')
              (f := setWord (copy (setWord s.word (b + u) flag) p b (u + 1)) (b + u) env)
        have gc := g s.objs.length
        rw [if_pos (by simp)] at gc
        have gi := g i
        rw [if_neg (by simp; omega), get_set hl, if_pos rfl] at gi
        refine ⟨_, by unfold contents; rw [eo]; rfl, ?_, ?_, p, u + 1, gc⟩
        · unfold contents
          rw [gc, Option.map_some]
          simp only [List.range_succ, List.map_append, List.map_cons, List.map_nil]
          congr 2
          · apply List.map_congr_left
            intro k hk
            have hk := List.mem_range.1 hk
            have q1 : p + k ≠ b + u := fun e => hd (b + u) (by omega) (by omega) (by omega)
            have q2 : p ≤ p + k ∧ p + k < p + (u + 1) := by omega
            have q3 : b + (p + k - p) = b + k := by omega
            have q4 : b + k ≠ b + u := by omega
            simp only [setWord, copy]
            rw [if_neg q1, if_pos q2, q3, if_neg q4]
          · have q1 : p + u ≠ b + u := fun e => hd (b + u) (by omega) (by omega) (by omega)
            have q2 : p ≤ p + u ∧ p + u < p + (u + 1) := by omega
            have q3 : b + (p + u - p) = b + u := by omega
            simp only [setWord, copy]
            rw [if_neg q1, if_pos q2, q3, if_pos rfl]
        · unfold contents
          rw [gi, Option.map_some]
          simp only [List.range_succ, List.map_append, List.map_cons, List.map_nil]
          congr 2
          · apply List.map_congr_left
            intro k hk
            have hk := List.mem_range.1 hk
            have q1 : b + k ≠ b + u := by omega
            have q2 := hd (b + k) (by omega) (by omega)
            simp only [setWord, copy]
            rw [if_neg q1, if_neg q2, if_neg q1]
          · simp [setWord]
      · rw [e1] at e
        simp only [Option.map_some, Option.some.injEq, Prod.mk.injEq] at e
        cases e.2
    · rw [if_neg hn] at e; cases e
  · cases e

/-- Applying a continuation that fits. -/
theorem resume_contents {w size : Nat} {s : Sys} {rest : List Block} (h : Good w size s rest) {j c i flag p k b n u : Nat} {l : List Nat} (hj : get s j = some ⟨b, n, u, .stack⟩)
    (hc : get s c = some ⟨p, k, k, .saved i⟩) (hl : contents s c = some (l ++ [flag])) :
    contents (resume s j c).1 j = some l ∧ (resume s j c).2 = some flag := by
  obtain ⟨hlt, _⟩ := get_lt hj
  have e : resume s j c = (⟨s.mem, copy s.word b p k, s.objs.set j (some ⟨b, n, k - 1, .stack⟩)⟩, some (copy s.word b p k (b + (k - 1)))) := by
    unfold resume; rw [hj, hc]
  have hk := (h.full c _ i hc rfl).2.1
  obtain ⟨k, rfl⟩ : ∃ q, k = q + 1 := ⟨k - 1, by simp only at hk; omega⟩
  unfold contents at hl
  rw [hc, Option.map_some, Option.some.injEq] at hl
  simp only [List.range_succ, List.map_append, List.map_cons, List.map_nil] at hl
  obtain ⟨h1, h2⟩ := List.append_inj' hl rfl
  have hcp : ∀ q, q < k + 1 → copy s.word b p (k + 1) (b + q) = s.word (p + q) := by
    intro q hq
    have q2 : b ≤ b + q ∧ b + q < b + (k + 1) := by omega
    have q3 : p + (b + q - b) = p + q := by omega
    simp only [copy]
    rw [if_pos q2, q3]
  rw [e]
  constructor
  · unfold contents
    rw [get_set hlt, if_pos rfl, Option.map_some, ← h1]
    congr 1
    apply List.map_congr_left
    intro q hq
    have := List.mem_range.1 hq
    exact hcp q (by simp only at this; omega)
  · simp only [Nat.add_sub_cancel]
    rw [hcp k (by omega)]
    simpa using h2

/-- C121: when a process captures a continuation and some process applies it later (any number of times, whatever has happened in between, the array not being collected and
large enough a stack), then the stack of that process has exactly the words that the stack of the first process had at `call-cc`, and the flag for atomic blocks is that of the
capture. Partial: the code does not check that the stack is large enough. -/
theorem C121_round_trip_partial {w size : Nat} (hs : 0 < size) (hw : size < 2 ^ w) {s s1 s2 : Sys} (h : KReach w size s) {i flag env c : Nat} (e : capture s i flag env = some (s1, some c))
    (hwo : Without w size c s1 s2) {j b n u : Nat} (hj : get s2 j = some ⟨b, n, u, .stack⟩) :
    contents (resume s2 j c).1 j = contents s i ∧ (resume s2 j c).2 = some flag := by
  obtain ⟨rest, hg⟩ := kreach_good hs hw h
  obtain ⟨l, h1, h2, -, p, k, h3⟩ := capture_contents hw hg e
  have hr1 : KReach w size s1 := h.step (.capture e)
  obtain ⟨h4, h5, h6⟩ := without_keeps hs hw hr1 hwo (by rw [h3]; simp)
  obtain ⟨rest2, hg2⟩ := kreach_good hs hw h4
  obtain ⟨r1, r2⟩ := resume_contents hg2 hj (h6.trans h3) (h5.trans h2)
  exact ⟨r1.trans h1.symm, r2⟩

/-- C121: a continuation always fits the stack of the process that captured it, so processes that apply only their own continuations need no check. -/
theorem C121_own {w size : Nat} (hs : 0 < size) (hw : size < 2 ^ w) {s : Sys} (h : KReach w size s) {i c p k u : Nat} (hc : get s c = some ⟨p, k, u, .saved i⟩) : Fits s i c := by
  obtain ⟨rest, hg⟩ := kreach_good hs hw h
  intro o x ho hx
  rw [hc] at hx; cases hx
  exact (hg.own c _ i o hc rfl ho).2

/-! ### A concrete history, and the violation -/

def start : Sys := ⟨Mem.init 32 64 0, fun _ => 7, []⟩

theorem start_reach : KReach 32 64 start := .init (.init 0)

/-- Processes with stacks of 8, 3 and 8 words; the first one pushes four words, the others one each; then the first one captures its continuation. -/
def demo : Sys :=
  let s := (((spawn start 8).bind fun r => spawn r.1 3).bind fun r => spawn r.1 8).map fun r => (push (push (push (push (push (push r.1 0 1).1 0 2).1 0 3).1 0 4).1 1 50).1 2 60).1
  ((s.bind fun s => capture s 0 0 99).map (·.1)).getD start

theorem spawn_ok {w size : Nat} (hs : 0 < size) (hw : size < 2 ^ w) {s : Sys} (h : KReach w size s) (n : Nat) : ∃ s' r, spawn s n = some (s', r) ∧ KReach w size s' := by
  obtain ⟨rest, hg⟩ := kreach_good hs hw h
  rcases allocate_inv hw hg.inv n with ⟨m', p, e1, _⟩ | ⟨m', e1, _⟩
  · have : ∃ r, spawn s n = some r := by unfold spawn; rw [e1]; exact ⟨_, rfl⟩
    obtain ⟨⟨s', r⟩, e⟩ := this
    exact ⟨s', r, e, h.step (.spawn e)⟩
  · have : ∃ r, spawn s n = some r := by unfold spawn; rw [e1]; exact ⟨_, rfl⟩
    obtain ⟨⟨s', r⟩, e⟩ := this
    exact ⟨s', r, e, h.step (.spawn e)⟩

theorem demo_reach : KReach 32 64 demo := by
  obtain ⟨s1, r1, e1, h1⟩ := spawn_ok (by decide) (by decide) start_reach 8
  obtain ⟨s2, r2, e2, h2⟩ := spawn_ok (by decide) (by decide) h1 3
  obtain ⟨s3, r3, e3, h3⟩ := spawn_ok (by decide) (by decide) h2 8
  have h4 := ((((((h3.step (.push 0 1)).step (.push 0 2)).step (.push 0 3)).step (.push 0 4)).step (.push 1 50)).step (.push 2 60))
  unfold demo
  rw [e1, Option.bind_some, e2, Option.bind_some, e3, Option.map_some]
  simp only [Option.bind_some]
  generalize (push (push (push (push (push (push s3 0 1).1 0 2).1 0 3).1 0 4).1 1 50).1 2 60).1 = t at h4 ⊢
  cases e : capture t 0 0 99 with
  | none => exact start_reach
  | some r => exact h4.step (.capture (s' := r.1) (r := r.2) e)

/-- The continuation has the four words and the flag; the third process can apply it. -/
example : contents demo 3 = some [1, 2, 3, 4, 0] ∧ contents demo 0 = some [1, 2, 3, 4, 99] ∧ contents (resume demo 2 3).1 2 = some [1, 2, 3, 4] ∧
    contents (resume demo 2 3).1 1 = some [50] := by decide +kernel

/-- Not true of the code: the second process has a stack of three words. When it applies the continuation, its stack pointer is above the end of its stack and the copy has
overwritten the stack of the third process. -/
theorem C121_small_stack_violated : KReach 32 64 demo ∧ contents demo 2 = some [60] ∧ contents (resume demo 1 3).1 2 = some [4] ∧
    get (resume demo 1 3).1 1 = some ⟨8, 3, 4, .stack⟩ := ⟨demo_reach, by decide +kernel⟩

example : Fits demo 0 3 := C121_own (by decide) (by decide) demo_reach (show get demo 3 = some ⟨19, 5, 5, .saved 0⟩ by decide +kernel)

/-- The hypotheses of the round trip are met: capture by process 0 again, a push by it, then application by process 2. -/
example : ∃ s1, capture demo 0 1 77 = some (s1, some 4) ∧ contents (resume (push s1 0 5).1 2 4).1 2 = some [1, 2, 3, 4, 99] ∧ (resume (push s1 0 5).1 2 4).2 = some 1 := by
  have e : ∃ s1, capture demo 0 1 77 = some (s1, some 4) ∧ get (push s1 0 5).1 2 = some ⟨11, 8, 1, .stack⟩ := by
    have : (capture demo 0 1 77).map (fun r => (r.2, get (push r.1 0 5).1 2)) = some (some 4, some ⟨11, 8, 1, .stack⟩) := by decide +kernel
    cases hc : capture demo 0 1 77 with
    | none => rw [hc] at this; cases this
    | some r =>
      rw [hc] at this
      simp only [Option.map_some, Option.some.injEq, Prod.mk.injEq] at this
      exact ⟨r.1, by rw [← this.1], this.2⟩
  obtain ⟨s1, e, hg⟩ := e
  have := C121_round_trip_partial (by decide) (by decide) demo_reach e (.step .refl (.push 0 5) (by decide)) hg
  exact ⟨s1, e, this.1.trans (by decide +kernel), this.2⟩

end Verif.Kont
