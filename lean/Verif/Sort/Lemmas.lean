import Verif.Sort.Merge

namespace Verif.Sort
open Verif.Heap Verif.Env Verif.Lists

variable {cmp : Val → Val → Bool} {E : Nat → Heap → Heap}

/-- From `(t, h, s)` the machine gets to `(t', h', s')`. -/
def Leads (cmp : Val → Val → Bool) (E : Nat → Heap → Heap) (t : Nat) (h : Heap) (s : St) (t' : Nat) (h' : Heap) (s' : St) : Prop :=
  ∃ n, t' = t + n ∧ ∀ m, run cmp E (n + m) t h s = run cmp E m t' h' s'

theorem Leads.refl (t : Nat) (h : Heap) (s : St) : Leads cmp E t h s t h s := ⟨0, rfl, fun m => by rw [Nat.zero_add]⟩

theorem Leads.trans {t1 t2 t3 : Nat} {h1 h2 h3 : Heap} {s1 s2 s3 : St} (a : Leads cmp E t1 h1 s1 t2 h2 s2)
    (b : Leads cmp E t2 h2 s2 t3 h3 s3) : Leads cmp E t1 h1 s1 t3 h3 s3 := by
  obtain ⟨n, rfl, ha⟩ := a
  obtain ⟨k, rfl, hb⟩ := b
  exact ⟨n + k, by omega, fun m => by rw [Nat.add_assoc, ha, hb]⟩

theorem Leads.one (t : Nat) (h : Heap) (s : St) :
    Leads cmp E t h s (t + 1) (step cmp (E t) h s).1 (step cmp (E t) h s).2 :=
  ⟨1, rfl, fun m => by rw [Nat.add_comm]; rfl⟩

theorem run_done (v : Val) : ∀ n t h, run cmp E n t h (.done v) = (h, .done v) := by
  intro n
  induction n with
  | zero => intro t h; rfl
  | succ n ih => intro t h; exact ih _ _

/-- The comparator leaves the cells `ks` alone. -/
def Safe (E : Nat → Heap → Heap) (ks : List Nat) : Prop := ∀ t h, ∀ c ∈ ks, (E t h).cells c = h.cells c

theorem Safe.mono {ks ls : List Nat} (hs : Safe E ks) (h : ∀ c ∈ ls, c ∈ ks) : Safe E ls := fun t h' c hc => hs t h' c (h c hc)

/-- Cells that neither the sort owns nor the comparator writes are unchanged. -/
def Frame' (E : Nat → Heap → Heap) (ks : List Nat) (h h' : Heap) : Prop :=
  ∀ c, c ∉ ks → (∀ t h, (E t h).cells c = h.cells c) → h'.cells c = h.cells c

theorem Frame'.refl (ks : List Nat) (h : Heap) : Frame' E ks h h := fun _ _ _ => rfl

theorem Frame'.trans {ks : List Nat} {h h1 h2 : Heap} (a : Frame' E ks h h1) (b : Frame' E ks h1 h2) : Frame' E ks h h2 :=
  fun c hc he => (b c hc he).trans (a c hc he)

theorem Frame'.mono {ks ls : List Nat} {h h1 : Heap} (a : Frame' E ks h h1) (hs : ∀ k ∈ ks, k ∈ ls) : Frame' E ls h h1 :=
  fun c hc he => a c (fun hm => hc (hs c hm)) he

theorem Frame'.keep {ks : List Nat} {h h1 : Heap} (a : Keep ks h h1) : Frame' E ks h h1 := fun c hc _ => a c hc

theorem Frame'.eff (ks : List Nat) (t : Nat) (h : Heap) : Frame' E ks h (E t h) := fun c _ he => he t h

theorem listAt_safe {ks : List Nat} (hs : Safe E ks) {t : Nat} {h : Heap} {v : Val} {is : List Nat} {xs : List Val}
    (hl : ListAt h v is xs) (hi : ∀ i ∈ is, i ∈ ks) : ListAt (E t h) v is xs :=
  listAt_congr (fun j hj => by rw [hs t h j (hi j hj)]) hl

theorem minv_safe {ks : List Nat} (hs : Safe E ks) {t : Nat} {h : Heap} {fr : Frame} {ps : List Nat} {us : List Val} {i j : Nat} {x y : Val}
    {is : List Nat} {xs : List Val} {js : List Nat} {ys : List Val} (hm : MInv h fr ps us i j x y is xs js ys)
    (hk : ∀ c ∈ ps ++ i :: j :: (is ++ js), c ∈ ks) : MInv (E t h) fr ps us i j x y is xs js ys := by
  obtain ⟨h1, h2, h3, h4, h5, h6, h7⟩ := hm
  refine ⟨⟨listAt_safe hs h1.1 fun c hc => hk c (by simp [hc]), h1.2⟩, h2, ?_, ?_, listAt_safe hs h5 fun c hc => hk c (by simp [hc]),
    listAt_safe hs h6 fun c hc => hk c (by simp [hc]), h7⟩
  · rw [hs t h i (hk i (by simp))]; exact h3
  · rw [hs t h j (hk j (by simp))]; exact h4

/-- The whole merge of two sublists. -/
theorem merge_leads {ks : List Nat} (hs : Safe E ks) (o : Option LFrame) : ∀ (n : Nat) {t : Nat} {h : Heap} {fr : Frame} {ps : List Nat}
    {us : List Val} {i j : Nat} {x y : Val} {is : List Nat} {xs : List Val} {js : List Nat} {ys : List Val}, xs.length + ys.length = n →
    MInv h fr ps us i j x y is xs js ys → (∀ c ∈ ps ++ i :: j :: (is ++ js), c ∈ ks) →
    ∃ t' h' v qs, Leads cmp E t h (.merge o fr) t' h' (afterMerge o (.inl v)) ∧
      ListAt h' v qs (us ++ List.merge (x :: xs) (y :: ys) cmp) ∧
      qs.Perm (ps ++ i :: j :: (is ++ js)) ∧ Frame' E (ps ++ i :: j :: (is ++ js)) h h' := by
  intro n
  induction n using Nat.strongRecOn with
  | ind n ih =>
    intro t h fr ps us i j x y is xs js ys hn hm hk
    have hx : car h fr.a = x := by rw [hm.a]; exact car_pair hm.ci
    have hy : car h (cdr h fr.a) = y := by rw [hm.a, cdr_pair hm.ci]; exact car_pair hm.cj
    have hm1 := minv_safe hs (t := t) hm hk
    have l1 := Leads.one (cmp := cmp) (E := E) t h (.merge o fr)
    simp only [step, hx, hy] at l1
    rw [List.cons_merge_cons]
    cases hc : cmp x y with
    | false =>
      rw [hc] at l1
      obtain ⟨k1, g⟩ := mergeRest_false hm1
      generalize mergeRest (E t h) fr false = p at k1 g l1
      have f1 : Frame' E (ps ++ i :: j :: (is ++ js)) h p.1 := (Frame'.eff _ t h).trans (.keep k1)
      cases js with
      | nil => cases ys with
        | cons => exact g.elim
        | nil =>
          obtain ⟨v, e, gl⟩ := g
          rw [e] at l1
          refine ⟨_, _, v, _, l1, by simpa using gl, ?_, f1⟩
          simpa using List.Perm.append_left ps (List.Perm.swap i j is)
      | cons j' js => cases ys with
        | nil => exact g.elim
        | cons y' ys =>
          obtain ⟨fr', e, gm⟩ := g
          rw [e] at l1
          have pm : (ps ++ [j] ++ i :: j' :: (is ++ js)).Perm (ps ++ i :: j :: (is ++ j' :: js)) := by
            rw [List.append_assoc]
            refine List.Perm.append_left ps ?_
            refine (List.Perm.swap i j _).trans ?_
            refine List.Perm.cons i (List.Perm.cons j ?_)
            exact List.perm_middle.symm
          obtain ⟨t', h', v, qs, g1, g2, g3, g4⟩ := ih _ (by simp at hn; omega) (t := t + 1) (ys := ys) rfl gm
            (fun c hc => hk c (pm.mem_iff.1 hc))
          refine ⟨t', h', v, qs, l1.trans g1, by simpa using g2, g3.trans pm, f1.trans (g4.mono fun c hc => pm.mem_iff.1 hc)⟩
    | true =>
      rw [hc] at l1
      obtain ⟨k1, g⟩ := mergeRest_true hm1
      generalize mergeRest (E t h) fr true = p at k1 g l1
      have f1 : Frame' E (ps ++ i :: j :: (is ++ js)) h p.1 := (Frame'.eff _ t h).trans (.keep k1)
      cases is with
      | nil => cases xs with
        | cons => exact g.elim
        | nil =>
          obtain ⟨v, e, gl⟩ := g
          rw [e] at l1
          refine ⟨_, _, v, _, l1, by simpa using gl, ?_, f1⟩
          simp
      | cons i' is => cases xs with
        | nil => exact g.elim
        | cons x' xs =>
          obtain ⟨fr', e, gm⟩ := g
          rw [e] at l1
          have pm : (ps ++ [i] ++ i' :: j :: (is ++ js)).Perm (ps ++ i :: j :: (i' :: is ++ js)) := by
            rw [List.append_assoc]
            refine List.Perm.append_left ps (List.Perm.cons i ?_)
            exact List.Perm.swap j i' _
          obtain ⟨t', h', v, qs, g1, g2, g3, g4⟩ := ih _ (by simp at hn; omega) (t := t + 1) (xs := xs) (ys := ys) rfl gm
            (fun c hc => hk c (pm.mem_iff.1 hc))
          refine ⟨t', h', v, qs, l1.trans g1, by simpa using g2, g3.trans pm, f1.trans (g4.mono fun c hc => pm.mem_iff.1 hc)⟩

/-! ### Cutting -/

theorem cut_spec : ∀ (n : Nat) {h : Heap} {v : Val} {is : List Nat} {xs : List Val}, ListAt h v is xs → is.Nodup →
    ListAt (cut h (n + 1) v).1 v (is.take (n + 1)) (xs.take (n + 1)) ∧
    ListAt (cut h (n + 1) v).1 (cut h (n + 1) v).2 (is.drop (n + 1)) (xs.drop (n + 1)) ∧ Keep is h (cut h (n + 1) v).1 := by
  intro n
  induction n with
  | zero =>
    intro h v is xs hl hnd
    cases is with
    | nil => cases xs with
      | cons => exact hl.elim
      | nil =>
        have : v = nil := hl
        subst this
        exact ⟨rfl, rfl, Keep.refl _ _⟩
    | cons i is => cases xs with
      | nil => exact hl.elim
      | cons x xs =>
        obtain ⟨rfl, d, e, hd⟩ := hl
        have p := setCdr_poke (v := nil) e
        simp only [cut, Nat.zero_add, Nat.sub_self, walk, cdr_pair e]
        exact ⟨⟨rfl, nil, p.at_, rfl⟩, listAt_poke p hd (List.nodup_cons.1 hnd).1, .poke p (by simp)⟩
  | succ n ih =>
    intro h v is xs hl hnd
    cases is with
    | nil => cases xs with
      | cons => exact hl.elim
      | nil =>
        have : v = nil := hl
        subst this
        exact ⟨rfl, rfl, Keep.refl _ _⟩
    | cons i is => cases xs with
      | nil => exact hl.elim
      | cons x xs =>
        obtain ⟨rfl, d, e, hd⟩ := hl
        have hnd' := List.nodup_cons.1 hnd
        obtain ⟨g1, g2, g3⟩ := ih hd hnd'.2
        have hw : cut h (n + 1 + 1) (.ptr .cons false i) = cut h (n + 1) d := by
          simp only [cut, Nat.add_sub_cancel, walk, isCons_ptr, if_true, cdr_pair e]
        rw [hw]
        refine ⟨⟨rfl, d, ?_, g1⟩, g2, g3.mono (by simp; tauto)⟩
        rw [g3 i hnd'.1]; exact e

theorem lastOf_spec {h : Heap} : ∀ (f : Nat) {v : Val} {is : List Nat} {xs : List Val}, ListAt h v is xs → xs.length ≤ f + 1 →
    ∀ n, is.getLast? = some n → lastOf h f v = .ptr .cons false n := by
  intro f
  induction f with
  | zero =>
    intro v is xs hl hlen n hn
    cases is with
    | nil => simp at hn
    | cons i is => cases xs with
      | nil => exact hl.elim
      | cons x xs =>
        have hx : xs = [] := by simpa using hlen
        subst hx
        obtain ⟨rfl, d, e, hd⟩ := hl
        have : is = [] := List.length_eq_zero_iff.1 (listAt_len hd)
        subst this
        simp at hn
        simp [lastOf, hn]
  | succ f ih =>
    intro v is xs hl hlen n hn
    cases is with
    | nil => simp at hn
    | cons i is => cases xs with
      | nil => exact hl.elim
      | cons x xs =>
        obtain ⟨rfl, d, e, hd⟩ := hl
        simp only [lastOf, isCons_ptr, if_true, cdr_pair e]
        cases is with
        | nil =>
          cases xs with
          | cons => exact hd.elim
          | nil =>
            have : d = nil := hd
            rw [if_pos this]
            simp at hn
            simp [hn]
        | cons j is =>
          have : d ≠ nil := by
            cases xs with
            | nil => exact hd.elim
            | cons => obtain ⟨rfl, _⟩ := hd; simp [nil]
          rw [if_neg this]
          exact ih hd (by simpa using hlen) n (by simpa [List.getLast?_cons_cons] using hn)

/-! ### Layers -/

/-- One pass over the list: merge sublists of length `k` in pairs. -/
def pass (cmp : Val → Val → Bool) (k : Nat) (xs : List Val) : List Val :=
  if xs = [] ∨ k = 0 then xs
  else List.merge (xs.take k) ((xs.drop k).take k) cmp ++ pass cmp k (xs.drop (k + k))
termination_by xs.length
decreasing_by
  rename_i hh
  have : 0 < xs.length := List.length_pos_iff.2 (fun e => hh (.inl e))
  simp; omega

/-- The passes after the one with sublist length `k`: lengths `2k`, `4k`, ... until one sublist is left. -/
def passes (cmp : Val → Val → Bool) : Nat → Nat → List Val → List Val
  | 0, _, xs => xs
  | fuel + 1, k, xs => if xs.length ≤ k * 2 then xs else passes cmp fuel (k * 2) (pass cmp (k * 2) xs)

theorem pass_perm (cmp : Val → Val → Bool) (k : Nat) : ∀ (n : Nat) (xs : List Val), xs.length = n → (pass cmp k xs).Perm xs := by
  intro n
  induction n using Nat.strongRecOn with
  | ind n ih =>
    intro xs hn
    rw [pass]
    split
    · exact .refl _
    · rename_i hh
      have : 0 < xs.length := List.length_pos_iff.2 (fun e => hh (.inl e))
      have h1 := ih _ (by simp; omega) (xs.drop (k + k)) rfl
      have e : xs = xs.take k ++ ((xs.drop k).take k ++ xs.drop (k + k)) := by
        rw [← List.drop_drop, List.take_append_drop, List.take_append_drop]
      refine (List.Perm.append (List.merge_perm_append (le := cmp)) h1).trans ?_
      rw [List.append_assoc, ← e]

theorem pass_length (cmp : Val → Val → Bool) (k : Nat) (xs : List Val) : (pass cmp k xs).length = xs.length :=
  (pass_perm cmp k _ xs rfl).length_eq

end Verif.Sort
