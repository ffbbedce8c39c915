import Verif.Sort.Model
import Verif.Lists.Props

namespace Verif.Sort
open Verif.Heap Verif.Env Verif.Lists

theorem listAt_poke {h h' : Heap} {c : Nat} {y : Content} {v : Val} {is : List Nat} {xs : List Val} (p : Poke h h' c y)
    (hl : ListAt h v is xs) (hc : c ∉ is) : ListAt h' v is xs :=
  listAt_congr (fun j hj => by rw [p.other j (by rintro rfl; exact hc hj)]) hl

theorem content_poke {h h' : Heap} {c : Nat} {y : Content} (p : Poke h h' c y) {i : Nat} (hc : i ≠ c) :
    (h'.cells i).content = (h.cells i).content := by rw [p.other i hc]

/-- Linking the list `w` behind the last cell of another. -/
theorem listAt_concat {h : Heap} {n : Nat} {w : Val} {js : List Nat} {ys : List Val} (hw : ListAt h w js ys) :
    ∀ {is : List Nat} {xs : List Val} {v y : Val}, ListAt h v (is ++ [n]) (xs ++ [y]) → (is ++ [n]).Nodup → n ∉ js →
    ListAt (setCdr h (.ptr .cons false n) w).1 v (is ++ [n] ++ js) (xs ++ [y] ++ ys) ∧
    Poke h (setCdr h (.ptr .cons false n) w).1 n (.pair y w) := by
  intro is
  induction is with
  | nil =>
    intro xs v y hl hnd hi
    cases xs with
    | nil =>
      obtain ⟨rfl, d, e, hd⟩ := hl
      have p := setCdr_poke (v := w) e
      exact ⟨⟨rfl, _, p.at_, listAt_poke p hw hi⟩, p⟩
    | cons x xs =>
      have := listAt_len hl
      simp at this
  | cons j is ih =>
    intro xs v y hl hnd hi
    cases xs with
    | nil =>
      have := listAt_len hl
      simp at this
    | cons x' xs =>
      obtain ⟨rfl, d, e, hd⟩ := hl
      have hnd' := List.nodup_cons.1 (show (j :: (is ++ [n])).Nodup from hnd)
      obtain ⟨g1, g2⟩ := ih hd hnd'.2 hi
      refine ⟨⟨rfl, d, ?_, g1⟩, g2⟩
      rw [g2.other j]; exact e
      rintro rfl
      exact hnd'.1 (by simp)

/-- A list with a pointer to its last cell. -/
def Seg (h : Heap) (v last : Val) (ps : List Nat) (us : List Val) : Prop :=
  ListAt h v ps us ∧ ∀ n, ps.getLast? = some n → last = .ptr .cons false n

theorem seg_poke {h h' : Heap} {c : Nat} {y : Content} {v last : Val} {is : List Nat} {xs : List Val} (p : Poke h h' c y)
    (hl : Seg h v last is xs) (hc : c ∉ is) : Seg h' v last is xs :=
  ⟨listAt_poke p hl.1 hc, hl.2⟩

theorem listAt_nil_iff {h : Heap} {v : Val} {is : List Nat} {xs : List Val} (hl : ListAt h v is xs) :
    v = nil ↔ xs = [] := by
  cases is with
  | nil => cases xs with
    | nil => simp [show v = nil from hl]
    | cons => exact hl.elim
  | cons i is => cases xs with
    | nil => exact hl.elim
    | cons x xs => obtain ⟨rfl, _⟩ := hl; simp [nil]

/-- Linking a list behind a segment. -/
theorem seg_link {h : Heap} {v last w : Val} {ps js : List Nat} {us ys : List Val} (hs : Seg h v last ps us) (hne : us ≠ [])
    (hnd : ps.Nodup) (hw : ListAt h w js ys) (hd : ∀ c ∈ ps, c ∉ js) :
    ListAt (setCdr h last w).1 v (ps ++ js) (us ++ ys) ∧ ∃ n ∈ ps, ∃ x, Poke h (setCdr h last w).1 n x := by
  have hpne : ps ≠ [] := by
    rintro rfl
    have := listAt_len hs.1
    exact hne (List.length_eq_zero_iff.1 this.symm)
  obtain ⟨ps, n, rfl⟩ : ∃ qs n, ps = qs ++ [n] := ⟨ps.dropLast, ps.getLast hpne, (List.dropLast_append_getLast hpne).symm⟩
  obtain ⟨us, y, rfl⟩ : ∃ qs n, us = qs ++ [n] := ⟨us.dropLast, us.getLast hne, (List.dropLast_append_getLast hne).symm⟩
  have hl := hs.2 n (by simp)
  subst hl
  obtain ⟨g1, g2⟩ := listAt_concat hw hs.1 hnd (hd n (by simp))
  exact ⟨g1, n, by simp, _, g2⟩

/-- Only the cells `ks` may have been written. -/
def Keep (ks : List Nat) (h h' : Heap) : Prop := ∀ c, c ∉ ks → h'.cells c = h.cells c

theorem Keep.refl (ks : List Nat) (h : Heap) : Keep ks h h := fun _ _ => rfl

theorem Keep.trans {ks : List Nat} {h h1 h2 : Heap} (a : Keep ks h h1) (b : Keep ks h1 h2) : Keep ks h h2 :=
  fun c hc => (b c hc).trans (a c hc)

theorem Keep.mono {ks ls : List Nat} {h h1 : Heap} (a : Keep ks h h1) (hs : ∀ k ∈ ks, k ∈ ls) : Keep ls h h1 :=
  fun c hc => a c fun hm => hc (hs c hm)

theorem Keep.poke {ks : List Nat} {h h1 : Heap} {n : Nat} {x : Content} (p : Poke h h1 n x) (hn : n ∈ ks) : Keep ks h h1 :=
  fun c hc => p.other c (by rintro rfl; exact hc hn)

theorem listAt_keep {ks : List Nat} {h h' : Heap} {v : Val} {is : List Nat} {xs : List Val} (p : Keep ks h h')
    (hl : ListAt h v is xs) (hc : ∀ i ∈ is, i ∉ ks) : ListAt h' v is xs :=
  listAt_congr (fun j hj => by rw [p j (hc j hj)]) hl

theorem pushCell_spec {h : Heap} {fr : Frame} {ps : List Nat} {us : List Val} {c : Nat} {z : Val} (hs : Seg h fr.head fr.last ps us)
    (hc : (h.cells c).content = .pair z nil) (hn : c ∉ ps) (hnd : ps.Nodup) :
    Seg (pushCell h fr (.ptr .cons false c)).1 (pushCell h fr (.ptr .cons false c)).2.head
        (pushCell h fr (.ptr .cons false c)).2.last (ps ++ [c]) (us ++ [z]) ∧
      (pushCell h fr (.ptr .cons false c)).2.aRest = fr.aRest ∧ (pushCell h fr (.ptr .cons false c)).2.bRest = fr.bRest ∧
      (pushCell h fr (.ptr .cons false c)).2.a = fr.a ∧
      Keep ps h (pushCell h fr (.ptr .cons false c)).1 := by
  unfold pushCell
  by_cases h0 : fr.head = nil
  · rw [if_pos h0]
    have hu := (listAt_nil_iff hs.1).1 h0
    subst hu
    have hp : ps = [] := List.length_eq_zero_iff.1 (listAt_len hs.1)
    subst hp
    exact ⟨⟨⟨rfl, nil, hc, rfl⟩, fun n hn => by simpa using hn⟩, rfl, rfl, rfl, Keep.refl _ _⟩
  · rw [if_neg h0]
    have hu : us ≠ [] := fun hu => h0 ((listAt_nil_iff hs.1).2 hu)
    obtain ⟨g1, n, hn', x, g2⟩ := seg_link (w := .ptr .cons false c) (js := [c]) (ys := [z]) hs hu hnd ⟨rfl, nil, hc, rfl⟩
      (fun d hd => by simp; rintro rfl; exact hn hd)
    exact ⟨⟨g1, fun m hm => by simpa using hm⟩, rfl, rfl, rfl, .poke g2 hn'⟩

/-- The lists of a merge frame: `us` is already merged, `x` and `y` are being compared. -/
structure MInv (h : Heap) (fr : Frame) (ps : List Nat) (us : List Val) (i j : Nat) (x y : Val) (is : List Nat) (xs : List Val)
    (js : List Nat) (ys : List Val) : Prop where
  acc : Seg h fr.head fr.last ps us
  a : fr.a = .ptr .cons false i
  ci : (h.cells i).content = .pair x (.ptr .cons false j)
  cj : (h.cells j).content = .pair y nil
  ar : ListAt h fr.aRest is xs
  br : ListAt h fr.bRest js ys
  nd : (ps ++ i :: j :: (is ++ js)).Nodup

/-- One comparison with answer "no". -/
theorem mergeRest_false {h : Heap} {fr : Frame} {ps : List Nat} {us : List Val} {i j : Nat} {x y : Val} {is : List Nat}
    {xs : List Val} {js : List Nat} {ys : List Val} (hm : MInv h fr ps us i j x y is xs js ys) :
    Keep (ps ++ i :: j :: (is ++ js)) h (mergeRest h fr false).1 ∧
    match js, ys with
    | [], [] => ∃ v, (mergeRest h fr false).2 = .inl v ∧
        ListAt (mergeRest h fr false).1 v (ps ++ j :: i :: is) (us ++ y :: x :: xs)
    | j' :: js, y' :: ys => ∃ fr', (mergeRest h fr false).2 = .inr fr' ∧
        MInv (mergeRest h fr false).1 fr' (ps ++ [j]) (us ++ [y]) i j' x y' is xs js ys
    | _, _ => False := by
  obtain ⟨hacc, ha, hci, hcj, har, hbr, hnd⟩ := hm
  have hnd0 := hnd
  simp only [List.nodup_append, List.nodup_cons, List.mem_cons, List.mem_append] at hnd
  obtain ⟨n1, ⟨n2, n3, n4⟩, n5⟩ := hnd
  have hij : i ≠ j := by rintro rfl; exact n2 (.inl rfl)
  have hips : i ∉ ps := fun hh => n5 i hh i (.inl rfl) rfl
  have hjps : j ∉ ps := fun hh => n5 j hh j (.inr (.inl rfl)) rfl
  have hiis : i ∉ is := fun hh => n2 (.inr (.inl hh))
  have hijs : i ∉ js := fun hh => n2 (.inr (.inr hh))
  have hjis : j ∉ is := fun hh => n3 (.inl hh)
  have hjjs : j ∉ js := fun hh => n3 (.inr hh)
  have hisps : ∀ c ∈ is, c ∉ ps := fun c hc hh => n5 c hh c (.inr (.inr (.inl hc))) rfl
  have hjsps : ∀ c ∈ js, c ∉ ps := fun c hc hh => n5 c hh c (.inr (.inr (.inr hc))) rfl
  have hisjs : ∀ c ∈ is, c ∉ js := fun c hc hh => n4.2.2 c hc c hh rfl
  have p1 := setCdr_poke (v := nil) hci
  unfold mergeRest
  rw [ha]
  simp only [cdr_pair hci, if_true]
  generalize (setCdr h (.ptr .cons false i) nil).1 = h1 at p1 ⊢
  have s1 := seg_poke p1 hacc hips
  have cj1 : (h1.cells j).content = .pair y nil := by rw [content_poke p1 hij.symm]; exact hcj
  have ar1 := listAt_poke p1 har hiis
  have br1 := listAt_poke p1 hbr hijs
  obtain ⟨s2, e1, e2, e3, k2⟩ := pushCell_spec s1 cj1 hjps n1
  generalize pushCell h1 fr (.ptr .cons false j) = p at s2 e1 e2 e3 k2 ⊢
  obtain ⟨h2, fr2⟩ := p
  simp only at s2 e1 e2 e3 k2 ⊢
  have ci2 : (h2.cells i).content = .pair x nil := by rw [k2 i hips]; exact p1.at_
  have ar2 := listAt_keep k2 ar1 hisps
  have br2 := listAt_keep k2 br1 hjsps
  rw [e1, e2]
  have kk : Keep (ps ++ i :: j :: (is ++ js)) h h2 := (Keep.poke p1 (by simp)).trans (k2.mono (by simp; tauto))
  cases js with
  | nil =>
    cases ys with
    | cons => exact hbr.elim
    | nil =>
      rw [if_pos (show fr.bRest = nil from hbr)]
      have p3 := setCdr_poke (v := fr.aRest) ci2
      generalize (setCdr h2 (.ptr .cons false i) fr.aRest).1 = h3 at p3 ⊢
      have hi3 : ListAt h3 (.ptr .cons false i) (i :: is) (x :: xs) := ⟨rfl, _, p3.at_, listAt_poke p3 ar2 hiis⟩
      have s3 := seg_poke p3 s2 (by simp; exact ⟨hips, hij⟩)
      obtain ⟨g1, n, hn', z, g2⟩ := seg_link s3 (by simp) (by
        rw [List.nodup_append]; refine ⟨n1, by simp, ?_⟩
        intro a ha b hb; simp at hb; subst hb; rintro rfl; exact hjps ha) hi3 (by
        intro c hc hm
        rcases List.mem_append.1 hc with hc | hc <;> rcases List.mem_cons.1 hm with hm | hm
        · subst hm; exact hips hc
        · exact hisps c hm hc
        · simp at hc; subst hc; exact hij hm.symm
        · simp at hc; subst hc; exact hjis hm)
      refine ⟨(kk.trans (.poke p3 (by simp))).trans (.poke g2 (by simp at hn' ⊢; tauto)), _, rfl, by simpa using g1⟩
  | cons j' js =>
    cases ys with
    | nil => exact hbr.elim
    | cons y' ys =>
      obtain ⟨hb, d, hcj', hd⟩ := id br2
      rw [hb] at *
      rw [if_neg (by simp [nil])]
      simp only [cdr_pair hcj']
      have hij' : i ≠ j' := by rintro rfl; exact hijs (by simp)
      have hjs' := (List.nodup_cons.1 n4.2.1)
      have p3 := setCdr_poke (v := nil) hcj'
      generalize (setCdr h2 (.ptr .cons false j') nil).1 = h3 at p3 ⊢
      have ci3 : (h3.cells i).content = .pair x nil := by rw [content_poke p3 hij']; exact ci2
      have p4 := setCdr_poke (v := .ptr .cons false j') ci3
      generalize (setCdr h3 (.ptr .cons false i) (.ptr .cons false j')).1 = h4 at p4 ⊢
      refine ⟨(kk.trans (.poke p3 (by simp))).trans (.poke p4 (by simp)), _, rfl, ?_⟩
      have hj'ps : j' ∉ ps := hjsps j' (by simp)
      have hjj' : j ≠ j' := by rintro rfl; exact hjjs (by simp)
      refine ⟨seg_poke p4 (seg_poke p3 s2 (by simp; exact ⟨hj'ps, hjj'.symm⟩)) (by simp; exact ⟨hips, hij⟩), rfl, p4.at_, ?_, ?_, ?_, ?_⟩
      · rw [content_poke p4 hij'.symm]; exact p3.at_
      · simp only [e1]
        exact listAt_poke p4 (listAt_poke p3 ar2 (fun hh => hisjs _ hh (by simp))) hiis
      · exact listAt_poke p4 (listAt_poke p3 hd hjs'.1) (fun hh => hijs (by simp [hh]))
      · refine hnd0.perm ?_
        rw [List.append_assoc]
        refine List.Perm.append_left ps ?_
        refine (List.Perm.swap j i _).trans ?_
        refine List.Perm.cons j (List.Perm.cons i ?_)
        exact List.perm_middle

/-- One comparison with answer "yes". -/
theorem mergeRest_true {h : Heap} {fr : Frame} {ps : List Nat} {us : List Val} {i j : Nat} {x y : Val} {is : List Nat}
    {xs : List Val} {js : List Nat} {ys : List Val} (hm : MInv h fr ps us i j x y is xs js ys) :
    Keep (ps ++ i :: j :: (is ++ js)) h (mergeRest h fr true).1 ∧
    match is, xs with
    | [], [] => ∃ v, (mergeRest h fr true).2 = .inl v ∧
        ListAt (mergeRest h fr true).1 v (ps ++ i :: j :: js) (us ++ x :: y :: ys)
    | i' :: is, x' :: xs => ∃ fr', (mergeRest h fr true).2 = .inr fr' ∧
        MInv (mergeRest h fr true).1 fr' (ps ++ [i]) (us ++ [x]) i' j x' y is xs js ys
    | _, _ => False := by
  obtain ⟨hacc, ha, hci, hcj, har, hbr, hnd⟩ := hm
  have hnd0 := hnd
  simp only [List.nodup_append, List.nodup_cons, List.mem_cons, List.mem_append] at hnd
  obtain ⟨n1, ⟨n2, n3, n4⟩, n5⟩ := hnd
  have hij : i ≠ j := by rintro rfl; exact n2 (.inl rfl)
  have hips : i ∉ ps := fun hh => n5 i hh i (.inl rfl) rfl
  have hjps : j ∉ ps := fun hh => n5 j hh j (.inr (.inl rfl)) rfl
  have hiis : i ∉ is := fun hh => n2 (.inr (.inl hh))
  have hijs : i ∉ js := fun hh => n2 (.inr (.inr hh))
  have hjis : j ∉ is := fun hh => n3 (.inl hh)
  have hjjs : j ∉ js := fun hh => n3 (.inr hh)
  have hisps : ∀ c ∈ is, c ∉ ps := fun c hc hh => n5 c hh c (.inr (.inr (.inl hc))) rfl
  have hjsps : ∀ c ∈ js, c ∉ ps := fun c hc hh => n5 c hh c (.inr (.inr (.inr hc))) rfl
  have hisjs : ∀ c ∈ is, c ∉ js := fun c hc hh => n4.2.2 c hc c hh rfl
  have p1 := setCdr_poke (v := nil) hci
  unfold mergeRest
  rw [ha]
  simp only [cdr_pair hci, Bool.true_eq_false, if_false]
  generalize (setCdr h (.ptr .cons false i) nil).1 = h1 at p1 ⊢
  have s1 := seg_poke p1 hacc hips
  have cj1 : (h1.cells j).content = .pair y nil := by rw [content_poke p1 hij.symm]; exact hcj
  have ar1 := listAt_poke p1 har hiis
  have br1 := listAt_poke p1 hbr hijs
  obtain ⟨s2, e1, e2, e3, k2⟩ := pushCell_spec s1 p1.at_ hips n1
  generalize pushCell h1 fr (.ptr .cons false i) = p at s2 e1 e2 e3 k2 ⊢
  obtain ⟨h2, fr2⟩ := p
  simp only at s2 e1 e2 e3 k2 ⊢
  have cj2 : (h2.cells j).content = .pair y nil := by rw [k2 j hjps]; exact cj1
  have ar2 := listAt_keep k2 ar1 hisps
  have br2 := listAt_keep k2 br1 hjsps
  rw [e1, e2]
  have kk : Keep (ps ++ i :: j :: (is ++ js)) h h2 := (Keep.poke p1 (by simp)).trans (k2.mono (by simp; tauto))
  cases is with
  | nil =>
    cases xs with
    | cons => exact har.elim
    | nil =>
      rw [if_pos (show fr.aRest = nil from har)]
      have p3 := setCdr_poke (v := fr.bRest) cj2
      generalize (setCdr h2 (.ptr .cons false j) fr.bRest).1 = h3 at p3 ⊢
      have hi3 : ListAt h3 (.ptr .cons false j) (j :: js) (y :: ys) := ⟨rfl, _, p3.at_, listAt_poke p3 br2 hjjs⟩
      have s3 := seg_poke p3 s2 (by simp; exact ⟨hjps, hij.symm⟩)
      obtain ⟨g1, n, hn', z, g2⟩ := seg_link s3 (by simp) (by
        rw [List.nodup_append]; refine ⟨n1, by simp, ?_⟩
        intro a hq b hb; simp at hb; subst hb; rintro rfl; exact hips hq) hi3 (by
        intro c hc hm
        rcases List.mem_append.1 hc with hc | hc <;> rcases List.mem_cons.1 hm with hm | hm
        · subst hm; exact hjps hc
        · exact hjsps c hm hc
        · simp at hc; subst hc; exact hij hm
        · simp at hc; subst hc; exact hijs hm)
      refine ⟨(kk.trans (.poke p3 (by simp))).trans (.poke g2 (by simp at hn' ⊢; tauto)), _, rfl, by simpa using g1⟩
  | cons i' is =>
    cases xs with
    | nil => exact har.elim
    | cons x' xs =>
      obtain ⟨hb, d, hci', hd⟩ := id ar2
      rw [hb] at *
      rw [if_neg (by simp [nil])]
      simp only [cdr_pair hci']
      have hji' : j ≠ i' := by rintro rfl; exact hjis (by simp)
      have hii' : i ≠ i' := by rintro rfl; exact hiis (by simp)
      have his' := (List.nodup_cons.1 n4.1)
      have p3 := setCdr_poke (v := nil) hci'
      generalize (setCdr h2 (.ptr .cons false i') nil).1 = h3 at p3 ⊢
      have p4 := setCdr_poke (v := .ptr .cons false j) p3.at_
      generalize (setCdr h3 (.ptr .cons false i') (.ptr .cons false j)).1 = h4 at p4 ⊢
      refine ⟨(kk.trans (.poke p3 (by simp))).trans (.poke p4 (by simp)), _, rfl, ?_⟩
      have hi'ps : i' ∉ ps := hisps i' (by simp)
      have hi'js : i' ∉ js := hisjs i' (by simp)
      refine ⟨seg_poke p4 (seg_poke p3 s2 (by simp; exact ⟨hi'ps, hii'.symm⟩)) (by simp; exact ⟨hi'ps, hii'.symm⟩), rfl, p4.at_, ?_, ?_, ?_, ?_⟩
      · rw [content_poke p4 hji', content_poke p3 hji']; exact cj2
      · exact listAt_poke p4 (listAt_poke p3 hd his'.1) his'.1
      · simp only [e2]
        exact listAt_poke p4 (listAt_poke p3 br2 hi'js) hi'js
      · refine hnd0.perm ?_
        rw [List.append_assoc]
        refine List.Perm.append_left ps (List.Perm.cons i ?_)
        exact List.Perm.swap i' j _

end Verif.Sort
