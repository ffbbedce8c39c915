import Verif.Sort.Order
import Verif.Env.Props

/-!
C31: `sort` and `merge`.

The comparator is any total function `cmp`; what its evaluation does to the heap is any function `E` that leaves the
cells of the copy being sorted alone (`Safe`): it may allocate, collect garbage (the frames are roots) and write to
any other cell.
-/

namespace Verif.Sort
open Verif.Heap Verif.Env Verif.Lists

variable {cmp : Val → Val → Bool} {E : Nat → Heap → Heap} {R : Val → Val → Prop}

/-- Started in `start`, the machine stops in heap `h'` with value `v`, however many steps it is given beyond some number. -/
def Answers (cmp : Val → Val → Bool) (E : Nat → Heap → Heap) (start : Option (Heap × St)) (h' : Heap) (v : Val) : Prop :=
  ∃ h0 s, start = some (h0, s) ∧ ∃ n, ∀ m ≥ n, run cmp E m 0 h0 s = (h', .done v)

/-- The answer is the list `ys`, made of exactly the `k` first cells of the free list; every other cell, unless the comparator writes
to it, is unchanged. -/
def Fresh (E : Nat → Heap → Heap) (h h' : Heap) (fl : List Nat) (k : Nat) (v : Val) (ys : List Val) : Prop :=
  ∃ qs, ListAt h' v qs ys ∧ qs.Perm (fl.take k) ∧ ∀ c, c ∉ fl.take k → (∀ t h, (E t h).cells c = h.cells c) → h'.cells c = h.cells c

theorem answers_done {h : Heap} {v : Val} {start : Option (Heap × St)} (e : start = some (h, .done v)) : Answers cmp E start h v :=
  ⟨h, _, e, 0, fun m _ => run_done v m 0 h⟩

theorem answers_leads {h0 h' : Heap} {s : St} {v : Val} {t' : Nat} {start : Option (Heap × St)} (e : start = some (h0, s))
    (l : Leads cmp E 0 h0 s t' h' (.done v)) : Answers cmp E start h' v := by
  obtain ⟨n, _, g⟩ := l
  refine ⟨h0, s, e, n, fun m hm => ?_⟩
  obtain ⟨d, rfl⟩ := Nat.exists_eq_add_of_le hm
  rw [g, run_done]

theorem not_merror {h : Heap} {v : Val} {is : List Nat} {xs : List Val} (hl : ListAt h v is xs) : (isSymbol v && v == merror) = false := by
  cases is with
  | nil => cases xs with
    | nil => obtain rfl : v = nil := hl; rfl
    | cons => exact hl.elim
  | cons i is => cases xs with
    | nil => exact hl.elim
    | cons x xs => obtain ⟨rfl, _⟩ := hl; rfl

/-- The list that `sort` computes. -/
def sorted (cmp : Val → Val → Bool) (xs : List Val) : List Val := passes cmp xs.length 1 (pass cmp 1 xs)

theorem sorted_perm (xs : List Val) : (sorted cmp xs).Perm xs := (passes_perm _ _ _).trans (pass_perm _ _ _ _ rfl)

theorem sorted_pairwise (ho : Orders cmp R) (xs : List Val) : (sorted cmp xs).Pairwise R :=
  passes_sorted ho _ _ _ (by omega) (by rw [pass_length]; omega) (pass_chunks ho (by omega) (chunks_one xs))

theorem sorted_stable (hp : Preorder' cmp) (c : Val) (xs : List Val) : (sorted cmp xs).filter (tied cmp c) = xs.filter (tied cmp c) := by
  rw [sorted, passes_stable hp c _ _ _ (by omega) (pass_chunks hp.orders (by omega) (chunks_one xs)), pass_stable hp c _ _ _ rfl (chunks_one xs)]

theorem sorted_short {xs : List Val} (h : xs.length ≤ 1) : sorted cmp xs = xs := by
  match xs, h with
  | [], _ => rw [sorted, pass, if_pos (.inl rfl)]; rfl
  | [x], _ =>
    have : pass cmp 1 [x] = [x] := by rw [pass, if_neg (by simp), pass, if_pos (.inl (by simp))]; simp
    rw [sorted, this]; rfl

theorem isList_live {h : Heap} {fl : List Nat} {l : Val} {xs : List Val} (hl : LiveList h fl l xs) : isList l = true := by
  obtain ⟨is, hc, _⟩ := hl; cases hc <;> rfl

theorem copy_all {h : Heap} {fl : List Nat} {l : Val} {xs : List Val} (hf : FreeOK h fl) (hl : LiveList h fl l xs) (f : Nat)
    (hlen : xs.length < f) :
    (xs.length ≤ fl.length → ∃ h' v, listCopy f h (-1) l = some (h', v, (xs.length : Int)) ∧ ListAt h' v (fl.take xs.length) xs ∧
      Took h h' fl xs.length) ∧ (fl.length < xs.length → listCopy f h (-1) l = some (h, merror, (xs.length : Int))) := by
  have := listCopy_spec hf hl (-1) f hlen
  simpa using this

/-- The machine on a copy of at least two elements. -/
theorem sort_run {h1 : Heap} {i j : Nat} {ts : List Nat} {x y d2 : Val} {zs : List Val} (c1 : (h1.cells i).content = .pair x (.ptr .cons false j))
    (c2 : (h1.cells j).content = .pair y d2) (hrest : ListAt h1 d2 ts zs) (nd : (i :: j :: ts).Nodup) (hs : Safe E (i :: j :: ts)) :
    ∃ t' h' w qs, Leads cmp E 0 (setCdr h1 (.ptr .cons false j) nil).1
        (.merge (some ⟨nil, nil, d2, 1, (x :: y :: zs).length⟩) ⟨nil, nil, .ptr .cons false i, nil, nil⟩) t' h' (.done w) ∧
      ListAt h' w qs (sorted cmp (x :: y :: zs)) ∧ qs.Perm (i :: j :: ts) ∧ Frame' E (i :: j :: ts) h1 h' := by
  have p := setCdr_poke (v := nil) c2
  generalize (setCdr h1 (.ptr .cons false j) nil).1 = h2 at p
  obtain ⟨ni, nj, nts⟩ : i ∉ j :: ts ∧ j ∉ ts ∧ ts.Nodup := by
    have := List.nodup_cons.1 nd
    exact ⟨this.1, List.nodup_cons.1 this.2⟩
  have hij : i ≠ j := by rintro rfl; simp at ni
  have hits : i ∉ ts := fun hm => ni (by simp [hm])
  have mi : MInv h2 ⟨nil, nil, .ptr .cons false i, nil, nil⟩ [] [] i j x y [] [] [] [] :=
    ⟨⟨rfl, by simp⟩, rfl, by rw [content_poke p hij]; exact c1, p.at_, rfl, rfl, by simp [hij]⟩
  have hr2 : ListAt h2 d2 ts zs := listAt_poke p hrest nj
  obtain ⟨t1, h3, r, qs, l1, r1, pm1, f1⟩ := merge_leads (cmp := cmp) hs (some ⟨nil, nil, d2, 1, (x :: y :: zs).length⟩) _ (t := 0) rfl mi
    (fun c hc => by simp at hc ⊢; tauto)
  have hq : ∀ c, c ∈ qs ↔ c = i ∨ c = j := fun c => by simpa using pm1.mem_iff (a := c)
  have li : LInv E (i :: j :: ts) h3 ⟨nil, nil, d2, 1, (x :: y :: zs).length⟩ r [] [] qs (List.merge [x] [y] cmp) ts zs := by
    refine ⟨⟨rfl, by simp⟩, by simpa using r1, ?_, ?_, ?_, ?_, ?_, Nat.one_pos⟩
    · intro hh
      have := congrArg List.length hh
      simp [List.length_merge] at this
    · refine listAt_frame hs f1 hr2 (fun c hc => by simp [hc]) (fun c hc hm => ?_)
      simp at hm
      rcases hm with rfl | rfl
      · exact hits hc
      · exact nj hc
    · simp only [List.nil_append]
      refine List.nodup_append.2 ⟨pm1.nodup_iff.2 (by simp [hij]), nts, fun a ha b hb hab => ?_⟩
      subst hab
      rcases (hq a).1 ha with rfl | rfl
      · exact hits hb
      · exact nj hb
    · intro c hc
      simp only [List.nil_append, List.mem_append] at hc
      rcases hc with hc | hc
      · rcases (hq c).1 hc with rfl | rfl <;> simp
      · simp [hc]
    · simp [List.length_merge]; omega
  obtain ⟨t2, h4, L', r', ps', us', rs', ws', l2, li2, ela, ele, eus, pm2, f2⟩ := pass_leads (cmp := cmp) hs _ (t := t1) rfl li
  obtain ⟨t3, h5, w, qs', l3, r3, pm3, f3⟩ := passes_leads (cmp := cmp) hs (x :: y :: zs).length (t := t2) (by rw [ele, ela]; simp) li2
  have pq : (qs ++ ts).Perm (i :: j :: ts) := by simpa using pm1.append_right ts
  refine ⟨t3, h5, w, qs', l1.trans (l2.trans l3), ?_, (pm3.trans pm2).trans (by simpa using pq), ?_⟩
  · rw [eus, ela] at r3
    have : sorted cmp (x :: y :: zs) = passes cmp (x :: y :: zs).length 1 ([] ++ List.merge [x] [y] cmp ++ pass cmp 1 zs) := by
      rw [sorted, pass, if_neg (by simp)]; rfl
    rw [this]; exact r3
  · intro c hc he
    have n2 : c ∉ ([] : List Nat) ++ qs ++ ts := fun hm => hc (pq.mem_iff.1 (by simpa using hm))
    have g3 := f3 c (fun hm => n2 (pm2.mem_iff.1 hm)) he
    have g2 := f2 c n2 he
    have g1 := f1 c (fun hm => hc (by simp at hm ⊢; tauto)) he
    rw [g3, g2, g1, p.other c (by rintro rfl; simp at hc)]

/-- What `sort` computes, exactly. -/
theorem sort_spec {h : Heap} {fl : List Nat} {l : Val} {xs : List Val} (hf : FreeOK h fl) (hl : LiveList h fl l xs)
    (hroom : xs.length ≤ fl.length) (hs : Safe E (fl.take xs.length)) {f : Nat} (hlen : xs.length < f) :
    ∃ h' v, Answers cmp E (startSort f h l) h' v ∧ Fresh E h h' fl xs.length v (sorted cmp xs) := by
  obtain ⟨h1, v, e, hc, tk⟩ := (copy_all hf hl f hlen).1 hroom
  have nd : (fl.take xs.length).Nodup := hf.2.1.sublist (List.take_sublist _ _)
  have est : startSort f h l = if (xs.length : Int) ≤ 1 then some (h1, .done v) else some ((setCdr h1 (cdr h1 v) nil).1,
      .merge (some ⟨nil, nil, cdr h1 (cdr h1 v), 1, xs.length⟩) ⟨nil, nil, v, nil, nil⟩) := by
    unfold startSort
    rw [if_pos (isList_live hl), e]
    simp only
    rw [not_merror hc, if_neg (by simp)]
    rfl
  by_cases h1len : xs.length ≤ 1
  · rw [if_pos (by omega)] at est
    refine ⟨h1, v, answers_done est, fl.take xs.length, ?_, .refl _, fun c hc _ => tk.same c hc⟩
    rw [sorted_short h1len]; exact hc
  · rw [if_neg (by omega)] at est
    have same := tk.same
    clear tk e hl
    unfold Fresh
    generalize fl.take xs.length = ks at *
    cases xs with
    | nil => simp at h1len
    | cons x xs => cases xs with
      | nil => simp at h1len
      | cons y zs => cases ks with
        | nil => exact (hc : False).elim
        | cons i ks =>
          obtain ⟨rfl, d1, c1, hc⟩ := hc
          cases ks with
          | nil => exact (hc : False).elim
          | cons j ts =>
            obtain ⟨rfl, d2, c2, hrest⟩ := hc
            rw [cdr_pair c1, cdr_pair c2] at est
            obtain ⟨t', h', w, qs, g1, g2, g3, g4⟩ := sort_run (cmp := cmp) c1 c2 hrest nd hs
            exact ⟨h', w, answers_leads est g1, qs, g2, g3, fun c hc he => by rw [g4 c hc he, same c hc]⟩

/-- **C31 (sort).** With memory for one copy of the list, `sort` stops with a fresh list that is a permutation of the argument,
ordered by every order the comparator decides; nothing else is written, so the argument is what it was. -/
theorem C31_sort {h : Heap} {fl : List Nat} {l : Val} {xs : List Val} (hf : FreeOK h fl) (hl : LiveList h fl l xs)
    (hroom : xs.length ≤ fl.length) (hs : Safe E (fl.take xs.length)) :
    ∃ n, ∀ f ≥ n, ∃ h' v ys, Answers cmp E (startSort f h l) h' v ∧ Fresh E h h' fl xs.length v ys ∧ ys.Perm xs ∧
      ∀ R, Orders cmp R → ys.Pairwise R := by
  refine ⟨xs.length + 1, fun f hlen => ?_⟩
  obtain ⟨h', v, ha, hfr⟩ := sort_spec (cmp := cmp) hf hl hroom hs (f := f) hlen
  exact ⟨h', v, _, ha, hfr, sorted_perm xs, fun R ho => sorted_pairwise ho xs⟩

/-- **C31 (sort, `<=`).** If the comparator is a total preorder, the result is ordered by it, and elements that tie keep their order. -/
theorem C31_sort_stable (hp : Preorder' cmp) {h : Heap} {fl : List Nat} {l : Val} {xs : List Val} (hf : FreeOK h fl) (hl : LiveList h fl l xs)
    (hroom : xs.length ≤ fl.length) (hs : Safe E (fl.take xs.length)) :
    ∃ n, ∀ f ≥ n, ∃ h' v ys, Answers cmp E (startSort f h l) h' v ∧ Fresh E h h' fl xs.length v ys ∧ ys.Perm xs ∧
      ys.Pairwise (fun a b => cmp a b = true) ∧ ∀ c, ys.filter (tied cmp c) = xs.filter (tied cmp c) := by
  refine ⟨xs.length + 1, fun f hlen => ?_⟩
  obtain ⟨h', v, ha, hfr⟩ := sort_spec (cmp := cmp) hf hl hroom hs (f := f) hlen
  exact ⟨h', v, _, ha, hfr, sorted_perm xs, sorted_pairwise hp.orders xs, fun c => sorted_stable hp c xs⟩

/-- The comparator is a strict weak order, as `<` is. -/
structure StrictWeak (cmp : Val → Val → Bool) : Prop where
  asymm : ∀ a b, cmp a b = true → cmp b a = false
  cotrans : ∀ a b c, cmp a b = false → cmp b c = false → cmp a c = false

theorem StrictWeak.orders (hp : StrictWeak cmp) : Orders cmp (fun a b => cmp b a = false) :=
  ⟨fun a b c h1 h2 => hp.cotrans _ _ _ h2 h1, fun a b h => hp.asymm _ _ h, fun _ _ h => h⟩

/-- **C31 (sort, `<`).** If the comparator is a strict weak order, no element of the result is before a smaller one. -/
theorem C31_sort_strict (hp : StrictWeak cmp) {h : Heap} {fl : List Nat} {l : Val} {xs : List Val} (hf : FreeOK h fl) (hl : LiveList h fl l xs)
    (hroom : xs.length ≤ fl.length) (hs : Safe E (fl.take xs.length)) :
    ∃ n, ∀ f ≥ n, ∃ h' v ys, Answers cmp E (startSort f h l) h' v ∧ Fresh E h h' fl xs.length v ys ∧ ys.Perm xs ∧
      ys.Pairwise (fun a b => cmp b a = false) := by
  obtain ⟨n, hn⟩ := C31_sort (cmp := cmp) hf hl hroom hs
  refine ⟨n, fun f hf => ?_⟩
  obtain ⟨h', v, ys, h1, h2, h3, h4⟩ := hn f hf
  exact ⟨h', v, ys, h1, h2, h3, h4 _ hp.orders⟩

/-- **C31 (sort, no memory).** Without memory for the copy the answer is the out-of-memory error and nothing is written. (The caller
collects garbage and tries again.) -/
theorem C31_sort_no_memory {h : Heap} {fl : List Nat} {l : Val} {xs : List Val} (hf : FreeOK h fl) (hl : LiveList h fl l xs)
    (hroom : fl.length < xs.length) : ∃ n, ∀ f ≥ n, startSort f h l = some (h, .done merror) := by
  refine ⟨xs.length + 1, fun f hlen => ?_⟩
  unfold startSort
  rw [if_pos (isList_live hl), (copy_all hf hl f hlen).2 hroom]
  rfl

/-- **C31 (merge).** `merge` of two lists, with memory for a copy of each, is a fresh list: a permutation of both together, and if both are
ordered so is the result. If the comparator is a total preorder and the first list is ordered, elements that tie keep their order, those of the first list first. -/
theorem C31_merge {h : Heap} {fl : List Nat} {l m : Val} {xs ys : List Val} (hf : FreeOK h fl) (hl : LiveList h fl l xs) (hm : LiveList h fl m ys)
    (hroom : xs.length + ys.length ≤ fl.length) (hs : Safe E (fl.take (xs.length + ys.length))) :
    ∃ n, ∀ f ≥ n, ∃ h' v zs, Answers cmp E (startMerge f h l m) h' v ∧ Fresh E h h' fl (xs.length + ys.length) v zs ∧ zs.Perm (xs ++ ys) ∧
      (∀ R, Orders cmp R → xs.Pairwise R → ys.Pairwise R → zs.Pairwise R) ∧
      (Preorder' cmp → xs.Pairwise (fun a b => cmp a b = true) →
        ∀ c, zs.filter (tied cmp c) = xs.filter (tied cmp c) ++ ys.filter (tied cmp c)) := by
  refine ⟨xs.length + ys.length + 1, fun f hlen => ?_⟩
  obtain ⟨h1, a, e1, ha, t1⟩ := (copy_all hf hl f (by omega)).1 (by omega)
  obtain ⟨h2, b, e2, hb, t2⟩ := (copy_all t1.free (hm.took t1) f (by omega)).1 (by simp; omega)
  have hks : fl.take (xs.length + ys.length) = fl.take xs.length ++ (fl.drop xs.length).take ys.length := by
    rw [List.take_add]
  have nd : (fl.take (xs.length + ys.length)).Nodup := hf.2.1.sublist (List.take_sublist _ _)
  have ha2 : ListAt h2 a (fl.take xs.length) xs := listAt_congr (fun c hc => by
    rw [t2.same c (fun hm => nodup_take_drop hf.2.1 _ c hc (List.mem_of_mem_take hm))]) ha
  have same : ∀ c, c ∉ fl.take (xs.length + ys.length) → h2.cells c = h.cells c := fun c hc => by
    rw [hks] at hc
    simp only [List.mem_append, not_or] at hc
    rw [t2.same c hc.2, t1.same c hc.1]
  suffices hh : ∃ h' v, Answers cmp E (startMerge f h l m) h' v ∧ Fresh E h h' fl (xs.length + ys.length) v (List.merge xs ys cmp) by
    obtain ⟨h', v, g1, g2⟩ := hh
    exact ⟨h', v, _, g1, g2, List.merge_perm_append .., fun R ho hx hy => merge_sorted ho _ _ _ rfl hx hy,
      fun hp hx c => merge_stable hp c _ _ _ rfl hx⟩
  have est : startMerge f h l m = if (xs.length : Int) = 0 then some (h2, .done b) else if (ys.length : Int) = 0 then some (h2, .done a) else
      some ((setCdr (setCdr h2 a b).1 b nil).1, .merge none ⟨nil, nil, a, cdr h2 a, cdr h2 b⟩) := by
    unfold startMerge
    rw [isList_live hl, isList_live hm, e1]
    simp only [Bool.and_self, if_true]
    rw [not_merror ha, if_neg (by simp), e2]
    simp only
    rw [not_merror hb, if_neg (by simp)]
  by_cases hx : xs = []
  · subst hx
    rw [if_pos (by simp)] at est
    refine ⟨h2, b, answers_done est, fl.take (0 + ys.length), ?_, .refl _, fun c hc _ => same c hc⟩
    simpa using hb
  · rw [if_neg (by simpa using hx)] at est
    by_cases hy : ys = []
    · subst hy
      rw [if_pos (by simp)] at est
      exact ⟨h2, a, answers_done est, fl.take xs.length, by simpa using ha2, .refl _, fun c hc _ => same c hc⟩
    · rw [if_neg (by simpa using hy)] at est
      rw [hks] at nd hs same
      unfold Fresh
      rw [hks]
      clear hroom hlen t1 t2 e1 e2 ha hks hl hm
      generalize fl.take xs.length = ks at *
      generalize (fl.drop xs.length).take ys.length = js at *
      obtain ⟨x, xs, rfl⟩ := List.exists_cons_of_ne_nil hx
      obtain ⟨y, ys, rfl⟩ := List.exists_cons_of_ne_nil hy
      cases ks with
      | nil => exact (ha2 : False).elim
      | cons i is => cases js with
      | nil => exact (hb : False).elim
      | cons j js =>
        obtain ⟨rfl, da, ca, la⟩ := ha2
        obtain ⟨rfl, db, cb, lb⟩ := hb
        obtain ⟨nd1, nd2, dis⟩ := List.nodup_append.1 nd
        have hij : i ≠ j := fun e => dis i (by simp) j (by simp) e
        have ni := List.nodup_cons.1 nd1
        have nj := List.nodup_cons.1 nd2
        have hijs : i ∉ js := fun hm => dis i (by simp) i (by simp [hm]) rfl
        have hjis : j ∉ is := fun hm => dis j (by simp [hm]) j (by simp) rfl
        rw [cdr_pair ca, cdr_pair cb] at est
        have p1 := setCdr_poke (v := .ptr .cons false j) ca
        generalize (setCdr h2 (.ptr .cons false i) (.ptr .cons false j)).1 = h3 at p1 est
        have cb1 : (h3.cells j).content = .pair y db := by rw [content_poke p1 hij.symm]; exact cb
        have p2 := setCdr_poke (v := nil) cb1
        generalize (setCdr h3 (.ptr .cons false j) nil).1 = h4 at p2 est
        have hsub : ∀ c, c ∈ [] ++ i :: j :: (is ++ js) ↔ c ∈ i :: is ++ j :: js := by
          intro c; simp; tauto
        have mi : MInv h4 ⟨nil, nil, .ptr .cons false i, da, db⟩ [] [] i j x y is xs js ys := by
          refine ⟨⟨rfl, by simp⟩, rfl, ?_, p2.at_, ?_, ?_, ?_⟩
          · rw [content_poke p2 hij]; exact p1.at_
          · exact listAt_poke p2 (listAt_poke p1 la ni.1) hjis
          · exact listAt_poke p2 (listAt_poke p1 lb hijs) nj.1
          · simp only [List.nil_append, List.nodup_cons, List.mem_cons, List.mem_append, not_or, List.nodup_append]
            refine ⟨⟨hij, ni.1, hijs⟩, ⟨hjis, nj.1⟩, ni.2, nj.2, ?_⟩
            rintro a ha b hb rfl
            exact dis a (by simp [ha]) a (by simp [hb]) rfl
        obtain ⟨t', h', v, qs, g1, g2, g3, g4⟩ := merge_leads (cmp := cmp) hs none _ (t := 0) rfl mi (fun c hc => (hsub c).1 hc)
        refine ⟨h', v, answers_leads est g1, qs, by simpa using g2, g3.trans ?_, fun c hc he => ?_⟩
        · exact List.Perm.cons i List.perm_middle.symm
        · rw [g4 c (fun hm => hc ((hsub c).1 hm)) he, p2.other c (by rintro rfl; simp at hc), p1.other c (by rintro rfl; simp at hc), same c hc]

/-! ### Where the code does not do what one expects -/

/-- Elements that tie under `<` do not keep their order: the machine takes the second element when the comparator says no, so a
list of two equal elements comes out reversed. -/
theorem C31_sort_unstable_strict {x y : Val} (hc : cmp x y = false) {h : Heap} {fl : List Nat} {l : Val} (hf : FreeOK h fl)
    (hl : LiveList h fl l [x, y]) (hroom : 2 ≤ fl.length) (hs : Safe E (fl.take 2)) :
    ∃ n, ∀ f ≥ n, ∃ h' v, Answers cmp E (startSort f h l) h' v ∧ Fresh E h h' fl 2 v [y, x] := by
  refine ⟨3, fun f hlen => ?_⟩
  obtain ⟨h', v, ha, hfr⟩ := sort_spec (cmp := cmp) hf hl hroom hs (f := f) hlen
  refine ⟨h', v, ha, ?_⟩
  have e : sorted cmp [x, y] = [y, x] := by
    have h1 : pass cmp 1 [x, y] = [y, x] := by
      rw [pass, if_neg (by simp), pass, if_pos (.inl (by simp))]
      simp [List.cons_merge_cons, hc]
    rw [sorted, h1]
    rfl
  rwa [e] at hfr

/-- The parameters of the comparator are bound by assignment in the environment its closure captured: a captured variable that has the name of a
parameter is overwritten for good, for every other closure that shares it. -/
theorem C31_captured_env_violated {h : Heap} {env p1 p2 x y w : Val} {b : List Bind} (he : EnvAt h env b nil) (hnd : (cellsOf b).Nodup)
    (hv : value b p1 = some w) (hv2 : value b p2 ≠ none) (hne : p1 ≠ p2) :
    ∃ n h' b', (∀ f ≥ n, bindParams f h env p1 p2 x y = some (h', env)) ∧ EnvAt h' env b' nil ∧ value b' p1 = some x := by
  obtain ⟨n1, h1, b1, e1, g1, g2, g5, g3, g4, _⟩ := C20_set_bound (key := p1) (val := x) he hnd (by simp [hv])
  have hb : value b1 p2 ≠ none := by
    rw [g5 p2 hne.symm]; exact hv2
  obtain ⟨n2, h2, b2, e2, k1, k2, k3, _⟩ := C20_set_bound (key := p2) (val := y) g1 (by rw [g4]; exact hnd) hb
  refine ⟨max n1 n2, h2, b2, fun f hf => ?_, k1, by rw [k3 p1 hne]; exact g2⟩
  unfold bindParams
  rw [e1 f (by omega)]
  exact e2 f (by omega)

/-! ### Non-vacuity -/

/-- `<=` on small integers, as a comparator. -/
def leCmp : Val → Val → Bool
  | .imm _ a, .imm _ b => a ≤ b
  | .imm _ _, _ => true
  | _, .imm _ _ => false
  | _, _ => true

theorem leCmp_preorder : Preorder' leCmp := by
  refine ⟨fun a b => ?_, fun a b c => ?_⟩
  · cases a <;> cases b <;> simp [leCmp]; omega
  · cases a <;> cases b <;> cases c <;> simp [leCmp]; omega

/-- A comparator whose evaluation writes to a cell of its own. -/
def scribble : Nat → Heap → Heap := fun t h => { h with cells := fun c => if c = 7 then { content := .pair (.imm 0 t) nil } else h.cells c }

theorem scribble_safe : Safe scribble [3, 4, 5] := by
  intro t h c hc
  have : c ≠ 7 := by rintro rfl; simp at hc
  simp [scribble, this]

example : ∃ n, ∀ f ≥ n, ∃ h' v ys, Answers leCmp scribble (startSort f Lists.demo (.ptr .cons false 0)) h' v ∧
    Fresh scribble Lists.demo h' [3, 4, 5, 6, 7] 3 v ys ∧ ys.Perm [.imm 0 1, .imm 0 2, .imm 0 3] ∧ ys.Pairwise (fun a b => leCmp a b = true) := by
  obtain ⟨n, hn⟩ := C31_sort_stable leCmp_preorder (E := scribble) demo_free demo_list (by decide) scribble_safe
  refine ⟨n, fun f hf => ?_⟩
  obtain ⟨h', v, ys, h1, h2, h3, h4, _⟩ := hn f hf
  exact ⟨h', v, ys, h1, h2, h3, h4⟩

example : sorted leCmp [.imm 0 3, .imm 0 1, .imm 0 2, .imm 0 0] = [.imm 0 0, .imm 0 1, .imm 0 2, .imm 0 3] := by
  simp [sorted, pass, passes, List.merge, leCmp]

/-- The machine run on a list of three. -/
example : ((startSort 9 Lists.demo (.ptr .cons false 0)).map fun p => match (run (fun a b => leCmp b a) scribble 20 0 p.1 p.2) with
    | (h', .done v) => (car h' v, car h' (cdr h' v), car h' (cdr h' (cdr h' v)), cdr h' (cdr h' (cdr h' v)))
    | _ => (nil, nil, nil, nil)) = some (.imm 0 3, .imm 0 2, .imm 0 1, nil) := by decide +kernel

example : ∃ n, ∀ f ≥ n, ∃ h' v zs, Answers leCmp scribble (startMerge f Lists.demo (.ptr .cons false 2) (.ptr .cons false 2)) h' v ∧
    Fresh scribble Lists.demo h' [3, 4, 5, 6, 7] 2 v zs := by
  obtain ⟨n, hn⟩ := C31_merge (cmp := leCmp) (E := scribble) demo_free demo_one demo_one (by decide)
    (scribble_safe.mono (by decide))
  refine ⟨n, fun f hf => ?_⟩
  obtain ⟨h', v, ys, h1, h2, _⟩ := hn f hf
  exact ⟨h', v, ys, h1, h2⟩

end Verif.Sort
