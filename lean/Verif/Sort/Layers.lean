import Verif.Sort.Lemmas

namespace Verif.Sort
open Verif.Heap Verif.Env Verif.Lists

variable {cmp : Val → Val → Bool} {E : Nat → Heap → Heap}

theorem seg_frame {ks os : List Nat} (hs : Safe E ks) {h h' : Heap} {v last : Val} {ps : List Nat} {us : List Val}
    (f : Frame' E os h h') (hl : Seg h v last ps us) (hk : ∀ c ∈ ps, c ∈ ks) (hd : ∀ c ∈ ps, c ∉ os) : Seg h' v last ps us :=
  ⟨listAt_congr (fun c hc => by rw [f c (hd c hc) (fun t h => hs t h c (hk c hc))]) hl.1, hl.2⟩

theorem listAt_frame {ks os : List Nat} (hs : Safe E ks) {h h' : Heap} {v : Val} {ps : List Nat} {us : List Val}
    (f : Frame' E os h h') (hl : ListAt h v ps us) (hk : ∀ c ∈ ps, c ∈ ks) (hd : ∀ c ∈ ps, c ∉ os) : ListAt h' v ps us :=
  listAt_congr (fun c hc => by rw [f c (hd c hc) (fun t h => hs t h c (hk c hc))]) hl

/-- Merging the first two sublists of the rest. -/
theorem nextMerge_leads {ks : List Nat} (hs : Safe E ks) {t : Nat} {h : Heap} {L : LFrame} {ts : List Nat} {zs : List Val} {k : Nat}
    (hk : L.layer = k + 1) (hr : ListAt h L.rest ts zs) (hne : zs ≠ []) (hnd : ts.Nodup) (hks : ∀ c ∈ ts, c ∈ ks) :
    ∃ t' h' rest' r rs ts', Leads cmp E t (nextMerge h L).1 (nextMerge h L).2 t' h' (.layer { L with rest := rest' } r) ∧
      ListAt h' r rs (List.merge (zs.take (k + 1)) ((zs.drop (k + 1)).take (k + 1)) cmp) ∧
      ListAt h' rest' ts' (zs.drop (k + 1 + (k + 1))) ∧ (rs ++ ts').Perm ts ∧ Frame' E ts h h' := by
  have hnd1 := hnd
  rw [← List.take_append_drop (k + 1) ts, List.nodup_append] at hnd1
  obtain ⟨hndA, hndB, hdis1⟩ := hnd1
  obtain ⟨a1, a2, a3⟩ := cut_spec k hr hnd
  have a2' := a2
  obtain ⟨b1, b2, b3⟩ := cut_spec k a2 hndB
  have hdis : ∀ c ∈ ts.take (k + 1), c ∉ ts.drop (k + 1) := fun c h1 h2 => hdis1 c h1 c h2 rfl
  have b0 := listAt_keep b3 a1 hdis
  have kk : Keep ts h (cut (cut h (k + 1) L.rest).1 (k + 1) (cut h (k + 1) L.rest).2).1 :=
    a3.trans (b3.mono fun c hc => List.mem_of_mem_drop hc)
  unfold nextMerge
  rw [hk]
  simp only
  generalize hq : cut (cut h (k + 1) L.rest).1 (k + 1) (cut h (k + 1) L.rest).2 = q at b0 b1 b2 b3 kk ⊢
  generalize cut h (k + 1) L.rest = p at a1 a2 a3 b1 b3 ⊢
  rw [List.drop_drop] at b2
  rw [List.drop_drop] at b2
  by_cases hb : p.2 = nil
  · rw [if_pos hb]
    have hz := (listAt_nil_iff a2).1 hb
    have ht0 : ts.drop (k + 1) = [] := List.length_eq_zero_iff.1 (by rw [listAt_len a2, hz]; rfl)
    refine ⟨t, q.1, q.2, L.rest, ts.take (k + 1), _, Leads.refl _ _ _, ?_, b2, ?_, .keep kk⟩
    · rw [hz]
      simpa using b0
    · have e : ts.drop (k + 1 + (k + 1)) = [] := by rw [← List.drop_drop, ht0]; rfl
      rw [e, List.append_nil]
      have := List.take_append_drop (k + 1) ts
      rw [ht0, List.append_nil] at this
      rw [this]
  · rw [if_neg hb]
    have hzb : zs.drop (k + 1) ≠ [] := fun e => hb ((listAt_nil_iff a2).2 e)
    -- name the heads
    obtain ⟨i, is, ei⟩ : ∃ i is, ts.take (k + 1) = i :: is := by
      cases hq : ts.take (k + 1) with
      | nil =>
        have := listAt_len b0
        rw [hq] at this
        have : zs = [] := by
          cases zs with
          | nil => rfl
          | cons => simp at this
        exact absurd this hne
      | cons i is => exact ⟨i, is, rfl⟩
    obtain ⟨x, xs, ex⟩ : ∃ i is, zs.take (k + 1) = i :: is := by
      cases hq : zs.take (k + 1) with
      | nil => cases zs with
        | nil => exact absurd rfl hne
        | cons => simp at hq
      | cons i is => exact ⟨i, is, rfl⟩
    obtain ⟨j, js, ej⟩ : ∃ i is, (ts.drop (k + 1)).take (k + 1) = i :: is := by
      cases hq : (ts.drop (k + 1)).take (k + 1) with
      | nil =>
        have := listAt_len a2
        cases hq2 : ts.drop (k + 1) with
        | nil => rw [hq2] at this; exact absurd (List.length_eq_zero_iff.1 this.symm) hzb
        | cons => rw [hq2] at hq; simp at hq
      | cons i is => exact ⟨i, is, rfl⟩
    obtain ⟨y, ys, ey⟩ : ∃ i is, (zs.drop (k + 1)).take (k + 1) = i :: is := by
      cases hq : (zs.drop (k + 1)).take (k + 1) with
      | nil => cases hq2 : zs.drop (k + 1) with
        | nil => exact absurd hq2 hzb
        | cons => rw [hq2] at hq; simp at hq
      | cons i is => exact ⟨i, is, rfl⟩
    have etail : ts.drop (k + 1) = j :: js ++ ts.drop (k + 1 + (k + 1)) := by
      conv => lhs; rw [← List.take_append_drop (k + 1) (ts.drop (k + 1))]
      rw [ej, List.drop_drop]
    have ets : ts = i :: is ++ (j :: js ++ ts.drop (k + 1 + (k + 1))) := by
      rw [← ei, ← etail, List.take_append_drop]
    rw [ei, ex] at b0
    rw [ej, ey] at b1
    rw [ex, ey]
    obtain ⟨ea, da, ca, la⟩ := b0
    obtain ⟨eb, db, cb, lb⟩ := b1
    rw [ea, eb] at *
    rw [ei, etail] at hdis
    rw [ei] at hndA
    rw [etail, List.nodup_append] at hndB
    obtain ⟨ndj, ndt, hdis2⟩ := hndB
    have ndi := List.nodup_cons.1 hndA
    have ndj' := List.nodup_cons.1 ndj
    have hij : i ≠ j := by rintro rfl; exact hdis i (by simp) (by simp)
    simp only [cdr_pair ca, cdr_pair cb]
    have p1 := setCdr_poke (v := .ptr .cons false j) ca
    generalize (setCdr q.1 (.ptr .cons false i) (.ptr .cons false j)).1 = h1 at p1 ⊢
    have cb1 : (h1.cells j).content = .pair y db := by rw [content_poke p1 hij.symm]; exact cb
    have p2 := setCdr_poke (v := nil) cb1
    generalize (setCdr h1 (.ptr .cons false j) nil).1 = h2 at p2 ⊢
    have hiis : i ∉ is := ndi.1
    have hijs : i ∉ js := fun hm => hdis i (by simp) (by simp [hm])
    have hjis : j ∉ is := fun hm => hdis j (by simp [hm]) (by simp)
    have hjjs : j ∉ js := ndj'.1
    have mi : MInv h2 ⟨nil, nil, .ptr .cons false i, da, db⟩ [] [] i j x y is xs js ys := by
      refine ⟨⟨rfl, by simp⟩, rfl, ?_, p2.at_, ?_, ?_, ?_⟩
      · rw [content_poke p2 hij]; exact p1.at_
      · exact listAt_poke p2 (listAt_poke p1 la hiis) hjis
      · exact listAt_poke p2 (listAt_poke p1 lb hijs) hjjs
      · simp only [List.nil_append, List.nodup_cons, List.mem_cons, List.mem_append, not_or, List.nodup_append]
        refine ⟨⟨hij, hiis, hijs⟩, ⟨hjis, hjjs⟩, ndi.2, ndj'.2, ?_⟩
        rintro a ha b hb rfl
        exact hdis a (by simp [ha]) (by simp [hb])
    have hsub : ∀ c ∈ [] ++ i :: j :: (is ++ js), c ∈ ts := by
      intro c hc
      rw [ets]
      simp at hc ⊢
      tauto
    obtain ⟨t', h', v, qs, g1, g2, g3, g4⟩ := merge_leads (cmp := cmp) hs (some { L with rest := q.2 }) _ (t := t) rfl mi
      (fun c hc => hks c (hsub c hc))
    have f2 : Frame' E ts h h2 := (Frame'.keep (kk.trans ((Keep.poke p1 (hsub i (by simp))).trans (Keep.poke p2 (hsub j (by simp))))))
    have pm : (i :: j :: (is ++ js) ++ ts.drop (k + 1 + (k + 1))).Perm ts := by
      conv => rhs; rw [ets]
      simp only [List.cons_append, List.append_assoc]
      exact List.Perm.cons i List.perm_middle.symm
    refine ⟨t', h', q.2, v, qs, ts.drop (k + 1 + (k + 1)), ?_, by simpa using g2, ?_, ?_, f2.trans (g4.mono hsub)⟩
    · simpa [hk, afterMerge] using g1
    · have hd3 : ∀ c ∈ ts.drop (k + 1 + (k + 1)), c ∉ [] ++ i :: j :: (is ++ js) := by
        intro c hc hm
        simp at hm
        rcases hm with rfl | rfl | hm | hm
        · exact hdis c (by simp) (by simp [hc])
        · exact hdis2 c (by simp) c hc rfl
        · exact hdis c (by simp [hm]) (by simp [hc])
        · exact hdis2 c (by simp [hm]) c hc rfl
      have b3' : ListAt h2 q.2 (ts.drop (k + 1 + (k + 1))) (zs.drop (k + 1 + (k + 1))) :=
        listAt_poke p2 (listAt_poke p1 b2 (fun hm => hd3 i hm (by simp))) (fun hm => hd3 j hm (by simp))
      exact listAt_frame hs g4 b3' (fun c hc => hks c (List.mem_of_mem_drop hc)) hd3
    · exact (g3.append_right _).trans (by simpa using pm)

/-- The lists at `MERGE_LAYER`. -/
structure LInv (E : Nat → Heap → Heap) (ks : List Nat) (h : Heap) (L : LFrame) (r : Val) (ps : List Nat) (us : List Val) (rs : List Nat)
    (ws : List Val) (ts : List Nat) (zs : List Val) : Prop where
  acc : Seg h L.acc L.accLast ps us
  r : ListAt h r rs ws
  rne : ws ≠ []
  rest : ListAt h L.rest ts zs
  nd : (ps ++ rs ++ ts).Nodup
  own : ∀ c ∈ ps ++ rs ++ ts, c ∈ ks
  len : L.len = (us ++ ws ++ zs).length
  pos : 0 < L.layer

theorem accum_spec {ks : List Nat} {h : Heap} {L : LFrame} {r : Val} {ps : List Nat} {us : List Val} {rs : List Nat}
    {ws : List Val} {ts : List Nat} {zs : List Val} (hi : LInv E ks h L r ps us rs ws ts zs) :
    Seg (accum h L r).1 (accum h L r).2.acc (accum h L r).2.accLast (ps ++ rs) (us ++ ws) ∧
    (accum h L r).2.rest = L.rest ∧ (accum h L r).2.layer = L.layer ∧ (accum h L r).2.len = L.len ∧
    Keep ps h (accum h L r).1 := by
  obtain ⟨hacc, hr, hrne, hrest, hnd, hown, hlen, hpos⟩ := hi
  rw [List.nodup_append, List.nodup_append] at hnd
  obtain ⟨⟨n1, n2, n3⟩, n4, n5⟩ := hnd
  have hrs : rs ≠ [] := by
    rintro rfl
    exact hrne (List.length_eq_zero_iff.1 (listAt_len hr).symm)
  have hlast : ∀ n, (ps ++ rs).getLast? = some n → lastOf h L.len r = .ptr .cons false n := by
    intro n hn
    refine lastOf_spec L.len hr (by rw [hlen]; simp; omega) n ?_
    rw [List.getLast?_append] at hn
    rw [List.getLast?_eq_some_getLast hrs] at hn ⊢
    simpa using hn
  unfold accum
  by_cases h0 : L.acc = nil
  · rw [if_pos h0]
    have hu := (listAt_nil_iff hacc.1).1 h0
    subst hu
    have hp : ps = [] := List.length_eq_zero_iff.1 (listAt_len hacc.1)
    subst hp
    exact ⟨⟨by simpa using hr, hlast⟩, rfl, rfl, rfl, Keep.refl _ _⟩
  · rw [if_neg h0]
    have hu : us ≠ [] := fun hu => h0 ((listAt_nil_iff hacc.1).2 hu)
    obtain ⟨g1, n, hn', x, g2⟩ := seg_link hacc hu n1 hr (fun c hc hm => n3 c hc c hm rfl)
    exact ⟨⟨g1, hlast⟩, rfl, rfl, rfl, .poke g2 hn'⟩

/-- Finishing a pass: everything in the rest is merged pairwise. -/
theorem pass_leads {ks : List Nat} (hs : Safe E ks) : ∀ (n : Nat) {t : Nat} {h : Heap} {L : LFrame} {r : Val} {ps : List Nat} {us : List Val}
    {rs : List Nat} {ws : List Val} {ts : List Nat} {zs : List Val}, zs.length = n → LInv E ks h L r ps us rs ws ts zs →
    ∃ t' h' L' r' ps' us' rs' ws', Leads cmp E t h (.layer L r) t' h' (.layer L' r') ∧
      LInv E ks h' L' r' ps' us' rs' ws' [] [] ∧ L'.layer = L.layer ∧ L'.len = L.len ∧
      us' ++ ws' = us ++ ws ++ pass cmp L.layer zs ∧ (ps' ++ rs').Perm (ps ++ rs ++ ts) ∧ Frame' E (ps ++ rs ++ ts) h h' := by
  intro n
  induction n using Nat.strongRecOn with
  | ind n ih =>
    intro t h L r ps us rs ws ts zs hn hi
    by_cases hz : zs = []
    · subst hz
      have : ts = [] := List.length_eq_zero_iff.1 (listAt_len hi.rest)
      subst this
      refine ⟨t, h, L, r, ps, us, rs, ws, Leads.refl _ _ _, hi, rfl, rfl, ?_, by simp, Frame'.refl _ _⟩
      rw [pass, if_pos (.inl rfl)]; simp
    · obtain ⟨k, hk⟩ := Nat.exists_eq_succ_of_ne_zero (Nat.pos_iff_ne_zero.1 hi.pos)
      obtain ⟨s1, e1, e2, e3, k1⟩ := accum_spec hi
      have hnd := hi.nd
      have hnd0 := hnd
      rw [List.nodup_append] at hnd
      obtain ⟨n1, n2, n3⟩ := hnd
      have hrest : L.rest ≠ nil := fun e => hz ((listAt_nil_iff hi.rest).1 e)
      have l1 := Leads.one (cmp := cmp) (E := E) t h (.layer L r)
      simp only [step, mergeLayer, e1, if_neg hrest] at l1
      generalize accum h L r = p at s1 e1 e2 e3 k1 l1
      have rest1 : ListAt p.1 p.2.rest ts zs := by
        rw [e1]
        exact listAt_keep k1 hi.rest (fun c hc hm => n3 c (by simp [hm]) c hc rfl)
      obtain ⟨t2, h2, rest', r2, rs2, ts2, g1, g2, g3, g4, g5⟩ := nextMerge_leads (cmp := cmp) hs (t := t + 1) (by rw [e2]; exact hk) rest1 hz n2
        (fun c hc => hi.own c (by simp [hc]))
      have s2 := seg_frame hs g5 s1 (fun c hc => hi.own c (by simp at hc ⊢; tauto)) (fun c hc hm => n3 c hc c hm rfl)
      have pm : (ps ++ rs ++ rs2 ++ ts2).Perm (ps ++ rs ++ ts) := by
        rw [List.append_assoc]; exact List.Perm.append_left _ g4
      have hmlen : (List.merge (zs.take (k + 1)) ((zs.drop (k + 1)).take (k + 1)) cmp).length + (zs.drop (k + 1 + (k + 1))).length = zs.length := by
        rw [List.length_merge]; simp; omega
      have hzpos : 0 < zs.length := List.length_pos_iff.2 hz
      have hi2 : LInv E ks h2 { p.2 with rest := rest' } r2 (ps ++ rs) (us ++ ws) rs2 (List.merge (zs.take (k + 1)) ((zs.drop (k + 1)).take (k + 1)) cmp) ts2
          (zs.drop (k + 1 + (k + 1))) := by
        refine ⟨s2, g2, ?_, g3, pm.nodup_iff.2 hnd0, fun c hc => hi.own c (pm.mem_iff.1 hc), ?_, ?_⟩
        · intro e
          have := congrArg List.length e
          rw [List.length_merge, List.length_take, List.length_take, List.length_drop] at this
          simp only [List.length_nil] at this; omega
        · show p.2.len = _
          rw [e3, hi.len]
          simp only [List.length_append] at hmlen ⊢
          omega
        · show 0 < p.2.layer
          rw [e2]; exact hi.pos
      obtain ⟨t3, h3, L3, r3, ps3, us3, rs3, ws3, a1, a2, a3, a4, a5, a6, a7⟩ := ih _ (by rw [← hn, List.length_drop]; omega) (t := t2) rfl hi2
      refine ⟨t3, h3, L3, r3, ps3, us3, rs3, ws3, (l1.trans g1).trans a1, a2, ?_, ?_, ?_, a6.trans pm, ?_⟩
      · rw [a3]; exact e2
      · rw [a4]; exact e3
      · rw [a5]
        have hl2 : L.layer = k + 1 := hk
        show us ++ ws ++ _ ++ pass cmp p.2.layer _ = us ++ ws ++ pass cmp L.layer zs
        rw [e2, hl2]
        conv => rhs; rw [pass, if_neg (by simp [hz])]
        simp
      · refine (Frame'.keep (k1.mono (by simp; tauto))).trans ((g5.mono (by simp; tauto)).trans (a7.mono fun c hc => pm.mem_iff.1 hc))

/-- The remaining passes. -/
theorem passes_leads {ks : List Nat} (hs : Safe E ks) : ∀ (fuel : Nat) {t : Nat} {h : Heap} {L : LFrame} {r : Val} {ps : List Nat} {us : List Val}
    {rs : List Nat} {ws : List Val}, L.len ≤ L.layer * 2 + fuel → LInv E ks h L r ps us rs ws [] [] →
    ∃ t' h' v qs, Leads cmp E t h (.layer L r) t' h' (.done v) ∧ ListAt h' v qs (passes cmp fuel L.layer (us ++ ws)) ∧
      qs.Perm (ps ++ rs) ∧ Frame' E (ps ++ rs) h h' := by
  intro fuel
  induction fuel with
  | zero =>
    intro t h L r ps us rs ws hlen hi
    obtain ⟨s1, e1, e2, e3, k1⟩ := accum_spec hi
    have hrest : L.rest = nil := hi.rest
    have l1 := Leads.one (cmp := cmp) (E := E) t h (.layer L r)
    simp only [step, mergeLayer, e1, e2, e3, if_pos hrest, if_pos (show L.len ≤ L.layer * 2 from hlen)] at l1
    exact ⟨_, _, _, _, l1, s1.1, .refl _, .keep (k1.mono (by simp; tauto))⟩
  | succ fuel ih =>
    intro t h L r ps us rs ws hlen hi
    obtain ⟨s1, e1, e2, e3, k1⟩ := accum_spec hi
    have hrest : L.rest = nil := hi.rest
    have hlx : L.len = (us ++ ws).length := by rw [hi.len]; simp
    have l1 := Leads.one (cmp := cmp) (E := E) t h (.layer L r)
    by_cases hd : L.len ≤ L.layer * 2
    · simp only [step, mergeLayer, e1, e2, e3, if_pos hrest, if_pos hd] at l1
      refine ⟨_, _, _, _, l1, ?_, .refl _, .keep (k1.mono (by simp; tauto))⟩
      rw [passes, if_pos (by rw [← hlx]; exact hd)]
      exact s1.1
    · simp only [step, mergeLayer, e1, e2, e3, if_pos hrest, if_neg hd] at l1
      generalize accum h L r = p at s1 e1 e2 e3 k1 l1
      have hpos := hi.pos
      obtain ⟨k, hk⟩ : ∃ k, L.layer * 2 = k + 1 := ⟨L.layer * 2 - 1, by omega⟩
      have hnd := hi.nd
      rw [List.append_nil] at hnd
      have hne : us ++ ws ≠ [] := by simp [hi.rne]
      have hown : ∀ c ∈ ps ++ rs, c ∈ ks := fun c hc => hi.own c (by simpa using hc)
      obtain ⟨t2, h2, rest', r2, rs2, ts2, g1, g2, g3, g4, g5⟩ := nextMerge_leads (cmp := cmp) hs (t := t + 1)
        (h := p.1) (L := { p.2 with layer := L.layer * 2, rest := p.2.acc, acc := nil, accLast := nil, len := L.len }) hk s1.1 hne hnd hown
      have hmlen : (List.merge ((us ++ ws).take (k + 1)) (((us ++ ws).drop (k + 1)).take (k + 1)) cmp).length + ((us ++ ws).drop (k + 1 + (k + 1))).length = (us ++ ws).length := by
        rw [List.length_merge, List.length_take, List.length_take, List.length_drop, List.length_drop]; omega
      have hzpos : 0 < (us ++ ws).length := List.length_pos_iff.2 hne
      have l1' : Leads cmp E t h (.layer L r) (t + 1)
          (nextMerge p.1 { p.2 with layer := L.layer * 2, rest := p.2.acc, acc := nil, accLast := nil, len := L.len }).1
          (nextMerge p.1 { p.2 with layer := L.layer * 2, rest := p.2.acc, acc := nil, accLast := nil, len := L.len }).2 := by
        simpa using l1
      have hi2 : LInv E ks h2 { p.2 with layer := L.layer * 2, rest := rest', acc := nil, accLast := nil, len := L.len } r2 [] [] rs2
          (List.merge ((us ++ ws).take (k + 1)) (((us ++ ws).drop (k + 1)).take (k + 1)) cmp) ts2 ((us ++ ws).drop (k + 1 + (k + 1))) := by
        refine ⟨⟨rfl, by simp⟩, g2, ?_, g3, by simpa using g4.nodup_iff.2 hnd, fun c hc => hown c (g4.mem_iff.1 (by simpa using hc)), ?_, ?_⟩
        · intro e
          have := congrArg List.length e
          rw [List.length_merge, List.length_take, List.length_take, List.length_drop] at this
          simp only [List.length_nil] at this; omega
        · show L.len = _
          rw [hlx, ← hmlen]; simp
        · show 0 < L.layer * 2
          omega
      obtain ⟨t3, h3, L3, r3, ps3, us3, rs3, ws3, a1, a2, a3, a4, a5, a6, a7⟩ := pass_leads (cmp := cmp) hs _ (t := t2) rfl hi2
      have hl3 : L3.layer = L.layer * 2 := a3
      have hn3 : L3.len = L.len := a4
      obtain ⟨t4, h4, v, qs, b1, b2, b3, b4⟩ := ih (t := t3) (by rw [hl3, hn3]; omega) a2
      have pm3 : (ps3 ++ rs3).Perm (ps ++ rs) := a6.trans (by simpa using g4)
      refine ⟨t4, h4, v, qs, (l1'.trans g1).trans (a1.trans b1), ?_, b3.trans pm3, ?_⟩
      · rw [passes, if_neg (by rw [← hlx]; exact hd)]
        have ex : us3 ++ ws3 = pass cmp (L.layer * 2) (us ++ ws) := by
          rw [a5]
          show [] ++ _ ++ pass cmp (L.layer * 2) _ = _
          conv => rhs; rw [pass, if_neg (by simp [hi.rne]; omega)]
          rw [hk]; simp
        rw [← ex, ← hl3]
        exact b2
      · refine (Frame'.keep (k1.mono (by simp; tauto))).trans ((g5.trans (a7.mono fun c hc => ?_)).trans (b4.mono fun c hc => pm3.mem_iff.1 hc))
        exact g4.mem_iff.1 (by simpa using hc)

end Verif.Sort
