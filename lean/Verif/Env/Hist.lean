import Verif.Env.Lemmas

/-! The invariant of the global environment, and its preservation by every operation. -/

namespace Verif.Env
open Verif.Heap

theorem bucket_lt (s : Nat) : bucket s < 32 := Nat.lt_of_le_of_lt Nat.and_le_right (by decide)

/-- The bindings `L k` of bucket `k`, for all buckets, and the free cells `fl` represent the map `m`. -/
structure Rep (st : GState) (m : Nat → Option Val) (L : Nat → List Bind) (fl : List Nat) : Prop where
  free : FreeOK st.heap fl
  env : ∀ k, EnvAt st.heap (st.glob k) (L k) nil
  nodup : ∀ k, (cellsOf (L k)).Nodup
  disj : ∀ k j c, c ∈ cellsOf (L k) → c ∈ cellsOf (L j) → k = j
  notFree : ∀ k c, c ∈ cellsOf (L k) → c ∉ fl
  keys : ∀ k, ∀ key ∈ (L k).map (·.key), ∃ s, key = .sym s ∧ bucket s = k
  once : ∀ k, ((L k).map (·.key)).Nodup
  map : ∀ s, m s = value (L (bucket s)) (.sym s)

theorem Rep.cell {st : GState} {m : Nat → Option Val} {L : Nat → List Bind} {fl : List Nat} (r : Rep st m L fl)
    {k c : Nat} : EnvCell st.heap (st.glob k) c ↔ c ∈ cellsOf (L k) :=
  ⟨fun h => cell_envAt h rfl (r.env k), envAt_cell (r.env k) c⟩

/-- One bucket is replaced, using only its own cells and free cells. -/
theorem Rep.bucket {st : GState} {m m' : Nat → Option Val} {L : Nat → List Bind} {fl fl' : List Nat} (r : Rep st m L fl)
    {h' : Heap} {k : Nat} {v' : Val} {l' : List Bind}
    (henv : EnvAt h' v' l' nil) (hfree : FreeOK h' fl') (hsub : ∀ c ∈ fl', c ∈ fl)
    (hcells : ∀ c ∈ cellsOf l', c ∈ cellsOf (L k) ∨ c ∈ fl) (hnf : ∀ c ∈ cellsOf l', c ∉ fl') (hnd : (cellsOf l').Nodup)
    (hkeys : ∀ key ∈ l'.map (·.key), ∃ s, key = .sym s ∧ Verif.Env.bucket s = k) (honce : (l'.map (·.key)).Nodup)
    (hsame : ∀ c, c ∉ cellsOf (L k) → c ∉ fl → (h'.cells c).content = (st.heap.cells c).content)
    (hmap : ∀ s, m' s = if Verif.Env.bucket s = k then value l' (.sym s) else m s) :
    Rep ⟨h', st.glob.set k v'⟩ m' (fun j => if j = k then l' else L j) fl' := by
  refine ⟨hfree, ?_, ?_, ?_, ?_, ?_, ?_, ?_⟩
  · intro j
    show EnvAt h' (st.glob.set k v' j) _ _
    by_cases hj : j = k
    · simp only [Glob.set, hj, if_true]; exact henv
    · simp only [Glob.set, hj, if_false]
      refine envAt_congr (fun c hc => hsame c (fun h => hj (r.disj j k c hc h)) (r.notFree j c hc)) (r.env j)
  · intro j
    by_cases hj : j = k
    · simp only [hj, if_true]; exact hnd
    · simp only [hj, if_false]; exact r.nodup j
  · intro i j c hi hj
    by_cases h1 : i = k <;> by_cases h2 : j = k <;> simp only [h1, h2, if_true, if_false] at hi hj
    · rw [h1, h2]
    · rcases hcells c hi with h | h
      · exact absurd (r.disj j k c hj h) h2
      · exact absurd h (r.notFree j c hj)
    · rcases hcells c hj with h | h
      · exact absurd (r.disj i k c hi h) h1
      · exact absurd h (r.notFree i c hi)
    · exact r.disj i j c hi hj
  · intro j c hc
    by_cases hj : j = k
    · simp only [hj, if_true] at hc; exact hnf c hc
    · simp only [hj, if_false] at hc; exact fun h => r.notFree j c hc (hsub c h)
  · intro j
    by_cases hj : j = k
    · simp only [hj, if_true]; exact hkeys
    · simp only [hj, if_false]; exact r.keys j
  · intro j
    by_cases hj : j = k
    · simp only [hj, if_true]; exact honce
    · simp only [hj, if_false]; exact r.once j
  · intro s
    rw [hmap s]
    by_cases hj : Verif.Env.bucket s = k
    · simp only [hj, if_true]
    · simp only [hj, if_false]; exact r.map s

theorem bucket_mod (s : Nat) : Verif.Env.bucket s = s % 32 := Nat.and_two_pow_sub_one_eq_mod s 5

/-- One bucket is replaced by an environment that fits. -/
theorem Rep.put {st : GState} {m : Nat → Option Val} {L : Nat → List Bind} {fl : List Nat} (r : Rep st m L fl)
    {k : Nat} {v : Val} {l : List Bind} (hf : Fits st k v l) :
    Rep ⟨st.heap, st.glob.set k v⟩ (fun s => if s % 32 = k then value l (.sym s) else m s)
      (fun j => if j = k then l else L j) fl := by
  obtain ⟨fl', hfl', hnf⟩ := hf.used
  obtain rfl := freeOK_unique r.free hfl'
  have hoth : ∀ c ∈ cellsOf l, ∀ j, j ≠ k → c ∉ cellsOf (L j) := fun c hc j hj hm =>
    hf.others c hc j hj (r.cell.2 hm)
  refine ⟨r.free, ?_, ?_, ?_, ?_, ?_, ?_, ?_⟩
  · intro j
    show EnvAt st.heap (st.glob.set k v j) _ _
    by_cases hj : j = k
    · simp only [Glob.set, hj, if_true]; exact hf.env
    · simp only [Glob.set, hj, if_false]; exact r.env j
  · intro j
    by_cases hj : j = k
    · simp only [hj, if_true]; exact hf.nodup
    · simp only [hj, if_false]; exact r.nodup j
  · intro i j c hi hj
    by_cases h1 : i = k <;> by_cases h2 : j = k <;> simp only [h1, h2, if_true, if_false] at hi hj
    · rw [h1, h2]
    · exact absurd hj (hoth c hi j h2)
    · exact absurd hi (hoth c hj i h1)
    · exact r.disj i j c hi hj
  · intro j c hc
    by_cases hj : j = k
    · simp only [hj, if_true] at hc; exact hnf c hc
    · simp only [hj, if_false] at hc; exact r.notFree j c hc
  · intro j key hkey
    by_cases hj : j = k
    · simp only [hj, if_true] at hkey ⊢
      obtain ⟨b, hb, rfl⟩ := List.mem_map.1 hkey
      obtain ⟨s, e, hs⟩ := hf.keys b hb
      exact ⟨s, e, by rw [bucket_mod]; exact hs⟩
    · simp only [hj, if_false] at hkey; exact r.keys j key hkey
  · intro j
    by_cases hj : j = k
    · simp only [hj, if_true]; exact hf.once
    · simp only [hj, if_false]; exact r.once j
  · intro s
    rw [bucket_mod]
    by_cases hj : s % 32 = k
    · simp only [hj, if_true]
    · simp only [hj, if_false]; rw [r.map s, bucket_mod]

theorem set_same (g : Glob) (k : Nat) : g.set k (g k) = g := by
  funext j; simp only [Glob.set]; split
  · next h => rw [h]
  · rfl

theorem Rep.outside {st st' : GState} {m : Nat → Option Val} {L : Nat → List Bind} {fl : List Nat} (r : Rep st m L fl)
    (ho : Outside st st') : ∃ fl', Rep st' m L fl' := by
  obtain ⟨hg, hc, fl', hf, hn⟩ := ho
  refine ⟨fl', hf, ?_, r.nodup, r.disj, ?_, r.keys, r.once, r.map⟩
  · intro k
    rw [hg]
    exact envAt_congr (fun c h => hc k c (r.cell.2 h)) (r.env k)
  · intro k c h
    exact hn k c (r.cell.2 h)

theorem Rep.fresh {st : GState} {m : Nat → Option Val} {L : Nat → List Bind} {fl fl' : List Nat} {h' : Heap}
    (r : Rep st m L fl) (hf : FreeOK h' fl') (hc : ∀ c, c ∉ fl → (h'.cells c).content = (st.heap.cells c).content)
    (hs : ∀ c ∈ fl', c ∈ fl) : Rep ⟨h', st.glob⟩ m L fl' :=
  ⟨hf, fun k => envAt_congr (fun c h => hc c (r.notFree k c h)) (r.env k), r.nodup, r.disj,
    fun k c h hm => r.notFree k c h (hs c hm), r.keys, r.once, r.map⟩

/-- What `lbm_env_set` does to a bucket: the map is updated, or, when there is no memory, everything is
as before. -/
theorem Rep.envSet_lists {st : GState} {m : Nat → Option Val} {L : Nat → List Bind} {fl : List Nat} (r : Rep st m L fl)
    (s : Nat) (v : Val) {f : Nat} (hf : (L (Verif.Env.bucket s)).length < f) :
    ∃ h' v', envSet f st.heap (st.glob (Verif.Env.bucket s)) (.sym s) v = some (h', v') ∧
      ((v' = merror ∧ m s = none ∧ numFree st.heap < 2 ∧ ∃ fl', Rep ⟨h', st.glob⟩ m L fl') ∨
       (v' ≠ merror ∧ ∃ l' fl', Rep ⟨h', st.glob.set (Verif.Env.bucket s) v'⟩ (upd m s (some v))
          (fun j => if j = Verif.Env.bucket s then l' else L j) fl' ∧
          ((value (L (Verif.Env.bucket s)) (.sym s) ≠ none ∧ l' = assign (.sym s) v (L (Verif.Env.bucket s)) ∧
              v' = st.glob (Verif.Env.bucket s)) ∨
           (∃ i j, l' = ⟨j, i, .sym s, v⟩ :: L (Verif.Env.bucket s))))) := by
  have hb := r.env (Verif.Env.bucket s)
  by_cases hv : value (L (Verif.Env.bucket s)) (.sym s) = none
  · have hms : m s = none := by rw [r.map]; exact hv
    by_cases hlen : fl.length < 2
    · obtain ⟨h', fl', e, hfr, hc, hs⟩ := envSet_full (val := v) rfl hb hf hv r.free hlen
      exact ⟨h', _, e, Or.inl ⟨rfl, hms, by rw [freeOK_len r.free]; exact hlen, fl',
        r.fresh hfr (fun c h => by rw [hc c h]) hs⟩⟩
    · obtain ⟨i, j, fl, rfl⟩ : ∃ i j t, fl = i :: j :: t := by
        match fl, hlen with
        | [], h => simp at h
        | [_], h => simp at h
        | i :: j :: t, _ => exact ⟨i, j, t, rfl⟩
      obtain ⟨h', e, hfr, he, hc, _⟩ := envSet_new (val := v) rfl hb hf hv r.free (fun c h => r.notFree _ c h)
      have hnd := r.free.2.1
      simp only [List.nodup_cons, List.mem_cons, not_or] at hnd
      refine ⟨h', _, e, Or.inr ⟨by simp [merror], _, fl, r.bucket (m' := upd m s (some v)) he hfr ?_ ?_ ?_ ?_ ?_ ?_ ?_ ?_,
        Or.inr ⟨_, _, rfl⟩⟩⟩
      · intro c h; simp [h]
      · intro c h; rw [cellsOf_cons] at h
        rcases List.mem_cons.1 h with rfl | h
        · right; simp
        rcases List.mem_cons.1 h with rfl | h
        · right; simp
        · left; exact h
      · intro c h; rw [cellsOf_cons] at h
        rcases List.mem_cons.1 h with rfl | h
        · exact hnd.2.1
        rcases List.mem_cons.1 h with rfl | h
        · exact hnd.1.2
        · intro h'; exact r.notFree _ c h (by simp [h'])
      · rw [cellsOf_cons, List.nodup_cons, List.nodup_cons]
        refine ⟨?_, ?_, r.nodup _⟩
        · intro h
          rcases List.mem_cons.1 h with h | h
          · exact hnd.1.1 h.symm
          · exact r.notFree _ _ h (by simp)
        · intro h; exact r.notFree _ _ h (by simp)
      · intro key h
        rcases List.mem_cons.1 h with rfl | h
        · exact ⟨s, rfl, rfl⟩
        · exact r.keys _ key h
      · rw [List.map_cons, List.nodup_cons]
        exact ⟨value_none_iff.1 hv, r.once _⟩
      · intro c _ h
        simp at h
        rw [hc c h.1 h.2.1]
      · intro s'
        simp only [upd]
        by_cases hs : s' = s
        · subst hs; simp [value]
        · simp only [hs, if_false]
          split
          · next hbk =>
            rw [r.map, hbk]
            have : ¬ s = s' := fun e => hs e.symm
            simp [value, this]
          · rfl
  · obtain ⟨h', b, hbm, hk, e, he, p⟩ := envSet_bound (val := v) hb hf (r.nodup _) hv
    have hbp := (mem_cellsOf hbm).2
    refine ⟨h', _, e, Or.inr ⟨?_, _, fl, r.bucket (m' := upd m s (some v)) he
      (p.freeOK r.free (r.notFree _ _ hbp)) (fun _ h => h) ?_ ?_ ?_ ?_ ?_ ?_ ?_, Or.inl ⟨hv, rfl, rfl⟩⟩⟩
    · intro hm
      revert hbm hb
      cases L (Verif.Env.bucket s) with
      | nil => intro _ hbm; cases hbm
      | cons x xs => rintro ⟨h1, _⟩; rw [hm] at h1; cases h1
    · intro c h; rw [assign_cells] at h; exact Or.inl h
    · intro c h; rw [assign_cells] at h; exact r.notFree _ c h
    · rw [assign_cells]; exact r.nodup _
    · rw [assign_keys]; exact r.keys _
    · rw [assign_keys]; exact r.once _
    · intro c h _
      rw [p.other c (by rintro rfl; exact h hbp)]
    · intro s'
      rw [value_assign _ _ _ _ hv]
      simp only [upd]
      by_cases hs : s' = s
      · subst hs; simp
      · have : ¬ (Val.sym s' = Val.sym s) := by intro e; cases e; exact hs rfl
        simp only [hs, this, if_false]
        split
        · next hbk => rw [r.map, hbk]
        · rfl

theorem Rep.envSet {st : GState} {m : Nat → Option Val} {L : Nat → List Bind} {fl : List Nat} (r : Rep st m L fl)
    (s : Nat) (v : Val) {f : Nat} (hf : (L (Verif.Env.bucket s)).length < f) :
    ∃ h' v', envSet f st.heap (st.glob (Verif.Env.bucket s)) (.sym s) v = some (h', v') ∧
      ((v' = merror ∧ m s = none ∧ numFree st.heap < 2 ∧ ∃ fl', Rep ⟨h', st.glob⟩ m L fl') ∨
       (v' ≠ merror ∧ ∃ L' fl', Rep ⟨h', st.glob.set (Verif.Env.bucket s) v'⟩ (upd m s (some v)) L' fl')) := by
  obtain ⟨h', v', e, h | ⟨hne, l', fl', r', _⟩⟩ := r.envSet_lists s v hf
  · exact ⟨h', v', e, Or.inl h⟩
  · exact ⟨h', v', e, Or.inr ⟨hne, _, _, r'⟩⟩

theorem Rep.modify {st : GState} {m : Nat → Option Val} {L : Nat → List Bind} {fl : List Nat} (r : Rep st m L fl)
    (s : Nat) (v : Val) {f : Nat} (hf : (L (Verif.Env.bucket s)).length < f) (hms : m s ≠ none) :
    ∃ h' L' fl', modifyBinding f st.heap (st.glob (Verif.Env.bucket s)) (.sym s) v =
        some (h', st.glob (Verif.Env.bucket s)) ∧ st.glob (Verif.Env.bucket s) ≠ notFound ∧
      Rep ⟨h', st.glob⟩ (upd m s (some v)) L' fl' := by
  have hv : value (L (Verif.Env.bucket s)) (.sym s) ≠ none := by rw [← r.map]; exact hms
  have hne : st.glob (Verif.Env.bucket s) ≠ notFound := by
    intro hm
    have := r.env (Verif.Env.bucket s)
    revert hv this
    cases L (Verif.Env.bucket s) with
    | nil => intro hv; simp [value] at hv
    | cons x xs => rintro _ ⟨h1, _⟩; rw [hm] at h1; cases h1
  obtain ⟨h1, _, _, _, e1, _, _⟩ := modifyLoop_some (val := v) f (r.env _) hf (r.nodup _) hv
  obtain ⟨h', v', e, hcase⟩ := r.envSet s v hf
  simp only [Verif.Env.envSet, e1] at e
  cases e
  rcases hcase with ⟨_, h2, _⟩ | ⟨_, L', fl', r'⟩
  · exact absurd h2 hms
  · rw [set_same] at r'
    exact ⟨h1, L', fl', by simp only [modifyBinding, e1], hne, r'⟩

theorem modifyBinding_local {st : GState} {m : Nat → Option Val} {L : Nat → List Bind} {fl : List Nat} (r : Rep st m L fl)
    {env : Val} {l : List Bind} (hl : Local st env l) {key v : Val} {f : Nat} (hf : l.length < f)
    (hv : value l key ≠ none) : ∃ h', modifyBinding f st.heap env key v = some (h', env) ∧ env ≠ notFound ∧
      EnvAt h' env (assign key v l) nil ∧ Rep ⟨h', st.glob⟩ m L fl := by
  obtain ⟨he, hnd, hsep, fl', hfl', hnf⟩ := hl
  obtain rfl := freeOK_unique hfl' r.free
  obtain ⟨h1, b, hb, _, e1, he1, p⟩ := modifyLoop_some (val := v) f he hf hnd hv
  refine ⟨h1, by simp only [modifyBinding, e1], ?_, he1, p.freeOK r.free (hnf _ (mem_cellsOf hb).2), ?_, r.nodup, r.disj, r.notFree,
    r.keys, r.once, r.map⟩
  · intro hm
    cases l with
    | nil => simp [value] at hv
    | cons x xs => obtain ⟨h1, _⟩ := he; rw [hm] at h1; cases h1
  · intro k
    refine envAt_congr (fun c hc => ?_) (r.env k)
    rw [p.other c ?_]
    rintro rfl
    exact hsep _ (mem_cellsOf hb).2 k (r.cell.2 hc)

theorem modifyBinding_none {h : Heap} {env : Val} {l : List Bind} {key v tail : Val} {f : Nat} (ht : isSymbol tail)
    (he : EnvAt h env l tail) (hf : l.length < f) (hv : value l key = none) :
    modifyBinding f h env key v = some (h, notFound) := by
  simp only [modifyBinding, modifyLoop_none (val := v) ht f he hf hv]

theorem Rep.drop {st : GState} {m : Nat → Option Val} {L : Nat → List Bind} {fl : List Nat} (r : Rep st m L fl)
    (s : Nat) {f : Nat} (hf : (L (Verif.Env.bucket s)).length < f) :
    ∃ st' b L', undefine f st s = some (st', b) ∧ Rep st' (upd m s none) L' fl ∧
      (0 < s → b = (m s).isSome) ∧ (m s = none → st'.heap = st.heap ∧ st'.glob = st.glob) := by
  have hb := r.env (Verif.Env.bucket s)
  have hupd : m s = none → upd m s none = m := by
    intro h; funext s'; simp only [upd]; split
    · next e => rw [e, h]
    · rfl
  by_cases hv : value (L (Verif.Env.bucket s)) (.sym s) = none
  · have hms : m s = none := by rw [r.map]; exact hv
    rw [hupd hms]
    rcases hL : L (Verif.Env.bucket s) with _ | ⟨b, l⟩
    · rw [hL] at hb
      have hg : st.glob (Verif.Env.bucket s) = nil := hb
      obtain ⟨f, rfl⟩ := Nat.exists_eq_succ_of_ne_zero (by omega : f ≠ 0)
      by_cases hs : s = 0
      · refine ⟨st, true, L, ?_, r, by omega, fun _ => ⟨rfl, rfl⟩⟩
        have : st.glob.set (Verif.Env.bucket s) nil = st.glob := by rw [← hg]; exact set_same _ _
        have hd : dropBinding f.succ st.heap nil (.sym s) = some (st.heap, nil) := by
          simp [dropBinding, nil, car, hs, cdr]
        simp only [undefine, hg, hd]
        rw [if_neg (by decide), this]
      · refine ⟨st, false, L, ?_, r, fun _ => by rw [hms]; rfl, fun _ => ⟨rfl, rfl⟩⟩
        have : ¬ (Val.sym 0 = Val.sym s) := by intro e; cases e; exact hs rfl
        simp only [undefine, dropBinding, hg, nil, car, if_true, cdr, dropLoop, isConsRW, this, if_false]
        simp
    · rw [hL] at hb hf hv
      obtain ⟨h1, h2, d, h3, h4⟩ := hb
      simp at hf
      have hk : ¬ b.key = Val.sym s := by intro e; simp [value, e] at hv
      have hv' : value l (.sym s) = none := by simpa [value, hk] using hv
      refine ⟨st, false, L, ?_, r, fun _ => by rw [hms]; rfl, fun _ => ⟨rfl, rfl⟩⟩
      simp only [undefine, dropBinding, h1, car_pair h3, car_pair h2, hk, if_false, cdr_pair h3,
        dropLoop_none rfl f h4 (by omega) hv']
      simp
  · have hms : m s ≠ none := by rw [r.map]; exact hv
    have hsome : (m s).isSome = true := by
      cases h : m s with
      | none => exact absurd h hms
      | some _ => rfl
    have hmap : ∀ (l' : List Bind), l' = erase (.sym s) (L (Verif.Env.bucket s)) → ∀ s', upd m s none s' =
        if Verif.Env.bucket s' = Verif.Env.bucket s then value l' (.sym s') else m s' := by
      rintro l' rfl s'
      rw [value_erase _ _ (r.once _)]
      simp only [upd]
      by_cases hs : s' = s
      · subst hs; simp
      · have : ¬ (Val.sym s' = Val.sym s) := by intro e; cases e; exact hs rfl
        simp only [hs, this, if_false]
        split
        · next hbk => rw [r.map, hbk]
        · rfl
    have hsub := erase_sublist (.sym s) (L (Verif.Env.bucket s))
    have hcs := cellsOf_sublist hsub
    have hks : ((erase (.sym s) (L (Verif.Env.bucket s))).map (·.key)).Sublist ((L (Verif.Env.bucket s)).map (·.key)) :=
      hsub.map _
    -- the general step for the new list
    have hgen : ∀ (h' : Heap) (v' : Val) (c : Nat) (x : Content), EnvAt h' v' (erase (.sym s) (L (Verif.Env.bucket s))) nil →
        ((c ∈ cellsOf (L (Verif.Env.bucket s)) ∧ Poke st.heap h' c x) ∨ h' = st.heap) →
        Rep ⟨h', st.glob.set (Verif.Env.bucket s) v'⟩ (upd m s none)
          (fun j => if j = Verif.Env.bucket s then erase (.sym s) (L (Verif.Env.bucket s)) else L j) fl := by
      intro h' v' c x he hp
      refine r.bucket he ?_ (fun _ h => h) (fun c h => Or.inl (hcs.subset h)) (fun c h => r.notFree _ c (hcs.subset h))
        ((r.nodup _).sublist hcs) (fun key h => r.keys _ key (hks.subset h)) ((r.once _).sublist hks) ?_ (hmap _ rfl)
      · rcases hp with ⟨hc, p⟩ | rfl
        · exact p.freeOK r.free (r.notFree _ _ hc)
        · exact r.free
      · rcases hp with ⟨hc, p⟩ | rfl
        · intro c' h1 _
          rw [p.other c' (by rintro rfl; exact h1 hc)]
        · exact fun _ _ _ => rfl
    rcases hL : L (Verif.Env.bucket s) with _ | ⟨b, l⟩
    · rw [hL] at hv; simp [value] at hv
    · rw [hL] at hb hf hv hgen
      have hnd := r.nodup (Verif.Env.bucket s)
      rw [hL, cellsOf_cons, List.nodup_cons, List.nodup_cons] at hnd
      obtain ⟨hn1, hn2, hn3⟩ := hnd
      simp only [List.mem_cons, not_or] at hn1
      obtain ⟨h1, h2, d, h3, h4⟩ := hb
      simp at hf
      by_cases hk : b.key = Val.sym s
      · have hd : d ≠ notFound := by
          intro hm
          revert h4
          cases l with
          | nil => intro h4; have : d = nil := h4; rw [this] at hm; cases hm
          | cons x xs => rintro ⟨h1, _⟩; rw [hm] at h1; cases h1
        refine ⟨⟨st.heap, st.glob.set (Verif.Env.bucket s) d⟩, true, _, ?_,
          hgen st.heap d 0 (.boxed 0) (by simp only [erase, hk, if_true]; exact h4) (Or.inr rfl), fun _ => hsome.symm,
          fun h => absurd h hms⟩
        simp only [undefine, dropBinding, h1, car_pair h3, car_pair h2, hk, if_true, cdr_pair h3, hd, if_false]
      · have hv' : value l (.sym s) ≠ none := by simpa [value, hk] using hv
        obtain ⟨h', c, x, d', hc, e, p, hd, he⟩ := dropLoop_some f h4 (by omega) hn3 hn1.2 h3 hv'
        have hcp : b.pair ≠ c := by
          rintro rfl
          rcases hc with hc | hc
          · exact hn1.1 hc.symm
          · exact hn2 hc
        refine ⟨⟨h', st.glob.set (Verif.Env.bucket s) (.ptr .cons false b.spine)⟩, true, _, ?_,
          hgen h' (.ptr .cons false b.spine) c x ?_ (Or.inl ⟨?_, p⟩), fun _ => hsome.symm, fun h => absurd h hms⟩
        · simp only [undefine, dropBinding, h1, car_pair h3, car_pair h2, hk, if_false, cdr_pair h3, e]
          simp [notFound]
        · simp only [erase, hk, if_false]
          exact ⟨rfl, by rw [p.other _ hcp]; exact h2, d', hd, he⟩
        · rw [cellsOf_cons]
          rcases hc with rfl | hc
          · simp
          · simp [hc]

end Verif.Env
