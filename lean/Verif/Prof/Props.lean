import Verif.Prof.Spec

/-!
# The profiler: properties
-/

namespace Verif.Prof

theorem strncmp_short : ∀ (s t rest : List Nat), 0 ∉ s → 0 ∉ t → strncmp0 (s.length + 1) (t ++ 0 :: rest) (s ++ [0]) = decide (t = s)
  | [], [], rest, _, _ => by simp [strncmp0]
  | [], a :: t, rest, _, ht => by
    have : a ≠ 0 := fun h => ht (by simp [h])
    simp [strncmp0, this]
  | b :: s, [], rest, hs, _ => by
    have : b ≠ 0 := fun h => hs (by simp [h])
    simp [strncmp0, Ne.symm this]
  | b :: s, a :: t, rest, hs, ht => by
    have ih := strncmp_short s t rest (fun h => hs (List.mem_cons_of_mem _ h)) (fun h => ht (List.mem_cons_of_mem _ h))
    have : b ≠ 0 := fun h => hs (by simp [h])
    simp only [List.cons_append, List.length_cons, strncmp0]
    by_cases hab : a = b
    · subst hab
      simp [this, ih]
    · simp [hab]

theorem strncmp_long : ∀ (n : Nat) (s t rest : List Nat), 0 ∉ s → 0 ∉ t → n ≤ s.length → t.length ≤ n → strncmp0 n (t ++ 0 :: rest) (s ++ [0]) = decide (t = s.take n)
  | 0, s, t, rest, _, _, _, h => by
    have : t = [] := List.length_eq_zero_iff.1 (by omega)
    simp [this, strncmp0]
  | n + 1, [], _, _, _, _, h, _ => by simp at h
  | n + 1, b :: s, [], rest, hs, _, _, _ => by
    have : b ≠ 0 := fun h => hs (by simp [h])
    simp [strncmp0, Ne.symm this]
  | n + 1, b :: s, a :: t, rest, hs, ht, h1, h2 => by
    have ih := strncmp_long n s t rest (fun h => hs (List.mem_cons_of_mem _ h)) (fun h => ht (List.mem_cons_of_mem _ h)) (by simpa using h1) (by simpa using h2)
    have : b ≠ 0 := fun h => hs (by simp [h])
    simp only [List.cons_append, strncmp0, List.take_succ_cons]
    by_cases hab : a = b
    · subst hab
      simp [this, ih]
    · simp [hab]

/-- The array holds this text. -/
def Holds (bytes t : List Nat) : Prop := bytes.length = 20 ∧ 0 ∉ t ∧ t.length ≤ 19 ∧ ∃ rest, bytes = t ++ 0 :: rest

theorem Holds.cmp {bytes t s : List Nat} (h : Holds bytes t) (hs : 0 ∉ s) : strncmp0 (trunc (s.length + 1)) bytes (s ++ [0]) = decide (t = s.take 19) := by
  obtain ⟨_, h2, h3, rest, rfl⟩ := h
  unfold trunc maxName
  split
  · exact strncmp_long 19 s t rest hs h2 (by omega) h3
  · rw [strncmp_short s t rest hs h2, List.take_of_length_le (by omega)]

theorem Holds.text {bytes t : List Nat} (h : Holds bytes t) : bytes.takeWhile (· ≠ 0) = t := by
  obtain ⟨_, h2, _, rest, rfl⟩ := h
  rw [List.takeWhile_append_of_pos (by
    intro a ha
    have : a ≠ 0 := fun h => h2 (h ▸ ha)
    simpa using this)]
  simp

theorem holds_copy {d s : List Nat} (hd : d.length = 20) (hs : 0 ∉ s) : Holds ((copyBytes d s (trunc (s.length + 1))).set (maxName - 1) 0) (s.take 19) := by
  unfold copyBytes trunc maxName
  split
  · rename_i h
    have e1 : (s ++ [0]).take 19 = s.take 19 := by rw [List.take_append_of_le_length (by omega)]
    obtain ⟨z, hz⟩ : ∃ z, d.drop 19 = [z] := List.length_eq_one_iff.1 (by rw [List.length_drop, hd])
    rw [show 20 - 1 = 19 from rfl, e1, hz]
    have hl : (s.take 19).length = 19 := by rw [List.length_take]; omega
    refine ⟨by simp [hl], fun h => hs (List.mem_of_mem_take h), by omega, [], ?_⟩
    rw [List.set_append_right _ _ (by omega), hl]
    rfl
  · rename_i h
    have e1 : (s ++ [0]).take (s.length + 1) = s ++ [0] := by rw [List.take_of_length_le (by simp)]
    rw [show 20 - 1 = 19 from rfl, e1, List.take_of_length_le (by omega)]
    refine ⟨by simp [hd]; omega, hs, by omega, ((d.drop (s.length + 1)).set (18 - s.length) 0), ?_⟩
    rw [List.set_append_right _ _ (by simp; omega)]
    simp only [List.append_assoc, List.length_append, List.length_singleton, List.singleton_append]
    rw [show 19 - (s.length + 1) = 18 - s.length by omega]

/-- An entry that is not used. -/
def Free (e : Entry) : Prop := e.cid = none ∧ e.hasName = false ∧ e.name.length = 20 ∧ e.count = 0

/-- The entry of a key. -/
def IsEntry (e : Entry) (k : Key) (c g : Nat) : Prop :=
  e.cid = some k.1 ∧ e.count = c ∧ e.gcCount = g ∧ (match k.2 with | some t => e.hasName = true ∧ Holds e.name t | none => e.hasName = false)

/-- The table: one entry for each key, in order, as far as there are entries. -/
def Table (c g : Key → Nat) : List Entry → List Key → Prop
  | [], _ => True
  | e :: es, [] => Free e ∧ Table c g es []
  | e :: es, k :: ks => IsEntry e k (c k) (g k) ∧ Table c g es ks

theorem IsEntry.shows {e : Entry} {k : Key} {c g : Nat} (h : IsEntry e k c g) : e.shows = some (k, c, g) := by
  obtain ⟨h1, h2, h3, h4⟩ := h
  obtain ⟨id, nm⟩ := k
  cases nm with
  | none =>
    simp only at h4
    simp [Entry.shows, h1, h2, h3, h4]
  | some t =>
    simp only at h4
    have := h4.2.text
    simp only [Entry.shows, Entry.text, h1, h2, h3, h4.1, this, if_true, Option.map_some]

theorem Table.shows {c g : Key → Nat} : ∀ (es : List Entry) (ks : List Key), Table c g es ks →
    es.map Entry.shows = (ks.take es.length).map (fun k => some (k, c k, g k)) ++ List.replicate (es.length - ks.length) none
  | [], ks, _ => by simp
  | e :: es, [], h => by
    have ih := Table.shows es [] h.2
    have he : e.shows = none := by simp [Entry.shows, h.1.1]
    simp only [List.map_cons, he, List.length_cons, List.take_nil, List.map_nil, List.nil_append, List.length_nil, Nat.sub_zero] at ih ⊢
    rw [ih]
    rfl
  | e :: es, k :: ks, h => by
    have ih := Table.shows es ks h.2
    simp only [List.map_cons, h.1.shows, List.length_cons, List.take_succ_cons, List.cons_append]
    rw [ih]
    congr 3
    omega

theorem Table.congr {c g c' g' : Key → Nat} : ∀ (es : List Entry) (ks : List Key), Table c g es ks → (∀ k ∈ ks, c k = c' k ∧ g k = g' k) → Table c' g' es ks
  | [], _, _, _ => trivial
  | _ :: es, [], h, _ => ⟨h.1, Table.congr es [] h.2 fun _ hk => absurd hk List.not_mem_nil⟩
  | _ :: es, k :: ks, h, hk => by
    obtain ⟨e1, e2⟩ := hk k List.mem_cons_self
    refine ⟨?_, Table.congr es ks h.2 fun x hx => hk x (List.mem_cons_of_mem _ hx)⟩
    rw [← e1, ← e2]
    exact h.1

theorem IsEntry.more {e : Entry} {k : Key} {c g : Nat} (h : IsEntry e k c g) (gc : Bool) : IsEntry (e.more gc) k (c + 1) (g + if gc then 1 else 0) := by
  obtain ⟨h1, h2, h3, h4⟩ := h
  exact ⟨h1, by simp [Entry.more, h2], by simp [Entry.more, h3], h4⟩

theorem Free.fresh {e : Entry} (h : Free e) (id : Nat) (name : Option (List Nat)) (gc : Bool) (hn : ∀ s, name = some s → 0 ∉ s) :
    IsEntry (e.fresh id name gc) (id, name.map (List.take 19)) 1 (if gc then 1 else 0) := by
  cases name with
  | none => exact ⟨rfl, rfl, rfl, h.2.1⟩
  | some s => exact ⟨rfl, rfl, rfl, rfl, holds_copy h.2.2.1 (hn s rfl)⟩

theorem record_free (id : Nat) (name : Option (List Nat)) (gc : Bool) (e : Entry) (es : List Entry) (h : e.cid = none) : record id name gc (e :: es) = e.fresh id name gc :: es := by
  rw [record.eq_def]
  simp only [h]

theorem record_used (id : Nat) (name : Option (List Nat)) (gc : Bool) (e : Entry) (es : List Entry) (c : Nat) (h : e.cid = some c) : record id name gc (e :: es) =
    if c = id && e.hasName && (match name with | some s => strncmp0 (trunc (s.length + 1)) e.name (s ++ [0]) | none => false) then e.more gc :: es
    else if c = id && !e.hasName && name.isNone then e.more gc :: es
    else e :: record id name gc es := by
  rw [record.eq_def]
  simp only [h]
  cases name <;> rfl

/-- An entry is found exactly for its key. -/
theorem IsEntry.found {e : Entry} {k : Key} {c g : Nat} (h : IsEntry e k c g) (id : Nat) (name : Option (List Nat)) (gc : Bool) (hn : ∀ s, name = some s → 0 ∉ s) (es : List Entry) :
    record id name gc (e :: es) = if (id, name.map (List.take 19)) = k then e.more gc :: es else e :: record id name gc es := by
  obtain ⟨h1, _, _, h4⟩ := h
  obtain ⟨kid, kn⟩ := k
  simp only at h1
  rw [record_used id name gc e es kid h1]
  by_cases hid : kid = id
  · subst hid
    cases kn with
    | none =>
      simp only at h4
      cases name with
      | none => simp [h4]
      | some s => simp [h4]
    | some t =>
      simp only at h4
      cases name with
      | none => simp [h4.1]
      | some s =>
        have := h4.2.cmp (hn s rfl)
        simp only [this, h4.1, decide_true, Bool.true_and, decide_eq_true_eq, Option.map_some, Prod.mk.injEq, Option.some.injEq, true_and]
        by_cases hts : t = s.take 19
        · simp [hts]
        · have hst : ¬ s.take 19 = t := fun h => hts h.symm
          simp [hts, hst]
  · simp [hid, Ne.symm hid]

theorem record_table {c g c' g' : Key → Nat} (id : Nat) (name : Option (List Nat)) (gc : Bool) (hn : ∀ s, name = some s → 0 ∉ s)
    (hc : c' (id, name.map (List.take 19)) = c (id, name.map (List.take 19)) + 1) (hg : g' (id, name.map (List.take 19)) = g (id, name.map (List.take 19)) + if gc then 1 else 0)
    (ho : ∀ k, k ≠ (id, name.map (List.take 19)) → c' k = c k ∧ g' k = g k) : ∀ (es : List Entry) (ks : List Key), Table c g es ks → ks.Nodup →
    ((id, name.map (List.take 19)) ∉ ks → c (id, name.map (List.take 19)) = 0 ∧ g (id, name.map (List.take 19)) = 0) →
    Table c' g' (record id name gc es) (if (id, name.map (List.take 19)) ∈ ks then ks else ks ++ [(id, name.map (List.take 19))])
  | [], ks, _, _, _ => trivial
  | e :: es, [], h, _, h0 => by
    obtain ⟨z1, z2⟩ := h0 List.not_mem_nil
    rw [if_neg List.not_mem_nil]
    rw [record_free id name gc e es h.1.1]
    have := h.1.fresh id name gc hn
    refine ⟨?_, Table.congr es [] h.2 fun _ hk => absurd hk List.not_mem_nil⟩
    rw [hc, hg, z1, z2, Nat.zero_add, Nat.zero_add]
    exact this
  | e :: es, k :: ks, h, hnd, h0 => by
    rw [h.1.found id name gc hn]
    rw [List.nodup_cons] at hnd
    by_cases hk : (id, name.map (List.take 19)) = k
    · subst hk
      rw [if_pos rfl, if_pos List.mem_cons_self]
      refine ⟨?_, Table.congr es ks h.2 fun x hx => ?_⟩
      · rw [hc, hg]
        exact h.1.more gc
      · obtain ⟨e1, e2⟩ := ho x fun he => hnd.1 (he ▸ hx)
        exact ⟨e1.symm, e2.symm⟩
    · rw [if_neg hk]
      obtain ⟨e1, e2⟩ := ho k (Ne.symm hk)
      have ih := record_table id name gc hn hc hg ho es ks h.2 hnd.2 fun hx => h0 fun hx' => by
        rcases List.mem_cons.1 hx' with hx' | hx'
        · exact hk hx'
        · exact hx hx'
      have : IsEntry e k (c' k) (g' k) := by rw [e1, e2]; exact h.1
      by_cases hm : (id, name.map (List.take 19)) ∈ ks
      · rw [if_pos hm] at ih
        rw [if_pos (List.mem_cons_of_mem _ hm)]
        exact ⟨this, ih⟩
      · rw [if_neg hm] at ih
        rw [if_neg (by simp [hm, hk])]
        exact ⟨this, ih⟩

theorem snoc_induction {α : Type} {P : List α → Prop} (h0 : P []) (h1 : ∀ l a, P l → P (l ++ [a])) (l : List α) : P l := by
  rw [← List.reverse_reverse l]
  induction l.reverse with
  | nil => exact h0
  | cons a l ih =>
    rw [List.reverse_cons]
    exact h1 _ _ ih

theorem samples_snoc (p : Prof) (rs : List Running) (r : Running) : samples p (rs ++ [r]) = sample (samples p rs) r := by
  induction rs generalizing p with
  | nil => rfl
  | cons a rs ih => exact ih _

theorem keys_snoc (rs : List Running) (r : Running) :
    keys (rs ++ [r]) = match r.key with | some k => if k ∈ keys rs then keys rs else keys rs ++ [k] | none => keys rs := by
  simp only [keys, List.foldl_append, List.foldl_cons, List.foldl_nil]
  cases r.key <;> rfl

theorem record_length (id : Nat) (name : Option (List Nat)) (gc : Bool) : ∀ es, (record id name gc es).length = es.length
  | [] => rfl
  | e :: es => by
    cases h : e.cid with
    | none => rw [record_free id name gc e es h]; rfl
    | some c =>
      have ih := record_length id name gc es
      rw [record_used id name gc e es c h]
      simp only [apply_ite List.length, List.length_cons, ih, ite_self]

theorem init_table (gc : Nat → Nat) : ∀ (l : List Nat), Table (seen []) (seenGc []) (l.map fun i => ⟨none, false, List.replicate maxName 0, 0, gc i⟩) []
  | [] => trivial
  | _ :: l => ⟨⟨rfl, rfl, by simp [maxName], rfl⟩, init_table gc l⟩

/-- All that is known after samples. -/
structure Fits (n : Nat) (rs : List Running) (p : Prof) : Prop where
  len : p.entries.length = n
  table : Table (seen rs) (seenGc rs) p.entries (keys rs)
  nodup : (keys rs).Nodup
  zero : ∀ k, k ∉ keys rs → seen rs k = 0 ∧ seenGc rs k = 0
  samples : p.samples = rs.length
  system : p.system = idles rs false
  sleep : p.sleep = idles rs true
  sum : rs.length = ((keys rs).map (seen rs)).sum + idles rs false + idles rs true

theorem sum_update (f g : Key → Nat) (k : Key) (d : Nat) (hk : g k = f k + d) (ho : ∀ x, x ≠ k → g x = f x) : ∀ (ks : List Key), ks.Nodup → k ∈ ks → (ks.map g).sum = (ks.map f).sum + d
  | [], _, h => absurd h List.not_mem_nil
  | x :: ks, hn, h => by
    rw [List.nodup_cons] at hn
    simp only [List.map_cons, List.sum_cons]
    by_cases hx : x = k
    · subst hx
      have : ks.map g = ks.map f := List.map_congr_left fun y hy => ho y fun e => hn.1 (e ▸ hy)
      rw [this, hk]
      omega
    · have := sum_update f g k d hk ho ks hn.2 ((List.mem_cons.1 h).resolve_left (Ne.symm hx))
      rw [this, ho x hx]
      omega

theorem fits (gc : Nat → Nat) (n : Nat) (rs : List Running) (hn : Names rs) : Fits n rs (samples (init gc n).1 rs) := by
  induction rs using snoc_induction with
  | h0 =>
    refine ⟨by simp [samples, init], init_table gc _, ?_, fun k _ => ⟨rfl, rfl⟩, rfl, rfl, rfl, rfl⟩
    exact List.nodup_nil
  | h1 rs r ih =>
    have ih := ih fun x hx => hn x (List.mem_append_left _ hx)
    rw [samples_snoc]
    cases r with
    | idle b =>
      have hk : keys (rs ++ [.idle b]) = keys rs := by rw [keys_snoc]; rfl
      have hs : ∀ k, seen (rs ++ [.idle b]) k = seen rs k := fun k => by simp [seen, Running.key]
      have hg : ∀ k, seenGc (rs ++ [.idle b]) k = seenGc rs k := fun k => by simp [seenGc]
      have hs' : seen (rs ++ [.idle b]) = seen rs := funext hs
      have hg' : seenGc (rs ++ [.idle b]) = seenGc rs := funext hg
      have hsum := ih.sum
      cases b with
      | true =>
        have i1 : idles (rs ++ [.idle true]) true = idles rs true + 1 := by simp [idles]
        have i2 : idles (rs ++ [.idle true]) false = idles rs false := by simp [idles]
        exact ⟨ih.len, by rw [hk, hs', hg']; exact ih.table, by rw [hk]; exact ih.nodup, by rw [hk, hs', hg']; exact ih.zero, by simp [sample, ih.samples], by rw [i2]; exact ih.system,
          by rw [i1]; simp [sample, ih.sleep], by rw [i1, i2, hk, hs', List.length_append, List.length_singleton]; omega⟩
      | false =>
        have i1 : idles (rs ++ [.idle false]) true = idles rs true := by simp [idles]
        have i2 : idles (rs ++ [.idle false]) false = idles rs false + 1 := by simp [idles]
        exact ⟨ih.len, by rw [hk, hs', hg']; exact ih.table, by rw [hk]; exact ih.nodup, by rw [hk, hs', hg']; exact ih.zero, by simp [sample, ih.samples],
          by rw [i2]; simp [sample, ih.system], by rw [i1]; exact ih.sleep, by rw [i1, i2, hk, hs', List.length_append, List.length_singleton]; omega⟩
    | ctx id name g =>
      have hnm : ∀ s, name = some s → 0 ∉ s := fun s h => hn (.ctx id name g) (by simp) id s g (by rw [h])
      have hk : keys (rs ++ [.ctx id name g]) = if (id, name.map (List.take 19)) ∈ keys rs then keys rs else keys rs ++ [(id, name.map (List.take 19))] := by rw [keys_snoc]; rfl
      have hs : ∀ k, seen (rs ++ [.ctx id name g]) k = seen rs k + if (id, name.map (List.take 19)) = k then 1 else 0 := fun k => by
        simp [seen, Running.key, List.countP_cons]
      have hg : ∀ k, seenGc (rs ++ [.ctx id name g]) k = seenGc rs k + if (id, name.map (List.take 19)) = k ∧ g = true then 1 else 0 := fun k => by
        simp [seenGc, Running.key, List.countP_cons]
      have i1 : ∀ b, idles (rs ++ [.ctx id name g]) b = idles rs b := fun b => by simp [idles]
      have hnd : (keys (rs ++ [.ctx id name g])).Nodup := by
        rw [hk]
        split
        · exact ih.nodup
        · rename_i hm
          rw [List.nodup_append]
          refine ⟨ih.nodup, List.nodup_cons.2 ⟨List.not_mem_nil, List.nodup_nil⟩, fun a ha b hb e => ?_⟩
          rw [List.mem_singleton] at hb
          exact hm (hb ▸ e ▸ ha)
      have hmem : (id, name.map (List.take 19)) ∈ keys (rs ++ [.ctx id name g]) := by
        rw [hk]
        split
        · assumption
        · simp
      have hc1 : seen (rs ++ [.ctx id name g]) (id, name.map (List.take 19)) = seen rs (id, name.map (List.take 19)) + 1 := by rw [hs, if_pos rfl]
      have ho1 : ∀ x, x ≠ (id, name.map (List.take 19)) → seen (rs ++ [.ctx id name g]) x = seen rs x := fun x hx => by rw [hs, if_neg (Ne.symm hx)]; rfl
      refine ⟨?_, ?_, hnd, ?_, by simp [sample, ih.samples], by rw [i1]; exact ih.system, by rw [i1]; exact ih.sleep, ?_⟩
      · rw [sample, record_length]
        exact ih.len
      · rw [hk]
        refine record_table id name g hnm hc1 ?_ (fun k hx => ⟨ho1 k hx, ?_⟩) _ _ ih.table ih.nodup (ih.zero _)
        · rw [hg]
          simp
        · rw [hg, if_neg (fun h => hx h.1.symm)]
          rfl
      · intro k hx
        have hne : k ≠ (id, name.map (List.take 19)) := fun e => hx (e ▸ hmem)
        have hx' : k ∉ keys rs := fun h => hx (by
          rw [hk]
          split
          · exact h
          · exact List.mem_append_left _ h)
        obtain ⟨z1, z2⟩ := ih.zero k hx'
        exact ⟨by rw [ho1 k hne, z1], by rw [hg, if_neg (fun h => hne h.1.symm), z2]⟩
      · have hsum := ih.sum
        rw [i1, i1, List.length_append, List.length_singleton]
        have hrest : ((keys rs).map (seen rs)).sum = ((keys (rs ++ [.ctx id name g])).map (seen rs)).sum := by
          rw [hk]
          split
          · rfl
          · rename_i hm
            rw [List.map_append, List.sum_append]
            simp [(ih.zero _ hm).1]
        rw [sum_update (seen rs) _ _ 1 hc1 ho1 _ hnd hmem, ← hrest]
        omega

/-- The profile after any samples: there is one entry for each context that was seen, in the order in which they were seen first, with the number of samples, and of samples during collection. Contexts are
told apart by id and the first 19 bytes of the name. Contexts that are first seen when the table is full have no entry. -/
theorem C103_profile (gc : Nat → Nat) (n : Nat) (rs : List Running) (hn : Names rs) :
    (samples (init gc n).1 rs).entries.map Entry.shows =
      ((keys rs).take n).map (fun k => some (k, seen rs k, seenGc rs k)) ++ List.replicate (n - (keys rs).length) none := by
  have h := fits gc n rs hn
  have := h.table.shows
  rwa [h.len] at this

theorem Table.counts {c g : Key → Nat} : ∀ (es : List Entry) (ks : List Key), Table c g es ks → (es.map Entry.count).sum = ((ks.take es.length).map c).sum
  | [], ks, _ => by simp
  | e :: es, [], h => by
    have ih := Table.counts es [] h.2
    simp only [List.map_cons, List.sum_cons, h.1.2.2.2, ih, List.take_nil, List.map_nil, List.sum_nil, Nat.add_zero]
  | e :: es, k :: ks, h => by
    have ih := Table.counts es ks h.2
    simp only [List.map_cons, List.sum_cons, h.1.2.1, ih, List.length_cons, List.take_succ_cons]

/-- The totals: each sample is counted once as sample, and once as sample of a context, of the idle system or of the sleeping system. If the table has an entry for each context that was seen, the numbers
in the table and the two others add up to the number of samples. -/
theorem C103_total (gc : Nat → Nat) (n : Nat) (rs : List Running) (hn : Names rs) :
    (samples (init gc n).1 rs).samples = rs.length ∧ (samples (init gc n).1 rs).system = idles rs false ∧ (samples (init gc n).1 rs).sleep = idles rs true ∧
      ((keys rs).length ≤ n → (samples (init gc n).1 rs).samples =
        ((samples (init gc n).1 rs).entries.map Entry.count).sum + (samples (init gc n).1 rs).system + (samples (init gc n).1 rs).sleep) := by
  have h := fits gc n rs hn
  refine ⟨h.samples, h.system, h.sleep, fun hl => ?_⟩
  rw [h.table.counts, h.samples, h.system, h.sleep, h.len, List.take_of_length_le hl]
  exact h.sum

/-- Contexts whose ids and names, of at most 19 bytes, are not the same have different keys. -/
theorem C103_short_names (i j : Nat) (s t : Option (List Nat)) (a b : Bool) (hs : ∀ x, s = some x → x.length ≤ 19) (ht : ∀ x, t = some x → x.length ≤ 19) :
    (Running.ctx i s a).key = (Running.ctx j t b).key ↔ i = j ∧ s = t := by
  have e : ∀ s : Option (List Nat), (∀ x, s = some x → x.length ≤ 19) → s.map (List.take 19) = s := by
    intro s hs
    cases s with
    | none => rfl
    | some x => rw [Option.map_some, List.take_of_length_le (hs x rfl)]
  simp only [Running.key, e s hs, e t ht, Option.some.injEq, Prod.mk.injEq]

/-- The keys are all that was seen, each once. -/
theorem C103_keys (rs : List Running) : (keys rs).Nodup ∧ ∀ k, k ∈ keys rs ↔ ∃ r ∈ rs, r.key = some k := by
  induction rs using snoc_induction with
  | h0 => exact ⟨List.nodup_nil, fun k => by simp [keys]⟩
  | h1 rs r ih =>
    rw [keys_snoc]
    cases hr : r.key with
    | none =>
      refine ⟨ih.1, fun k => ?_⟩
      simp only [ih.2, List.mem_append, List.mem_singleton]
      exact ⟨fun ⟨x, hx, e⟩ => ⟨x, .inl hx, e⟩, fun ⟨x, hx, e⟩ => ⟨x, hx.resolve_right (fun h => by rw [h, hr] at e; cases e), e⟩⟩
    | some q =>
      by_cases hq : q ∈ keys rs
      · simp only [if_pos hq]
        refine ⟨ih.1, fun k => ?_⟩
        simp only [ih.2, List.mem_append, List.mem_singleton]
        refine ⟨fun ⟨x, hx, e⟩ => ⟨x, .inl hx, e⟩, fun ⟨x, hx, e⟩ => ?_⟩
        rcases hx with hx | hx
        · exact ⟨x, hx, e⟩
        · rw [hx, hr, Option.some.injEq] at e
          rw [← e]
          exact (ih.2 q).1 hq
      · simp only [if_neg hq]
        constructor
        · rw [List.nodup_append]
          refine ⟨ih.1, List.nodup_cons.2 ⟨List.not_mem_nil, List.nodup_nil⟩, fun a ha b hb e => ?_⟩
          rw [List.mem_singleton] at hb
          exact hq (hb ▸ e ▸ ha)
        · intro k
          simp only [ih.2, List.mem_append, List.mem_singleton]
          constructor
          · rintro (⟨x, hx, e⟩ | h)
            · exact ⟨x, .inl hx, e⟩
            · exact ⟨r, .inr rfl, by rw [hr, h]⟩
          · rintro ⟨x, hx | hx, e⟩
            · exact .inl ⟨x, hx, e⟩
            · rw [hx, hr, Option.some.injEq] at e
              exact .inr e.symm

/-- `lbm_prof_init` does its work and reports failure. -/
theorem C103_init_violated (gc : Nat → Nat) (n : Nat) : (init gc n).2 = false ∧ (init gc n).1.entries.length = n := by
  simp [init]

/-- A table that is too small for the contexts loses samples: they are in the total and nowhere else. -/
theorem C103_full_violated : ∃ rs, Names rs ∧ (samples (init (fun _ => 0) 1).1 rs).samples = 2 ∧
    ((samples (init (fun _ => 0) 1).1 rs).entries.map Entry.count).sum + (samples (init (fun _ => 0) 1).1 rs).system + (samples (init (fun _ => 0) 1).1 rs).sleep = 1 := by
  refine ⟨[.ctx 1 none false, .ctx 2 none false], ?_, by decide, by decide⟩
  intro r hr id s gc e
  simp only [List.mem_cons, List.not_mem_nil, or_false] at hr
  rcases hr with rfl | rfl <;> simp at e

/-- Two names that differ after 19 bytes share an entry, if the id is the same. -/
theorem C103_long_violated : ∃ s t : List Nat, s ≠ t ∧ 0 ∉ s ∧ 0 ∉ t ∧
    ((samples (init (fun _ => 0) 2).1 [.ctx 1 (some s) false, .ctx 1 (some t) false]).entries.map Entry.count) = [2, 0] :=
  ⟨List.replicate 19 97 ++ [98], List.replicate 19 97 ++ [99], by decide, by decide, by decide, by decide +kernel⟩

/-- Four samples of two contexts of which one collected once, and one of the sleeping system. -/
example : (samples (init (fun i => i) 3).1 [.ctx 7 (some [97, 98]) false, .ctx 7 (some [97]) true, .idle true, .ctx 7 (some [97, 98]) true, .ctx 8 none false, .ctx 7 (some [97, 98]) false]).entries.map Entry.shows =
    [some ((7, some [97, 98]), 3, 1), some ((7, some [97]), 1, 1), some ((8, none), 1, 0)] := by decide +kernel

end Verif.Prof
