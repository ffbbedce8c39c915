import Verif.Env.Props

/-
The extensions that turn the buckets of the global environment into values and back: `env-get` and `env-set`
(`src/extensions/runtime_extensions.c:119-142`).
-/

namespace Verif.Env
open Verif.Heap

/-- A number as an argument. -/
def argNum (n : Nat) : Arg := ⟨some n, .imm 8 n⟩

/-- Any value as an argument. -/
def argVal (v : Val) : Arg := ⟨none, v⟩

/-- What happens between the saving and the restoring of the global environment with the map `m0`: definitions,
successful or not, of variables that had no value when the environment was saved, and activity that
does not concern the global environment (allocation, collections, ...). -/
inductive Adds (m0 : Nat → Option Val) : GState → GState → Prop
  | refl {st : GState} : Adds m0 st st
  | define {st st1 st2 : GState} {f : Nat} {collect : Heap → Heap} {s : Nat} {v : Val} {r : Bool} : Adds m0 st st1 → m0 s = none →
      (∀ h1, envSet f st1.heap (st1.glob (bucket s)) (.sym s) v = some (h1, merror) →
        Outside ⟨h1, st1.glob⟩ ⟨collect h1, st1.glob⟩) →
      define f collect st1 s v = some (st2, r) → Adds m0 st st2
  | outside {st st1 st2 : GState} : Adds m0 st st1 → Outside st1 st2 → Adds m0 st st2

/-- `(env-set k saved_k)` for some indices, one after the other. -/
def restore (saved : Nat → Val) : List Nat → GState → GState
  | [], st => st
  | k :: ks, st => restore saved ks (extEnvSet st [argNum k, argVal (saved k)]).1

/-! ### Lemmas -/

theorem mask_mod (n : Nat) : n &&& 0x1F = n % 32 := Nat.and_two_pow_sub_one_eq_mod n 5

theorem envAt_append {h : Heap} : ∀ {l1 l2 : List Bind} {v tail : Val}, EnvAt h v (l1 ++ l2) tail →
    ∃ mid, EnvAt h v l1 mid ∧ EnvAt h mid l2 tail
  | [], _, v, _, he => ⟨v, rfl, he⟩
  | _ :: _, _, _, _, ⟨h1, h2, d, h3, h4⟩ => by
    obtain ⟨mid, h5, h6⟩ := envAt_append h4
    exact ⟨mid, ⟨h1, h2, d, h3, h5⟩, h6⟩

theorem envAt_start {h h' : Heap} {l : List Bind} {v v' tail : Val} (h1 : EnvAt h v l tail) (h2 : EnvAt h' v' l tail) : v = v' := by
  cases l with
  | nil => exact h1.trans h2.symm
  | cons b l => exact h1.1.trans h2.1.symm

theorem assign_append {key val : Val} : ∀ {l1 l2 : List Bind}, value l2 key = none → value (l1 ++ l2) key ≠ none →
    assign key val (l1 ++ l2) = assign key val l1 ++ l2
  | [], l2, h1, h2 => absurd h1 h2
  | b :: l1, l2, h1, h2 => by
    simp only [List.cons_append, assign]
    by_cases hk : b.key = key
    · simp only [hk, if_true, List.cons_append]
    · simp only [hk, if_false, List.cons_append]
      rw [assign_append h1]
      intro h3
      apply h2
      simp only [value, List.cons_append, List.find?_cons, hk, decide_false]
      exact h3

/-- How a definition changes the bindings of the bucket. -/
def Grown (s : Nat) (v : Val) (l l' : List Bind) : Prop :=
  l' = l ∨ (value l (.sym s) ≠ none ∧ l' = assign (.sym s) v l) ∨ ∃ i j, l' = ⟨j, i, .sym s, v⟩ :: l

theorem Rep.define_lists {st st' : GState} {m : Nat → Option Val} {L : Nat → List Bind} {fl : List Nat} (r : Rep st m L fl)
    {f : Nat} {collect : Heap → Heap} {s : Nat} {v : Val} {b : Bool}
    (hc : ∀ h1, Verif.Env.envSet f st.heap (st.glob (Verif.Env.bucket s)) (.sym s) v = some (h1, merror) →
        Outside ⟨h1, st.glob⟩ ⟨collect h1, st.glob⟩)
    (he : Verif.Env.define f collect st s v = some (st', b)) :
    ∃ L' fl', Rep st' (if b then upd m s (some v) else m) L' fl' ∧ (∀ j, j ≠ Verif.Env.bucket s → L' j = L j) ∧
      Grown s v (L (Verif.Env.bucket s)) (L' (Verif.Env.bucket s)) := by
  let f' := max f ((L (Verif.Env.bucket s)).length + 1)
  have he' := define_mono (f' := f') (by omega) he
  have fin : ∀ {h1 : Heap} {v1 : Val} {l' fl' : List _}, Rep ⟨h1, st.glob.set (Verif.Env.bucket s) v1⟩ (upd m s (some v))
          (fun j => if j = Verif.Env.bucket s then l' else L j) fl' →
          ((value (L (Verif.Env.bucket s)) (.sym s) ≠ none ∧ l' = assign (.sym s) v (L (Verif.Env.bucket s)) ∧
              v1 = st.glob (Verif.Env.bucket s)) ∨
           (∃ i j, l' = ⟨j, i, .sym s, v⟩ :: L (Verif.Env.bucket s))) →
      ∃ L' fl', Rep ⟨h1, st.glob.set (Verif.Env.bucket s) v1⟩ (upd m s (some v)) L' fl' ∧
        (∀ j, j ≠ Verif.Env.bucket s → L' j = L j) ∧ Grown s v (L (Verif.Env.bucket s)) (L' (Verif.Env.bucket s)) := by
    intro h1 v1 l' fl' r1 hl
    refine ⟨_, _, r1, fun j hj => by simp only [hj, if_false], ?_⟩
    simp only [if_true]
    rcases hl with ⟨h2, h3, _⟩ | h2
    · exact Or.inr (Or.inl ⟨h2, h3⟩)
    · exact Or.inr (Or.inr h2)
  obtain ⟨h1, v1, e1, hcase⟩ := r.envSet_lists s v (f := f') (by omega)
  unfold Verif.Env.define at he'
  simp only [e1] at he'
  rcases hcase with ⟨rfl, hm, _, fl1, r1⟩ | ⟨hne, l1, fl1, r1, hl1⟩
  · simp only [if_true] at he'
    have ho : Outside ⟨h1, st.glob⟩ ⟨collect h1, st.glob⟩ := by
      refine hc h1 ?_
      cases hx : Verif.Env.envSet f st.heap (st.glob (Verif.Env.bucket s)) (.sym s) v with
      | none => unfold Verif.Env.define at he; simp only [hx] at he; cases he
      | some x => have := envSet_mono (f' := f') (by omega) hx; rw [e1] at this; exact this.symm
    obtain ⟨fl2, r2⟩ := r1.outside ho
    obtain ⟨h3, v3, e3, hcase⟩ := r2.envSet_lists s v (f := f') (by omega)
    simp only at e3
    simp only [e3] at he'
    rcases hcase with ⟨rfl, _, _, fl3, r3⟩ | ⟨hne, l3, fl3, r3, hl3⟩
    · simp only [if_true] at he'; cases he'
      exact ⟨L, fl3, by simpa using r3, fun _ _ => rfl, Or.inl rfl⟩
    · simp only [hne, if_false] at he'; cases he'
      simpa using fin r3 hl3
  · simp only [hne, if_false] at he'; cases he'
    simpa using fin r1 hl1

/-- The bindings `L` are those saved, `Lo`, behind bindings of variables that had no value then. -/
def Behind (m0 : Nat → Option Val) (Lo L : Nat → List Bind) : Prop :=
  ∀ k, ∃ N, L k = N ++ Lo k ∧ ∀ b ∈ N, ∀ s, b.key = .sym s → m0 s = none

theorem adds_behind {st st2 : GState} {m : Nat → Option Val} {Lo : Nat → List Bind} {fl : List Nat} (hh : GHist st m)
    (r : Rep st m Lo fl) (ha : Adds m st st2) :
    ∃ M L fl2, GHist st2 M ∧ Rep st2 M L fl2 ∧ Behind m Lo L := by
  induction ha with
  | refl => exact ⟨m, Lo, fl, hh, r, fun k => ⟨[], rfl, by simp⟩⟩
  | @define st1 st2 f collect s v b _ hs hc he ih =>
    obtain ⟨M, L, fl2, hh1, r1, hb⟩ := ih
    obtain ⟨L', fl', r2, hoth, hg⟩ := r1.define_lists hc he
    refine ⟨_, L', fl', ?_, r2, fun k => ?_⟩
    · cases b with
      | true => exact .define hh1 hc he
      | false => exact .defineFails hh1 hc he
    · by_cases hk : k = bucket s
      · subst hk
        obtain ⟨N, hN, hN2⟩ := hb (bucket s)
        rcases hg with hg | ⟨hv, hg⟩ | ⟨i, j, hg⟩
        · exact ⟨N, by rw [hg, hN], hN2⟩
        · rw [hN] at hg hv
          have h0 : value (Lo (bucket s)) (.sym s) = none := by rw [← r.map]; exact hs
          rw [assign_append h0 hv] at hg
          refine ⟨_, hg, fun b hb s' hk => ?_⟩
          have hm : b.key ∈ (assign (.sym s) v N).map (·.key) := List.mem_map.2 ⟨b, hb, rfl⟩
          rw [assign_keys] at hm
          obtain ⟨b', hb', e⟩ := List.mem_map.1 hm
          exact hN2 b' hb' s' (e.trans hk)
        · refine ⟨⟨j, i, .sym s, v⟩ :: N, by rw [hg, hN]; rfl, fun b hb s' hk => ?_⟩
          rcases List.mem_cons.1 hb with rfl | hb
          · cases hk; exact hs
          · exact hN2 b hb s' hk
      · rw [hoth k hk]; exact hb k
  | outside _ ho ih =>
    obtain ⟨M, L, fl2, hh1, r1, hb⟩ := ih
    obtain ⟨fl3, r2⟩ := r1.outside ho
    exact ⟨M, L, fl3, .outside hh1 ho, r2, hb⟩

/-- The part of an environment that is behind other bindings fits in its place. -/
theorem behind_fits {st0 st : GState} {m0 m : Nat → Option Val} {Lo L : Nat → List Bind} {fl0 fl : List Nat}
    (r0 : Rep st0 m0 Lo fl0) (r : Rep st m L fl) (hb : Behind m0 Lo L) (k : Nat) : Fits st k (st0.glob k) (Lo k) := by
  obtain ⟨N, hN, _⟩ := hb k
  have he := r.env k
  rw [hN] at he
  obtain ⟨mid, _, h2⟩ := envAt_append he
  have hsub : (Lo k).Sublist (L k) := by rw [hN]; exact List.sublist_append_right ..
  have hcs : ∀ c ∈ cellsOf (Lo k), c ∈ cellsOf (L k) := fun c hc => (cellsOf_sublist hsub).subset hc
  refine ⟨by rw [envAt_start (r0.env k) h2]; exact h2, (cellsOf_sublist hsub).nodup (r.nodup k), ?_,
    ((hsub.map _).nodup (r.once k)), ?_, fl, r.free, fun c hc => r.notFree k c (hcs c hc)⟩
  · intro b hb
    obtain ⟨s, e, h⟩ := r0.keys k b.key (List.mem_map.2 ⟨b, hb, rfl⟩)
    exact ⟨s, e, by rw [← bucket_mod]; exact h⟩
  · intro c hc j hj hm
    exact hj (r.disj j k c (r.cell.1 hm) (hcs c hc))

theorem restore_spec {st0 : GState} {m0 : Nat → Option Val} {Lo : Nat → List Bind} {fl0 : List Nat} (r0 : Rep st0 m0 Lo fl0)
    (saved : Nat → Val) : ∀ (ks : List Nat) {st : GState} {M : Nat → Option Val} {L : Nat → List Bind} {fl : List Nat},
    (∀ k ∈ ks, k < 32 ∧ saved k = st0.glob k) → GHist st M → Rep st M L fl → Behind m0 Lo L →
    ∃ M' L', GHist (restore saved ks st) M' ∧ Rep (restore saved ks st) M' L' fl ∧
      (∀ k, k ∈ ks → L' k = Lo k) ∧ (∀ k, k ∉ ks → L' k = L k)
  | [], st, M, L, fl, _, hh, r, _ => ⟨M, L, hh, r, by simp, fun _ _ => rfl⟩
  | k :: ks, st, M, L, fl, hks, hh, r, hb => by
    obtain ⟨hk, hsv⟩ := hks k (by simp)
    have hf := behind_fits r0 r hb k
    have hmod : k % 32 = k := Nat.mod_eq_of_lt hk
    have e : extEnvSet st [argNum k, argVal (saved k)] = (⟨st.heap, st.glob.set k (st0.glob k)⟩, true) := by
      simp only [extEnvSet, argNum, argVal, mask_mod, hmod, hsv]
    have r1 := r.put hf
    have hh1 : GHist ⟨st.heap, st.glob.set k (st0.glob k)⟩ (fun s => if s % 32 = k then value (Lo k) (.sym s) else M s) := by
      have := GHist.envSet (a := argNum k) (b := argVal (saved k)) (n := k) (l := Lo k) hh rfl
        (by rw [hmod]; show Fits st k (saved k) _; rw [hsv]; exact hf) e
      rw [hmod] at this
      exact this
    obtain ⟨M', L', h1, h2, h3, h4⟩ := restore_spec r0 saved ks (fun j hj => hks j (by simp [hj])) hh1 r1 (by
      intro j
      by_cases hj : j = k
      · simp only [hj, if_true]; exact ⟨[], rfl, by simp⟩
      · simp only [hj, if_false]; exact hb j)
    have hr : restore saved (k :: ks) st = restore saved ks ⟨st.heap, st.glob.set k (st0.glob k)⟩ := by
      simp only [restore, e]
    rw [hr]
    refine ⟨M', L', h1, h2, fun j hj => ?_, fun j hj => ?_⟩
    · by_cases hm : j ∈ ks
      · exact h3 j hm
      · rw [h4 j hm]
        have : j = k := by simpa [hm] using hj
        simp only [this, if_true]
    · simp at hj
      rw [h4 j hj.2]
      simp only [hj.1, if_false]

/-! ### C117 -/

/-- C117: `(env-get n)` is an association list that has exactly the bindings of the global variables that belong to
bucket `n mod 32`, each once; what is not a number gives a type error. -/
theorem C117_get {st : GState} {m : Nat → Option Val} (hh : GHist st m) (a : Arg) :
    (∀ n, a.num = some n → ∃ l, EnvAt st.heap (extEnvGet st [a]) l nil ∧ (l.map (·.key)).Nodup ∧
      (∀ b ∈ l, ∃ s, b.key = .sym s) ∧
      ∀ s v, (∃ b ∈ l, b.key = .sym s ∧ b.val = v) ↔ (s % 32 = n % 32 ∧ m s = some v)) ∧
    (a.num = none → extEnvGet st [a] = terror) ∧ (∀ as : List Arg, as.length ≠ 1 → extEnvGet st as = terror) := by
  refine ⟨fun n hn => ?_, fun hn => by simp only [extEnvGet, hn], fun as has => ?_⟩
  · obtain ⟨L, fl, r⟩ := hist_rep hh
    refine ⟨L (n % 32), by simp only [extEnvGet, hn, mask_mod]; exact r.env _, r.once _, ?_, ?_⟩
    · intro b hb
      obtain ⟨s, e, _⟩ := r.keys _ b.key (List.mem_map.2 ⟨b, hb, rfl⟩)
      exact ⟨s, e⟩
    · intro s v
      constructor
      · rintro ⟨b, hb, hk, hv⟩
        obtain ⟨s', e, hs'⟩ := r.keys _ b.key (List.mem_map.2 ⟨b, hb, rfl⟩)
        rw [hk] at e; cases e
        rw [bucket_mod] at hs'
        refine ⟨hs', ?_⟩
        rw [r.map, bucket_mod, hs']
        have honce := r.once (n % 32)
        generalize L (n % 32) = l at hb honce
        clear r
        induction l with
        | nil => cases hb
        | cons x l ih =>
          rw [List.map_cons, List.nodup_cons] at honce
          rcases List.mem_cons.1 hb with rfl | hb'
          · simp [value, hk, hv]
          · have hx : ¬ x.key = .sym s := fun e => honce.1 (by rw [e, ← hk]; exact List.mem_map.2 ⟨b, hb', rfl⟩)
            have := ih hb' honce.2
            simp only [value, List.find?_cons, hx, decide_false] at this ⊢
            exact this
      · rintro ⟨hs, hm⟩
        rw [r.map, bucket_mod, hs] at hm
        simp only [value, Option.map_eq_some_iff] at hm
        obtain ⟨b, hb, hv⟩ := hm
        have := List.find?_some hb
        exact ⟨b, List.mem_of_find?_eq_some hb, by simpa using this, hv⟩
  · match as, has with
    | [], _ => rfl
    | _ :: _ :: _, _ => rfl

/-- C117: after `(env-set n e)`, for an association list `e` of variables that belong to bucket `n mod 32`, these variables have
the values in `e`, other variables of the bucket have none, all other variables are as before, and `env-get` returns `e`
itself. The result is an ordinary global environment (so all other theorems about histories apply to it). -/
theorem C117_set {st : GState} {m : Nat → Option Val} (hh : GHist st m) {a b : Arg} {n : Nat} {l : List Bind} (ha : a.num = some n)
    (hf : Fits st (n % 32) b.val l) :
    ∃ st', extEnvSet st [a, b] = (st', true) ∧ st'.heap = st.heap ∧ extEnvGet st' [a] = b.val ∧
      GHist st' (fun s => if s % 32 = n % 32 then value l (.sym s) else m s) ∧
      (∀ s, ∃ n0, ∀ f, n0 ≤ f → globalLookup f st'.heap st'.glob s =
        some (if s % 32 = n % 32 then value l (.sym s) else m s)) := by
  have e : extEnvSet st [a, b] = (⟨st.heap, st.glob.set (n % 32) b.val⟩, true) := by
    simp only [extEnvSet, ha, mask_mod]
  have hh' := GHist.envSet hh ha hf e
  refine ⟨_, e, rfl, ?_, hh', fun s => C20_global_map hh' s⟩
  simp only [extEnvGet, ha, mask_mod, Glob.set, if_true]

/-- C117: calls of `env-set` with a first argument that is not a number, or not with two arguments, change nothing. -/
theorem C117_set_rejected (st : GState) (as : List Arg) (h : as.length ≠ 2 ∨ ∃ a b, as = [a, b] ∧ a.num = none) :
    extEnvSet st as = (st, false) := by
  rcases h with h | ⟨a, b, rfl, h⟩
  · match as, h with
    | [], _ => rfl
    | [_], _ => rfl
    | _ :: _ :: _ :: _, _ => rfl
  · simp only [extEnvSet, h]

/-- C117, the use that the documentation describes: take the environment out, put a new binding (in cells that are not
part of the global environment) in front and store it. The new variable has its value, and nothing else has changed. -/
theorem C117_extend {st : GState} {m : Nat → Option Val} (hh : GHist st m) {n s i j : Nat} {v : Val} {fl : List Nat}
    (hs : s % 32 = n % 32) (hm : m s = none)
    (hi : (st.heap.cells i).content = .pair (.ptr .cons false j) (extEnvGet st [argNum n]))
    (hj : (st.heap.cells j).content = .pair (.sym s) v) (hij : i ≠ j)
    (hfl : FreeOK st.heap fl) (hif : i ∉ fl) (hjf : j ∉ fl)
    (hout : ∀ k, ¬ EnvCell st.heap (st.glob k) i ∧ ¬ EnvCell st.heap (st.glob k) j) :
    ∃ st', extEnvSet st [argNum n, argVal (.ptr .cons false i)] = (st', true) ∧ GHist st' (upd m s (some v)) := by
  obtain ⟨L, fl', r⟩ := hist_rep hh
  obtain rfl := freeOK_unique hfl r.free
  have hg : extEnvGet st [argNum n] = st.glob (n % 32) := by simp only [extEnvGet, argNum, mask_mod]
  rw [hg] at hi
  have hf : Fits st (n % 32) (argVal (.ptr .cons false i)).val (⟨i, j, .sym s, v⟩ :: L (n % 32)) := by
    refine ⟨⟨rfl, hj, _, hi, r.env _⟩, ?_, ?_, ?_, ?_, fl, hfl, ?_⟩
    · rw [cellsOf_cons, List.nodup_cons, List.nodup_cons]
      refine ⟨?_, ?_, r.nodup _⟩
      · intro h
        rcases List.mem_cons.1 h with h | h
        · exact hij h
        · exact (hout (n % 32)).1 (r.cell.2 h)
      · intro h; exact (hout (n % 32)).2 (r.cell.2 h)
    · intro b hb
      rcases List.mem_cons.1 hb with rfl | hb
      · exact ⟨s, rfl, hs⟩
      · obtain ⟨s', e, h⟩ := r.keys _ b.key (List.mem_map.2 ⟨b, hb, rfl⟩)
        exact ⟨s', e, by rw [← bucket_mod]; exact h⟩
    · rw [List.map_cons, List.nodup_cons]
      refine ⟨value_none_iff.1 ?_, r.once _⟩
      rw [← hs, ← bucket_mod, ← r.map]; exact hm
    · intro c hc k hk
      rw [cellsOf_cons] at hc
      rcases List.mem_cons.1 hc with rfl | hc
      · exact (hout k).1
      rcases List.mem_cons.1 hc with rfl | hc
      · exact (hout k).2
      · exact fun h => hk (r.disj k _ c (r.cell.1 h) hc)
    · intro c hc
      rw [cellsOf_cons] at hc
      rcases List.mem_cons.1 hc with rfl | hc
      · exact hif
      rcases List.mem_cons.1 hc with rfl | hc
      · exact hjf
      · exact r.notFree _ c hc
  obtain ⟨st', e, _, _, hh', _⟩ := C117_set hh (a := argNum n) rfl hf
  refine ⟨st', e, ?_⟩
  have : (fun s' => if s' % 32 = n % 32 then value (⟨i, j, .sym s, v⟩ :: L (n % 32)) (.sym s') else m s') = upd m s (some v) := by
    funext s'
    simp only [upd]
    by_cases h1 : s' = s
    · subst h1; simp [hs, value]
    · simp only [h1, if_false]
      split
      · next h2 =>
        have h3 : ¬ s = s' := fun e => h1 e.symm
        rw [r.map, bucket_mod, h2]
        simp [value, h3]
      · rfl
  rw [this] at hh'
  exact hh'

/-- C117, saving and restoring, partial: if since the 32 values of `env-get` were taken only variables were defined (any number of
times) that had no value then, storing the 32 values gives the global environment back as it was: the old variables
have their values, the new ones have none.
What is missing is the same for histories that change or remove an old variable: see `C117_snapshot_violated`. -/
theorem C117_restore_partial {st st2 : GState} {m : Nat → Option Val} (hh : GHist st m) (ha : Adds m st st2) :
    GHist (restore (fun k => extEnvGet st [argNum k]) (List.range 32) st2) m ∧
    ∀ s, ∃ n, ∀ f, n ≤ f → globalLookup f (restore (fun k => extEnvGet st [argNum k]) (List.range 32) st2).heap
      (restore (fun k => extEnvGet st [argNum k]) (List.range 32) st2).glob s = some (m s) := by
  obtain ⟨Lo, fl0, r0⟩ := hist_rep hh
  obtain ⟨M, L, fl, hh2, r2, hb⟩ := adds_behind hh r0 ha
  obtain ⟨M', L', h1, h2, h3, _⟩ := restore_spec r0 (fun k => extEnvGet st [argNum k]) (List.range 32) (fun k hk => by
    have hk := List.mem_range.1 hk
    exact ⟨hk, by simp only [extEnvGet, argNum, mask_mod, Nat.mod_eq_of_lt hk]⟩) hh2 r2 hb
  have : M' = m := by
    funext s
    rw [h2.map, r0.map, h3 _ (List.mem_range.2 (bucket_lt s))]
  rw [this] at h1
  exact ⟨h1, fun s => C20_global_map h1 s⟩

/-- C117 fails for variables that are defined anew: what `env-get` returns is the environment itself, not a copy, and `define`
changes it in place. Storing the value of `env-get` does not undo the definition. -/
theorem C117_snapshot_violated {st st2 : GState} {m : Nat → Option Val} (hh : GHist st m) {s : Nat} {v0 v : Val} (hm : m s = some v0)
    {f : Nat} {collect : Heap → Heap} {b : Bool} (he : define f collect st s v = some (st2, b)) :
    extEnvSet st2 [argNum s, argVal (extEnvGet st [argNum s])] = (st2, true) ∧
    ∃ n, ∀ f, n ≤ f → globalLookup f st2.heap st2.glob s = some (some v) := by
  obtain ⟨L, fl, r⟩ := hist_rep hh
  let f' := max f ((L (bucket s)).length + 1)
  have he' := define_mono (f' := f') (by omega) he
  obtain ⟨h1, v1, e1, hcase⟩ := r.envSet_lists s v (f := f') (by omega)
  unfold define at he'
  simp only [e1] at he'
  have hv : value (L (bucket s)) (.sym s) = some v0 := by rw [← r.map]; exact hm
  rcases hcase with ⟨_, h, _⟩ | ⟨hne, l1, fl1, r1, hl1⟩
  · rw [hm] at h; cases h
  · simp only [hne, if_false] at he'; cases he'
    rcases hl1 with ⟨_, _, rfl⟩ | ⟨i, j, rfl⟩
    · constructor
      · simp only [extEnvSet, extEnvGet, argNum, argVal, mask_mod, set_same, ← bucket_mod]
      · have := r1.map s
        refine ⟨(if bucket s = bucket s then l1 else L (bucket s)).length + 1, fun f hf => ?_⟩
        rw [globalLookup, globalLoop_spec (key := .sym s) rfl f (r1.env (bucket s)) hf, ← this]
        simp [upd]
    · exfalso
      have := r1.once (bucket s)
      simp only [if_true, List.map_cons, List.nodup_cons] at this
      have h2 := value_none_iff.2 this.1
      rw [hv] at h2
      cases h2

/-! ### Concrete cases -/

example : ∃ l, EnvAt demo3.heap (extEnvGet demo3 [argNum 64]) l nil ∧ ∃ b ∈ l, b.key = .sym vb ∧ b.val = num 2 := by
  obtain ⟨l, h1, _, _, h2⟩ := (C117_get demo3_hist (argNum 64)).1 64 rfl
  exact ⟨l, h1, (h2 vb (num 2)).2 (by decide)⟩

/-- The part of bucket 0 behind its first binding fits in bucket 0. -/
theorem demo3_fits : Fits demo3 0 (.ptr .cons false 1) [⟨1, 0, .sym va, num 1⟩] where
  env := ⟨rfl, rfl, nil, rfl, rfl⟩
  nodup := by decide
  keys := fun b hb => ⟨va, by rw [List.mem_singleton.1 hb], by decide⟩
  once := by decide
  others := by
    intro c hc j hj hm
    obtain ⟨L, fl, r⟩ := hist_rep demo3_hist
    have h0 : EnvCell demo3.heap (demo3.glob 0) c := envAt_cell demo3_env c (by revert hc; simp [cellsOf]; omega)
    exact hj (r.disj j 0 c (r.cell.1 hm) (r.cell.1 h0))
  used := ⟨_, demo3_free, by decide⟩

example : ∃ st', extEnvSet demo3 [argNum 32, argVal (.ptr .cons false 1)] = (st', true) ∧
    ∃ n, ∀ f, n ≤ f → globalLookup f st'.heap st'.glob vb = some none := by
  obtain ⟨st', e, _, _, _, h⟩ := C117_set demo3_hist (a := argNum 32) (b := argVal (.ptr .cons false 1)) rfl demo3_fits
  refine ⟨st', e, ?_⟩
  have h1 : vb % 32 = 32 % 32 := by decide
  have := h vb
  rw [if_pos h1] at this
  exact this

/-- A variable that is added, changed, and gone after the restoring. -/
example : Adds (upd (fun _ => none) va (some (num 1))) (demo1 9) demo2 :=
  .define (f := 5) (collect := id) (s := vb) (v := num 2) (r := true) .refl (by decide)
    (fun h1 he => by have : (envSet 5 (demo1 9).heap ((demo1 9).glob (bucket vb)) (.sym vb) (num 2)).map (·.2) = some (.ptr .cons false 3) := by decide
                     rw [he] at this; cases this) (by rfl)

/-- The state in which the program has made the pair (d . 5) and the list of it and `(env-get 0)`, for a variable `d` of bucket 0. -/
def demoCons : GState := ⟨(cons (cons demo3.heap (.sym 0x40060) (num 5)).1 (.ptr .cons false 6) (extEnvGet demo3 [argNum 0])).1, demo3.glob⟩

theorem demoCons_free : FreeOK demoCons.heap [8] :=
  ⟨⟨rfl, by decide, nil, nil, rfl, rfl⟩, by decide, rfl⟩

theorem demoCons_out (k c : Nat) (h : EnvCell demo3.heap (demo3.glob k) c) : c ∉ [6, 7, 8] := by
  obtain ⟨L, fl, r⟩ := hist_rep demo3_hist
  have := r.notFree k c (r.cell.1 h)
  rw [freeOK_unique r.free demo3_free] at this
  exact this

theorem demoCons_same (c : Nat) (h : c ∉ [6, 7, 8]) : (demoCons.heap.cells c).content = (demo3.heap.cells c).content := by
  obtain ⟨h1, a1, a2, _, _, _, _, _, _, a9⟩ := allocateCell_spec demo3_free .cons (.pair (.sym 0x40060) (num 5))
  obtain ⟨h2, b1, _, _, _, _, _, _, _, b9⟩ := allocateCell_spec a2 .cons (.pair (.ptr .cons false 6) (extEnvGet demo3 [argNum 0]))
  simp only [List.mem_cons, not_or] at h
  have e : demoCons.heap = h2 := by simp only [demoCons, cons, a1, b1]
  rw [e, b9 c h.2.1, a9 c h.1]

theorem demoCons_outside : Outside demo3 demoCons :=
  ⟨rfl, fun k c h => demoCons_same c (demoCons_out k c h), [8], demoCons_free,
    fun k c h hm => demoCons_out k c h (by simp at hm; simp [hm])⟩

/-- The documented use: the new variable `d` can be looked up. -/
example : ∃ st' m', extEnvSet demoCons [argNum 0, argVal (.ptr .cons false 7)] = (st', true) ∧ GHist st' m' ∧
    m' 0x40060 = some (num 5) ∧ m' va = some (num 1) := by
  have hh : GHist demoCons _ := .outside demo3_hist demoCons_outside
  obtain ⟨L, fl, r⟩ := hist_rep hh
  obtain ⟨L3, fl3, r3⟩ := hist_rep demo3_hist
  obtain ⟨fl4, r4⟩ := r3.outside demoCons_outside
  have hout : ∀ k c, EnvCell demoCons.heap (demoCons.glob k) c → c ∉ [6, 7, 8] := fun k c h =>
    demoCons_out k c (r3.cell.2 (r4.cell.1 h))
  obtain ⟨st', e, h⟩ := C117_extend hh (n := 0) (s := 0x40060) (i := 7) (j := 6) (v := num 5) (by decide) (by decide) rfl rfl
    (by decide) demoCons_free (by decide) (by decide) (fun k => ⟨fun h => hout k 7 h (by decide), fun h => hout k 6 h (by decide)⟩)
  exact ⟨st', _, e, h, by decide, by decide⟩

example : ∃ st2, define 5 id demo3 va (num 7) = some (st2, true) := ⟨_, rfl⟩

end Verif.Env
