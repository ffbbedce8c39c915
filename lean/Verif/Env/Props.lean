import Verif.Env.Hist
import Verif.Heap.Props

/-! Environments: properties C20, C21 and C22. -/

namespace Verif.Env
open Verif.Heap

/-! ### More fuel makes no difference -/

theorem modifyLoop_mono {h : Heap} {key val : Val} : ∀ {f f' : Nat} {v : Val} {r : Option Heap}, f ≤ f' →
    modifyLoop h key val f v = some r → modifyLoop h key val f' v = some r := by
  intro f
  induction f with
  | zero => intro f' v r _ h; cases h
  | succ f ih =>
    intro f' v r hle hr
    obtain ⟨f', rfl⟩ := Nat.exists_eq_succ_of_ne_zero (by omega : f' ≠ 0)
    simp only [modifyLoop] at hr ⊢
    split
    · next hc =>
      rw [if_pos hc] at hr
      split
      · next hk => rw [if_pos hk] at hr; exact hr
      · next hk => rw [if_neg hk] at hr; exact ih (by omega) hr
    · next hc => rw [if_neg hc] at hr; exact hr

theorem dropLoop_mono {h : Heap} {key : Val} : ∀ {f f' : Nat} {p v : Val} {r : Option Heap}, f ≤ f' →
    dropLoop h key f p v = some r → dropLoop h key f' p v = some r := by
  intro f
  induction f with
  | zero => intro f' p v r _ h; cases h
  | succ f ih =>
    intro f' p v r hle hr
    obtain ⟨f', rfl⟩ := Nat.exists_eq_succ_of_ne_zero (by omega : f' ≠ 0)
    simp only [dropLoop] at hr ⊢
    split
    · next hc =>
      rw [if_pos hc] at hr
      split
      · next hk => rw [if_pos hk] at hr; exact hr
      · next hk => rw [if_neg hk] at hr; exact ih (by omega) hr
    · next hc => rw [if_neg hc] at hr; exact hr

theorem envSet_mono {h : Heap} {env key val : Val} {f f' : Nat} {r : Heap × Val} (hle : f ≤ f')
    (he : envSet f h env key val = some r) : envSet f' h env key val = some r := by
  unfold envSet at he ⊢
  cases hm : modifyLoop h key val f env with
  | none => rw [hm] at he; cases he
  | some x => rw [hm] at he; rw [modifyLoop_mono hle hm]; exact he

theorem modifyBinding_mono {h : Heap} {env key val : Val} {f f' : Nat} {r : Heap × Val} (hle : f ≤ f')
    (he : modifyBinding f h env key val = some r) : modifyBinding f' h env key val = some r := by
  unfold modifyBinding at he ⊢
  cases hm : modifyLoop h key val f env with
  | none => rw [hm] at he; cases he
  | some x => rw [hm] at he; rw [modifyLoop_mono hle hm]; exact he

theorem define_mono {collect : Heap → Heap} {st : GState} {s : Nat} {v : Val} {f f' : Nat} {r : GState × Bool} (hle : f ≤ f')
    (he : define f collect st s v = some r) : define f' collect st s v = some r := by
  unfold define at he ⊢
  dsimp only at he ⊢
  cases hm : envSet f st.heap (st.glob (bucket s)) (.sym s) v with
  | none => rw [hm] at he; cases he
  | some x =>
    rw [hm] at he; rw [envSet_mono hle hm]
    dsimp only at he ⊢
    split
    · next h1 =>
      rw [if_pos h1] at he
      cases hm2 : envSet f (collect x.1) (st.glob (bucket s)) (.sym s) v with
      | none => rw [hm2] at he; cases he
      | some y => rw [hm2] at he; rw [envSet_mono hle hm2]; exact he
    · next h1 => rw [if_neg h1] at he; exact he

theorem cDefine_mono {st : GState} {s : Nat} {v : Val} {f f' : Nat} {r : GState} (hle : f ≤ f')
    (he : cDefine f st s v = some r) : cDefine f' st s v = some r := by
  unfold cDefine at he ⊢
  dsimp only at he ⊢
  cases hm : envSet f st.heap (st.glob (bucket s)) (.sym s) v with
  | none => rw [hm] at he; cases he
  | some x => rw [hm] at he; rw [envSet_mono hle hm]; exact he

theorem performSetvar_mono {st : GState} {env : Val} {s : Nat} {v : Val} {f f' : Nat} {r : GState × SetRes} (hle : f ≤ f')
    (he : performSetvar f st env s v = some r) : performSetvar f' st env s v = some r := by
  unfold performSetvar at he ⊢
  split
  · next hs =>
    rw [if_pos hs] at he
    cases hm : modifyBinding f st.heap env (.sym s) v with
    | none => rw [hm] at he; cases he
    | some x =>
      rw [hm] at he; rw [modifyBinding_mono hle hm]
      dsimp only at he ⊢
      split
      · next h1 =>
        rw [if_pos h1] at he
        cases hm2 : modifyBinding f x.1 (st.glob (bucket s)) (.sym s) v with
        | none => rw [hm2] at he; cases he
        | some y => rw [hm2] at he; rw [modifyBinding_mono hle hm2]; exact he
      · next h1 => rw [if_neg h1] at he; exact he
  · next hs => rw [if_neg hs] at he; exact he

theorem undefine_mono {st : GState} {s : Nat} {f f' : Nat} {r : GState × Bool} (hle : f ≤ f')
    (he : undefine f st s = some r) : undefine f' st s = some r := by
  unfold undefine dropBinding at he ⊢
  dsimp only at he ⊢
  split
  · next h1 => split at h1 <;> (try rw [if_pos (by assumption)] at he)
               · cases h1
               · rename_i hk
                 rw [if_neg hk] at he
                 cases hm : dropLoop st.heap (.sym s) f (st.glob (bucket s)) (cdr st.heap (st.glob (bucket s))) with
                 | none => rw [hm] at he; cases he
                 | some y => rw [dropLoop_mono hle hm] at h1; cases y <;> cases h1
  · next h1 r1 heq =>
    split at heq
    · next hk => rw [if_pos hk] at he; cases heq; exact he
    · next hk =>
      rw [if_neg hk] at he
      cases hm : dropLoop st.heap (.sym s) f (st.glob (bucket s)) (cdr st.heap (st.glob (bucket s))) with
      | none => rw [hm] at he; cases he
      | some y => rw [hm] at he; rw [dropLoop_mono hle hm] at heq; cases y <;> cases heq <;> exact he

/-! ### C20 -/

/-- What an assignment to a bound variable does to a represented global environment. -/
theorem setvar_rep {st : GState} {m : Nat → Option Val} {L : Nat → List Bind} {fl : List Nat} (r : Rep st m L fl)
    {env : Val} {l : List Bind} (hl : Local st env l) {s : Nat} (hs : runtimeStart ≤ s) (v : Val) {f : Nat}
    (hf1 : l.length < f) (hf2 : (L (bucket s)).length < f) :
    (value l (.sym s) ≠ none → ∃ h' , performSetvar f st env s v = some (⟨h', st.glob⟩, .ok) ∧ Rep ⟨h', st.glob⟩ m L fl ∧
        EnvAt h' env (assign (.sym s) v l) nil) ∧
    (value l (.sym s) = none → m s ≠ none → ∃ h' L' fl', performSetvar f st env s v = some (⟨h', st.glob⟩, .ok) ∧
        Rep ⟨h', st.glob⟩ (upd m s (some v)) L' fl') := by
  constructor
  · intro hv
    obtain ⟨h', e, hne, he, r'⟩ := modifyBinding_local r hl (v := v) hf1 hv
    exact ⟨h', by simp only [performSetvar, hs, if_true, e, hne, if_false], r', he⟩
  · intro hv hm
    obtain ⟨h', L', fl', e, hne, r'⟩ := r.modify s v hf2 hm
    refine ⟨h', L', fl', ?_, r'⟩
    have e1 := modifyBinding_none (v := v) rfl hl.1 hf1 hv
    simp only [performSetvar, hs, if_true, e1, e, hne, if_false, set_same]

theorem performSetvar_runtime {f : Nat} {st st' : GState} {env : Val} {s : Nat} {v : Val}
    (h : performSetvar f st env s v = some (st', .ok)) : runtimeStart ≤ s := by
  unfold performSetvar at h
  split at h
  · assumption
  · cases h

theorem hist_rep {st : GState} {m : Nat → Option Val} (hh : GHist st m) : ∃ L fl, Rep st m L fl := by
  induction hh with
  | @init h fl hf =>
    exact ⟨fun _ => [], fl, hf, fun _ => rfl, by simp [cellsOf], by simp [cellsOf], by simp [cellsOf], by simp, by simp,
      by simp [value]⟩
  | @define st st' m f collect s v _ hc he ih =>
    obtain ⟨L, fl, r⟩ := ih
    let f' := max f ((L (bucket s)).length + 1)
    have he' := define_mono (f' := f') (by omega) he
    obtain ⟨h1, v1, e1, hcase⟩ := r.envSet s v (f := f') (by omega)
    unfold define at he'
    simp only [e1] at he'
    rcases hcase with ⟨rfl, hm, _, fl1, r1⟩ | ⟨hne, L1, fl1, r1⟩
    · simp only [if_true] at he'
      have ho : Outside ⟨h1, st.glob⟩ ⟨collect h1, st.glob⟩ := by
        refine hc h1 ?_
        cases hx : envSet f st.heap (st.glob (bucket s)) (.sym s) v with
        | none => unfold define at he; simp only [hx] at he; cases he
        | some x => have := envSet_mono (f' := f') (by omega) hx; rw [e1] at this; exact this.symm
      obtain ⟨fl2, r2⟩ := r1.outside ho
      obtain ⟨h3, v3, e3, hcase⟩ := r2.envSet s v (f := f') (by omega)
      simp only at e3
      simp only [e3] at he'
      rcases hcase with ⟨rfl, _⟩ | ⟨hne, L3, fl3, r3⟩
      · simp at he'
      · simp only [hne, if_false] at he'; cases he'; exact ⟨_, _, r3⟩
    · simp only [hne, if_false] at he'; cases he'; exact ⟨_, _, r1⟩
  | @defineFails st st' m f collect s v _ hc he ih =>
    obtain ⟨L, fl, r⟩ := ih
    let f' := max f ((L (bucket s)).length + 1)
    have he' := define_mono (f' := f') (by omega) he
    obtain ⟨h1, v1, e1, hcase⟩ := r.envSet s v (f := f') (by omega)
    unfold define at he'
    simp only [e1] at he'
    rcases hcase with ⟨rfl, hm, _, fl1, r1⟩ | ⟨hne, L1, fl1, r1⟩
    · simp only [if_true] at he'
      have ho : Outside ⟨h1, st.glob⟩ ⟨collect h1, st.glob⟩ := by
        refine hc h1 ?_
        cases hx : envSet f st.heap (st.glob (bucket s)) (.sym s) v with
        | none => unfold define at he; simp only [hx] at he; cases he
        | some x => have := envSet_mono (f' := f') (by omega) hx; rw [e1] at this; exact this.symm
      obtain ⟨fl2, r2⟩ := r1.outside ho
      obtain ⟨h3, v3, e3, hcase⟩ := r2.envSet s v (f := f') (by omega)
      simp only at e3
      simp only [e3] at he'
      rcases hcase with ⟨rfl, _, _, fl3, r3⟩ | ⟨hne, L3, fl3, r3⟩
      · simp only [if_true] at he'; cases he'; exact ⟨_, _, r3⟩
      · simp [hne] at he'
    · simp [hne] at he'
  | @cDefine st st' m f s v _ hn he ih =>
    obtain ⟨L, fl, r⟩ := ih
    let f' := max f ((L (bucket s)).length + 1)
    have he' := cDefine_mono (f' := f') (by omega) he
    obtain ⟨h1, v1, e1, hcase⟩ := r.envSet s v (f := f') (by omega)
    simp only [Verif.Env.cDefine, e1] at he'
    rcases hcase with ⟨_, _, hlt, _⟩ | ⟨hne, L1, fl1, r1⟩
    · omega
    · cases he'; exact ⟨_, _, r1⟩
  | @setGlobal st st' m f s v env l _ hl hv hm he ih =>
    obtain ⟨L, fl, r⟩ := ih
    let f' := max f (max (l.length + 1) ((L (bucket s)).length + 1))
    have he' := performSetvar_mono (f' := f') (by omega) he
    obtain ⟨h', L', fl', e, r'⟩ := (setvar_rep r hl (performSetvar_runtime he) v (f := f') (by omega) (by omega)).2 hv hm
    rw [e] at he'; cases he'; exact ⟨_, _, r'⟩
  | @setLocal st st' m f s v env l _ hl hv he ih =>
    obtain ⟨L, fl, r⟩ := ih
    let f' := max f (max (l.length + 1) ((L (bucket s)).length + 1))
    have he' := performSetvar_mono (f' := f') (by omega) he
    obtain ⟨h', e, r', _⟩ := (setvar_rep r hl (performSetvar_runtime he) v (f := f') (by omega) (by omega)).1 hv
    rw [e] at he'; cases he'; exact ⟨_, _, r'⟩
  | @undefine st st' m f s b _ he ih =>
    obtain ⟨L, fl, r⟩ := ih
    let f' := max f ((L (bucket s)).length + 1)
    have he' := undefine_mono (f' := f') (by omega) he
    obtain ⟨st1, b1, L1, e, r1, _⟩ := r.drop s (f := f') (by omega)
    rw [e] at he'; cases he'; exact ⟨_, _, r1⟩
  | @envSet st st' m a b n l _ ha hf he ih =>
    obtain ⟨L, fl, r⟩ := ih
    have hn : n &&& 0x1F = n % 32 := Nat.and_two_pow_sub_one_eq_mod n 5
    simp only [extEnvSet, ha, hn, Prod.mk.injEq, and_true] at he
    cases he
    exact ⟨_, fl, r.put hf⟩
  | outside _ ho ih =>
    obtain ⟨L, fl, r⟩ := ih
    obtain ⟨fl', r'⟩ := r.outside ho
    exact ⟨L, fl', r'⟩

/-- C20, global environment: after any history of `define`, `lbm_define`, assignments to bound variables, `undefine`, `env-set`,
garbage collections and other heap activity, looking up any symbol gives what the map of the history says:
the value last stored for that symbol, or nothing. -/
theorem C20_global_map {st : GState} {m : Nat → Option Val} (hh : GHist st m) (s : Nat) :
    ∃ n, ∀ f, n ≤ f → globalLookup f st.heap st.glob s = some (m s) := by
  obtain ⟨L, fl, r⟩ := hist_rep hh
  refine ⟨(L (bucket s)).length + 1, fun f hf => ?_⟩
  rw [r.map s]
  exact globalLoop_spec rfl f (r.env _) (by omega)

/-- C20: after any such history, `define` terminates. It succeeds when the key is already bound or two cells are free,
and otherwise, after a garbage collection, exactly when that has left two free cells. -/
theorem C20_define_succeeds {st : GState} {m : Nat → Option Val} (hh : GHist st m) (s : Nat) (v : Val)
    (collect : Heap → Heap)
    (hc : ∀ n h1, envSet n st.heap (st.glob (bucket s)) (.sym s) v = some (h1, merror) →
      Outside ⟨h1, st.glob⟩ ⟨collect h1, st.glob⟩) :
    ∃ n st' b, (∀ f, n ≤ f → define f collect st s v = some (st', b)) ∧
      (m s ≠ none → b = true) ∧ (2 ≤ numFree st.heap → b = true) ∧
      (b = false → ∃ h1, numFree (collect h1) < 2) ∧
      GHist st' (if b then upd m s (some v) else m) := by
  obtain ⟨L, fl, r⟩ := hist_rep hh
  let f' := (L (bucket s)).length + 1
  obtain ⟨h1, v1, e1, hcase⟩ := r.envSet s v (f := f') (by omega)
  have key : ∃ st' b, define f' collect st s v = some (st', b) ∧ (m s ≠ none → b = true) ∧
      (2 ≤ numFree st.heap → b = true) ∧ (b = false → ∃ h1, numFree (collect h1) < 2) := by
    rcases hcase with ⟨rfl, hm, hlt, fl1, r1⟩ | ⟨hne, L1, fl1, r1⟩
    · obtain ⟨fl2, r2⟩ := r1.outside (hc _ _ e1)
      obtain ⟨h3, v3, e3, hcase⟩ := r2.envSet s v (f := f') (by omega)
      simp only at e3
      rcases hcase with ⟨rfl, _, hlt', fl3, r3⟩ | ⟨hne, L3, fl3, r3⟩
      · refine ⟨⟨h3, st.glob⟩, false, ?_, fun h => absurd hm h, fun h => by omega, fun _ => ⟨h1, hlt'⟩⟩
        simp only [define, e1, e3, if_true]
      · refine ⟨⟨h3, st.glob.set (bucket s) v3⟩, true, ?_, fun _ => rfl, fun _ => rfl, fun h => by cases h⟩
        simp only [define, e1, e3, if_true, hne, if_false]
    · refine ⟨⟨h1, st.glob.set (bucket s) v1⟩, true, ?_, fun _ => rfl, fun _ => rfl, fun h => by cases h⟩
      simp only [define, e1, hne, if_false]
  obtain ⟨st', b, e, k1, k2, k3⟩ := key
  refine ⟨f', st', b, fun f hf => define_mono hf e, k1, k2, k3, ?_⟩
  cases b with
  | true => exact .define hh (hc f') e
  | false => exact .defineFails hh (hc f') e

/-- A garbage collection is an activity that leaves the environment alone, by C07. -/
theorem gc_outside {h h' : Heap} {g : Glob} {pre : List Val} {ctxs : List CtxRoots}
    (hp : Preserves h h' (rootsOf h pre ((List.range 32).map g) ctxs))
    (hg : ∀ k, 32 ≤ k → g k = nil) : Outside ⟨h, g⟩ ⟨h', g⟩ := by
  have hr : ∀ v c, EnvCell h v c → ∀ roots, (∀ i, v = .ptr .cons false i → Reachable h roots i) → Reachable h roots c := by
    intro v c hc
    induction hc with
    | @spine i => intro roots hv; exact hv i rfl
    | @pair i b d hc =>
      intro roots hv
      exact .step (t := .cons) (hv i rfl) (by rw [hc]; simp [Content.refs])
    | @next i c a d hc _ ih =>
      intro roots hv
      refine ih roots (fun j hj => .step (t := .cons) (hv i rfl) ?_)
      rw [hc, hj]; simp [Content.refs]
  have hcell : ∀ k c, EnvCell h (g k) c → Reachable h (rootsOf h pre ((List.range 32).map g) ctxs) c := by
    intro k c hc
    refine hr _ _ hc _ (fun i hi => .root (t := .cons) ?_)
    rw [← hi]
    have hk : k < 32 := by
      apply Decidable.byContradiction; intro hk
      rw [hg k (by omega)] at hi; cases hi
    simp only [rootsOf, List.mem_append, List.mem_map, List.mem_range]
    exact Or.inl (Or.inr ⟨k, hk, rfl⟩)
  obtain ⟨h1, _, _, ⟨fl, hfl, hn⟩, _⟩ := hp
  exact ⟨rfl, fun k c hc => by show (h'.cells c).content = (h.cells c).content; rw [h1 c (hcell k c hc)],
    fl, hfl, fun k c hc => hn c (hcell k c hc)⟩

/-! ### C20, local environments and copies -/

/-- C20: looking a key up in a local environment gives the innermost binding that is not a placeholder. -/
theorem C20_lookup_innermost {h : Heap} {env : Val} {l : List Bind} (he : EnvAt h env l nil) (key : Val) :
    ∃ n, ∀ f, n ≤ f → lookupB h key f env = some (visible l key) :=
  ⟨l.length + 1, fun f hf => lookupB_spec rfl f he (by omega)⟩

/-- C20: setting a key that is not bound, with two free cells: the new environment has the binding in front,
the old environment and every other one made of cells in use keep their bindings. -/
theorem C20_set_new {h : Heap} {env key val : Val} {l : List Bind} {fl : List Nat} (he : EnvAt h env l nil)
    (hfl : FreeOK h fl) (hsep : ∀ c ∈ cellsOf l, c ∉ fl) (hv : value l key = none) (h2 : 2 ≤ numFree h) :
    ∃ n h' env' b fl', (∀ f, n ≤ f → envSet f h env key val = some (h', env')) ∧ EnvAt h' env' (b :: l) nil ∧
      b.key = key ∧ b.val = val ∧ FreeOK h' fl' ∧ (∀ c ∈ fl', c ∈ fl) ∧ b.spine ∈ fl ∧ b.pair ∈ fl ∧
      b.spine ≠ b.pair ∧ (∀ c ∈ cellsOf (b :: l), c ∉ fl') ∧
      (∀ w l2 t, EnvAt h w l2 t → (∀ c ∈ cellsOf l2, c ∉ fl) → EnvAt h' w l2 t) := by
  rw [freeOK_len hfl] at h2
  obtain ⟨i, j, fl, rfl⟩ : ∃ i j t, fl = i :: j :: t := by
    match fl, h2 with
    | [], h => simp at h
    | [_], h => simp at h
    | i :: j :: t, _ => exact ⟨i, j, t, rfl⟩
  obtain ⟨h', e, hfr, he', hc, _⟩ := envSet_new (val := val) (f := l.length + 1) rfl he (by omega) hv hfl hsep
  have hnd := hfl.2.1
  simp only [List.nodup_cons, List.mem_cons, not_or] at hnd
  refine ⟨l.length + 1, h', _, ⟨j, i, key, val⟩, fl, fun f hf => envSet_mono hf e, he', rfl, rfl, hfr,
    fun c hc => by simp [hc], by simp, by simp, fun e => hnd.1.1 e.symm, ?_, ?_⟩
  · intro c hc
    rw [cellsOf_cons] at hc
    rcases List.mem_cons.1 hc with rfl | hc
    · exact hnd.2.1
    rcases List.mem_cons.1 hc with rfl | hc
    · exact hnd.1.2
    · intro h'; exact hsep c hc (by simp [h'])
  · intro w l2 t hw hs
    refine envAt_congr (fun c hm => ?_) hw
    have := hs c hm
    simp only [List.mem_cons, not_or] at this
    rw [hc c this.1 this.2.1]

/-- C20: setting a key that is bound: the environment is the same value, the innermost binding of the key has the new
value and all other bindings are as before. -/
theorem C20_set_bound {h : Heap} {env key val : Val} {l : List Bind} (he : EnvAt h env l nil) (hnd : (cellsOf l).Nodup)
    (hv : value l key ≠ none) :
    ∃ n h' l', (∀ f, n ≤ f → envSet f h env key val = some (h', env)) ∧ EnvAt h' env l' nil ∧ value l' key = some val ∧
      (∀ key', key' ≠ key → value l' key' = value l key') ∧ l'.map (·.key) = l.map (·.key) ∧ cellsOf l' = cellsOf l ∧
      numFree h' = numFree h := by
  obtain ⟨h', b, hb, hk, e, he', p⟩ := envSet_bound (val := val) (f := l.length + 1) he (by omega) hnd hv
  refine ⟨l.length + 1, h', _, fun f hf => envSet_mono hf e, he', ?_, ?_, assign_keys _ _ _, assign_cells _ _ _, ?_⟩
  · rw [value_assign _ _ _ _ hv, if_pos rfl]
  · intro key' hne; rw [value_assign _ _ _ _ hv, if_neg hne]
  · unfold numFree; rw [p.size, p.numAlloc]

/-- The bindings of `l`, held by other list cells. -/
def respine : List Nat → List Bind → List Bind
  | i :: is, b :: l => { b with spine := i } :: respine is l
  | _, _ => []

theorem copyLoop_spec {tail : Val} : ∀ {l : List Bind} {is : List Nat} {vs : List Val} {h : Heap} {tgt src : Val} (f : Nat),
    ListAt h tgt is vs → is.length = l.length → EnvAt h src l tail → is.Nodup → (∀ c ∈ cellsOf l, c ∉ is) →
    l.length < f → ∃ h', copyLoop f h tgt src = some h' ∧ EnvAt h' tgt (respine is l) nil ∧
      (∀ c, c ∉ is → h'.cells c = h.cells c) ∧ h'.size = h.size ∧ h'.freelist = h.freelist ∧ h'.numAlloc = h.numAlloc := by
  intro l
  induction l with
  | nil =>
    intro is vs h tgt src f hl hlen _ _ _ hf
    obtain ⟨f, rfl⟩ := Nat.exists_eq_succ_of_ne_zero (by omega : f ≠ 0)
    have : is = [] := by simpa using hlen
    subst this
    cases vs with
    | nil =>
      have : tgt = nil := hl
      subst this
      exact ⟨h, by simp [copyLoop, nil, isConsRW], rfl, fun _ _ => rfl, rfl, rfl, rfl⟩
    | cons x xs => exact absurd hl (by simp [ListAt])
  | cons b l ih =>
    intro is vs h tgt src f hl hlen he hnd hsep hf
    obtain ⟨f, rfl⟩ := Nat.exists_eq_succ_of_ne_zero (by omega : f ≠ 0)
    cases is with
    | nil => simp at hlen
    | cons i is =>
      cases vs with
      | nil => exact absurd hl (by simp [ListAt])
      | cons x xs =>
        obtain ⟨rfl, d, hc, hl'⟩ := hl
        obtain ⟨rfl, h2, d2, h3, h4⟩ := he
        rw [List.nodup_cons] at hnd
        rw [cellsOf_cons] at hsep
        have p := setCar_poke (v := Val.ptr .cons false b.pair) hc
        have hsi : b.spine ≠ i := by have := hsep b.spine (by simp); simp at this; exact this.1
        have hpi : b.pair ≠ i := by have := hsep b.pair (by simp); simp at this; exact this.1
        have hd2 : cdr (setCar h (.ptr .cons false i) (.ptr .cons false b.pair)).1 (.ptr .cons false b.spine) = d2 := by
          apply cdr_pair (a := .ptr .cons false b.pair); rw [p.other _ hsi]; exact h3
        have hd : cdr (setCar h (.ptr .cons false i) (.ptr .cons false b.pair)).1 (.ptr .cons false i) = d :=
          cdr_pair p.at_
        have hlist : ListAt (setCar h (.ptr .cons false i) (.ptr .cons false b.pair)).1 d is xs := by
          clear hlen hf
          have : ∀ (is : List Nat) (xs : List Val) (d : Val), i ∉ is → ListAt h d is xs →
              ListAt (setCar h (.ptr .cons false i) (.ptr .cons false b.pair)).1 d is xs := by
            intro is
            induction is with
            | nil => intro xs d _ hx; cases xs <;> exact hx
            | cons j is ihj =>
              intro xs d hni hx
              cases xs with
              | nil => exact hx
              | cons y ys =>
                obtain ⟨rfl, d', hc', hr⟩ := hx
                simp at hni
                exact ⟨rfl, d', by rw [p.other j (Ne.symm hni.1)]; exact hc', ihj ys d' hni.2 hr⟩
          exact this is xs d hnd.1 hl'
        obtain ⟨h', e, he', hc', s1, s2, s3⟩ := ih (h := (setCar h (.ptr .cons false i) (.ptr .cons false b.pair)).1) (src := d2)
          f hlist (by simpa using hlen)
          (envAt_congr (fun c hm => by
            rw [p.other c (by rintro rfl; exact hsep c (by simp [hm]) (by simp))]) h4)
          hnd.2 (fun c hm h' => hsep c (by simp [hm]) (by simp [h'])) (by simp at hf; omega)
        refine ⟨h', ?_, ⟨rfl, ?_, d, ?_, he'⟩, ?_, by rw [s1, p.size], by rw [s2, p.freelist], by rw [s3, p.numAlloc]⟩
        · simp only [copyLoop, isConsRW, if_true, car_pair h3, hd, hd2]; exact e
        · show (h'.cells b.pair).content = _
          have := hsep b.pair (by simp); simp at this
          rw [hc' _ this.2, p.other _ hpi]; exact h2
        · show (h'.cells i).content = _
          rw [hc' i hnd.1]; exact p.at_
        · intro c hm; simp at hm
          rw [hc' c hm.2, p.other c hm.1]

theorem listLength_spec {h : Heap} : ∀ {l : List Bind} {v : Val} (f : Nat), EnvAt h v l nil → l.length < f →
    listLength h f v = some l.length := by
  intro l
  induction l with
  | nil =>
    intro v f he hf
    obtain ⟨f, rfl⟩ := Nat.exists_eq_succ_of_ne_zero (by omega : f ≠ 0)
    have : v = nil := he
    subst this; rfl
  | cons b l ih =>
    rintro v f ⟨rfl, h2, d, h3, h4⟩ hf
    obtain ⟨f, rfl⟩ := Nat.exists_eq_succ_of_ne_zero (by omega : f ≠ 0)
    simp at hf
    simp [listLength, isCons, cdr_pair h3, ih f h4 (by omega)]

theorem respine_spec : ∀ {l : List Bind} {is : List Nat}, is.length = l.length →
    (respine is l).map (fun b => (b.pair, b.key, b.val)) = l.map (fun b => (b.pair, b.key, b.val)) ∧
    (respine is l).map (·.spine) = is := by
  intro l
  induction l with
  | nil => intro is h; have : is = [] := by simpa using h
           subst this; simp [respine]
  | cons b l ih =>
    intro is h
    cases is with
    | nil => simp at h
    | cons i is =>
      have := ih (is := is) (by simpa using h)
      simp [respine, this]

/-- C20, copies: with enough free cells, copying an environment gives an environment with the same keys and values, whose
list cells are new; the pairs are shared, and the original is unchanged. -/
theorem C20_copy {h : Heap} {env : Val} {l : List Bind} {fl : List Nat} (he : EnvAt h env l nil)
    (hfl : FreeOK h fl) (hsep : ∀ c ∈ cellsOf l, c ∉ fl) (hn : l.length ≤ numFree h) :
    ∃ n h' env' l' fl', (∀ f, n ≤ f → copySpine f h env = some (h', env')) ∧ EnvAt h' env' l' nil ∧ EnvAt h' env l nil ∧
      l'.map (fun b => (b.pair, b.key, b.val)) = l.map (fun b => (b.pair, b.key, b.val)) ∧
      (∀ b ∈ l', b.spine ∈ fl) ∧ FreeOK h' fl' ∧ (∀ c ∈ cellsOf l ++ cellsOf l', c ∉ fl') := by
  rw [freeOK_len hfl] at hn
  by_cases hl : l = []
  · subst hl
    have : env = nil := he
    subst this
    refine ⟨1, h, nil, [], fl, fun f hf => ?_, rfl, rfl, rfl, by simp, hfl, by simp [cellsOf]⟩
    obtain ⟨f, rfl⟩ := Nat.exists_eq_succ_of_ne_zero (by omega : f ≠ 0)
    rfl
  · have hne : List.replicate l.length nil ≠ [] := by
      intro e; apply hl; have := congrArg List.length e; simpa using this
    obtain ⟨h1, e1, e2, e3, e4, e5, e6, e7, e8, e9, e10⟩ := allocateListInit_spec hfl (List.replicate l.length nil)
      (by simpa using hn) hne
    simp only [List.length_replicate] at e1 e2 e3 e5 e9 e10
    have hnd : (fl.take l.length).Nodup := hfl.2.1.sublist (List.take_sublist _ _)
    have hlen : (fl.take l.length).length = l.length := by simp; omega
    have hs' : ∀ c ∈ cellsOf l, c ∉ fl.take l.length := fun c hc h' => hsep c hc (List.mem_of_mem_take h')
    have he1 : EnvAt h1 env l nil := envAt_congr (fun c hc => by rw [e10 c (hs' c hc)]) he
    have key : ∀ f, l.length < f → ∃ h', copyLoop f h1 (headOf (fl.take l.length)) env = some h' ∧
        EnvAt h' (headOf (fl.take l.length)) (respine (fl.take l.length) l) nil ∧
      (∀ c, c ∉ (fl.take l.length) → h'.cells c = h1.cells c) ∧ h'.size = h1.size ∧ h'.freelist = h1.freelist ∧
        h'.numAlloc = h1.numAlloc := fun f hf => copyLoop_spec f e2 hlen he1 hnd hs' hf
    obtain ⟨h', c1, c2, c3, c4, c5, c6⟩ := key (l.length + 1) (by omega)
    have hmono : ∀ f, l.length + 1 ≤ f → copyLoop f h1 (headOf (fl.take l.length)) env = some h' := by
      have mono : ∀ (f f' : Nat) (h : Heap) (a b : Val) (r : Heap), f ≤ f' → copyLoop f h a b = some r →
          copyLoop f' h a b = some r := by
        intro f
        induction f with
        | zero => intro f' h a b r _ h; cases h
        | succ f ih =>
          intro f' h a b r hle hr
          obtain ⟨f', rfl⟩ := Nat.exists_eq_succ_of_ne_zero (by omega : f' ≠ 0)
          simp only [copyLoop] at hr ⊢
          split
          · next hc => rw [if_pos hc] at hr; exact ih _ _ _ _ _ (by omega) hr
          · next hc => rw [if_neg hc] at hr; exact hr
      exact fun f hf => mono _ _ _ _ _ _ hf c1
    obtain ⟨r1, r2⟩ := respine_spec hlen
    have hfree : ∀ c ∈ fl.drop l.length, c ∉ fl.take l.length := by
      intro c hc hc'
      have := hfl.2.1
      rw [← List.take_append_drop l.length fl, List.nodup_append] at this
      exact this.2.2 c hc' c hc rfl
    have hhead : headOf (fl.take l.length) ≠ merror := by
      cases fl with
      | nil => simp at hn; exact absurd hn hl
      | cons x xs =>
        cases hm : l.length with
        | zero => simp at hm; exact absurd hm hl
        | succ m => simp [headOf, merror]
    refine ⟨l.length + 1, h', headOf (fl.take l.length), respine (fl.take l.length) l, fl.drop l.length, ?_, c2,
      envAt_congr (fun c hc => by rw [c3 c (hs' c hc)]) he1, r1, ?_, ?_, ?_⟩
    · intro f hf
      simp only [copySpine, listLength_spec f he (by omega), allocateList, e1, hhead, if_false, hmono f hf,
        Option.map_some]
    · intro b hb
      have : b.spine ∈ (respine (fl.take l.length) l).map (·.spine) := List.mem_map_of_mem hb
      rw [r2] at this
      exact List.mem_of_mem_take this
    · obtain ⟨x1, x2, x3⟩ := e3
      refine ⟨?_, x2, by rw [c6, c4]; exact x3⟩
      rw [c5]
      exact freeChain_congr c4 (fun c hc => by rw [c3 c (hfree c hc)]) x1
    · intro c hc hd
      rcases List.mem_append.1 hc with hc | hc
      · exact hsep c hc (List.mem_of_mem_drop hd)
      · obtain ⟨b, hb, hcb⟩ := List.mem_flatMap.1 hc
        simp at hcb
        rcases hcb with rfl | rfl
        · have : b.spine ∈ (respine (fl.take l.length) l).map (·.spine) := List.mem_map_of_mem hb
          rw [r2] at this
          exact hfree _ hd this
        · have : (b.pair, b.key, b.val) ∈ (respine (fl.take l.length) l).map (fun b => (b.pair, b.key, b.val)) :=
            List.mem_map_of_mem (f := fun b => (b.pair, b.key, b.val)) hb
          rw [r1] at this
          obtain ⟨b', hb', e⟩ := List.mem_map.1 this
          have e1 : b'.pair = b.pair := congrArg Prod.fst e
          rw [← e1] at hd
          exact hsep _ (mem_cellsOf hb').2 (List.mem_of_mem_drop hd)

/-- C20, copies: extending the original with a new key leaves the copy with the bindings it had, and extending the copy
leaves the original alone. -/
theorem C20_copy_unaffected {h : Heap} {a b key val : Val} {la lb : List Bind} {fl : List Nat}
    (ha : EnvAt h a la nil) (hb : EnvAt h b lb nil) (hfl : FreeOK h fl) (hsep : ∀ c ∈ cellsOf la ++ cellsOf lb, c ∉ fl)
    (hv : value la key = none) (h2 : 2 ≤ numFree h) :
    ∃ n h' a', (∀ f, n ≤ f → envSet f h a key val = some (h', a')) ∧
      (∃ m, ∀ f, m ≤ f → lookupB h' key f a' = some (if val = placeholder then none else some val)) ∧ EnvAt h' b lb nil ∧
      ∀ k, ∃ m, ∀ f, m ≤ f → lookupB h' k f b = lookupB h k f b := by
  obtain ⟨n, h', a', x, fl', e, he', hk, hx, _, _, _, _, _, _, hother⟩ :=
    C20_set_new (val := val) ha hfl (fun c hc => hsep c (by simp [hc])) hv h2
  have hb' := hother b lb nil hb (fun c hc => hsep c (by simp [hc]))
  refine ⟨n, h', a', e, ?_, hb', ?_⟩
  · obtain ⟨m, hm⟩ := C20_lookup_innermost he' key
    refine ⟨m, fun f hf => ?_⟩
    rw [hm f hf]
    congr 1
    simp only [visible, List.find?_cons, hk, hx]
    by_cases hp : val = placeholder
    · rw [if_pos hp]
      simp only [hp, ne_eq, not_true_eq_false, and_false, decide_false, Option.map_eq_none_iff, List.find?_eq_none]
      intro y hy
      simp only [decide_eq_true_eq]
      intro ⟨h1, _⟩
      exact value_none_iff.1 hv (List.mem_map.2 ⟨y, hy, h1⟩)
    · rw [if_neg hp]; simp [hp, hx]
  · intro k
    obtain ⟨m, hm⟩ := C20_lookup_innermost hb' k
    obtain ⟨m', hm'⟩ := C20_lookup_innermost hb k
    exact ⟨max m m', fun f hf => by rw [hm f (by omega), hm' f (by omega)]⟩

/-! ### C20, `setassoc` -/

/-- The bindings with the first binding of the key replaced by a new pair. -/
def replace (key val : Val) (pair : Nat) : List Bind → List Bind
  | [] => []
  | b :: l => if b.key = key then { b with val := val, pair := pair } :: l else b :: replace key val pair l

theorem value_replace (key val key' : Val) (pair : Nat) (l : List Bind) :
    value (replace key val pair l) key' = value (assign key val l) key' := by
  induction l with
  | nil => rfl
  | cons b l ih =>
    simp only [replace, assign]
    split
    · by_cases h' : b.key = key' <;> simp [value, h']
    · by_cases h' : b.key = key'
      · simp [value, h']
      · simp only [value, List.find?_cons, h', decide_false] at ih ⊢; exact ih

theorem setFunLoop_none {h : Heap} {key kv tail : Val} (ht : isSymbol tail) : ∀ {l : List Bind} {v : Val} (f : Nat),
    EnvAt h v l tail → l.length < f → value l key = none → setFunLoop h key kv f v = some none := by
  intro l
  induction l with
  | nil =>
    rintro v f he hf _
    cases he
    obtain ⟨f, rfl⟩ := Nat.exists_eq_succ_of_ne_zero (by omega : f ≠ 0)
    cases tail <;> simp [isSymbol] at ht
    simp [setFunLoop, isConsRW]
  | cons b l ih =>
    rintro v f ⟨rfl, h2, d, h3, h4⟩ hf hv
    simp at hf
    obtain ⟨f, rfl⟩ := Nat.exists_eq_succ_of_ne_zero (by omega : f ≠ 0)
    have hk : ¬ b.key = key := by intro hk; simp [value, hk] at hv
    simp only [setFunLoop, isConsRW, if_true, car_pair h3, car_pair h2, cdr_pair h3, hk, if_false]
    exact ih f h4 (by omega) (by simpa [value, hk] using hv)

theorem setFunLoop_some {h : Heap} {key val tail : Val} {i : Nat} (hi : (h.cells i).content = .pair key val) :
    ∀ {l : List Bind} {v : Val} (f : Nat), EnvAt h v l tail → l.length < f → (cellsOf l).Nodup → i ∉ cellsOf l →
    value l key ≠ none → ∃ h' b, b ∈ l ∧ setFunLoop h key (.ptr .cons false i) f v = some (some h') ∧
      EnvAt h' v (replace key val i l) tail ∧ ∃ x, Poke h h' b.spine x := by
  intro l
  induction l with
  | nil => intro v f _ _ _ _ hv; simp [value] at hv
  | cons b l ih =>
    rintro v f ⟨rfl, h2, d, h3, h4⟩ hf hnd hni hv
    simp at hf
    obtain ⟨f, rfl⟩ := Nat.exists_eq_succ_of_ne_zero (by omega : f ≠ 0)
    rw [cellsOf_cons, List.nodup_cons, List.nodup_cons] at hnd
    obtain ⟨hn1, hn2, hn3⟩ := hnd
    rw [cellsOf_cons] at hni
    simp only [List.mem_cons, not_or] at hni hn1
    by_cases hk : b.key = key
    · have p := setCar_poke (v := .ptr .cons false i) h3
      refine ⟨_, b, by simp, by simp only [setFunLoop, isConsRW, if_true, car_pair h3, car_pair h2, hk], ?_, _, p⟩
      simp only [replace, hk, if_true]
      refine ⟨rfl, ?_, d, p.at_, ?_⟩
      · show ((setCar h (Val.ptr .cons false b.spine) (.ptr .cons false i)).1.cells i).content = _
        rw [p.other _ hni.1, hi]
      · exact envAt_congr (fun c hc => by rw [p.other c (by rintro rfl; exact hn1.2 hc)]) h4
    · have hv' : value l key ≠ none := by simpa [value, hk] using hv
      obtain ⟨h', b', hb', e, he, x, p⟩ := ih f h4 (by omega) hn3 hni.2.2 hv'
      have hbs := (mem_cellsOf hb').1
      refine ⟨h', b', by simp [hb'], by
        simp only [setFunLoop, isConsRW, if_true, car_pair h3, car_pair h2, hk, if_false, cdr_pair h3]; exact e, ?_, x, p⟩
      simp only [replace, hk, if_false]
      refine ⟨rfl, ?_, d, ?_, he⟩
      · rw [p.other b.pair (by intro e; rw [e] at hn2; exact hn2 hbs)]; exact h2
      · rw [p.other b.spine (by intro e; apply hn1.2; rw [e]; exact hbs)]; exact h3

/-- C20 for `setassoc` with three arguments on an association list: the key gets the value, other keys keep theirs, and
every cell in use other than the list cells of this association list is unchanged (so a list that shares
pairs with it is not affected). -/
theorem C20_setassoc {h : Heap} {env key val : Val} {l : List Bind} {fl : List Nat} (he : EnvAt h env l nil)
    (hnd : (cellsOf l).Nodup) (hfl : FreeOK h fl) (hsep : ∀ c ∈ cellsOf l, c ∉ fl) (h2 : 2 ≤ numFree h) :
    ∃ n h' env' l', (∀ f, n ≤ f → envSetFunctional f h env key val = some (h', env')) ∧ EnvAt h' env' l' nil ∧
      (∀ k, value l' k = if k = key then some val else value l k) ∧
      (∀ c, c ∉ fl → c ∉ l.map (·.spine) → h'.cells c = h.cells c) := by
  rw [freeOK_len hfl] at h2
  obtain ⟨i, j, fl, rfl⟩ : ∃ i j t, fl = i :: j :: t := by
    match fl, h2 with
    | [], h => simp at h
    | [_], h => simp at h
    | i :: j :: t, _ => exact ⟨i, j, t, rfl⟩
  obtain ⟨h1, a1, a2, a3, a4, a5, a6, a7, a8, a9⟩ := allocateCell_spec hfl .cons (.pair key val)
  have he1 : EnvAt h1 env l nil := envAt_congr (fun c hc => by
    rw [a9 c (by rintro rfl; exact hsep c hc (by simp))]) he
  have hij : i ≠ j := by
    intro e; subst e; have := hfl.2.1; simp at this
  by_cases hv : value l key = none
  · obtain ⟨h3, b1, b2, b3, b4, b5, b6, b7, b8, b9⟩ := allocateCell_spec a2 .cons (.pair (.ptr .cons false i) env)
    refine ⟨l.length + 1, h3, .ptr .cons false j, ⟨j, i, key, val⟩ :: l, fun f hf => ?_, ⟨rfl, ?_, env, ?_, ?_⟩, ?_, ?_⟩
    · simp only [envSetFunctional, cons, a1, isSymbol, setFunLoop_none rfl f he1 (by omega) hv, b1]
      simp
    · show (h3.cells i).content = _
      rw [b9 i hij, a8]
    · show (h3.cells j).content = _
      rw [b8]
    · exact envAt_congr (fun c hc => by rw [b9 c (by rintro rfl; exact hsep c hc (by simp))]) he1
    · intro k
      by_cases hk : k = key
      · simp [value, hk]
      · have : ¬ key = k := fun e => hk e.symm
        simp [value, hk, this]
    · intro c hc _
      simp at hc
      rw [b9 c hc.2.1, a9 c hc.1]
  · obtain ⟨h', b, hb, e, he', x, p⟩ := setFunLoop_some (by rw [a8]) (l.length + 1) he1 (by omega) hnd
      (fun hc => hsep i hc (by simp)) hv
    have mono : ∀ (f f' : Nat) (v : Val) (r : Option Heap), f ≤ f' → setFunLoop h1 key (.ptr .cons false i) f v = some r →
        setFunLoop h1 key (.ptr .cons false i) f' v = some r := by
      intro f
      induction f with
      | zero => intro f' v r _ h; cases h
      | succ f ih =>
        intro f' v r hle hr
        obtain ⟨f', rfl⟩ := Nat.exists_eq_succ_of_ne_zero (by omega : f' ≠ 0)
        simp only [setFunLoop] at hr ⊢
        split
        · next hc =>
          rw [if_pos hc] at hr
          split
          · next hk => rw [if_pos hk] at hr; exact hr
          · next hk => rw [if_neg hk] at hr; exact ih _ _ _ (by omega) hr
        · next hc => rw [if_neg hc] at hr; exact hr
    refine ⟨l.length + 1, h', env, _, fun f hf => ?_, he', ?_, ?_⟩
    · simp only [envSetFunctional, cons, a1, isSymbol, mono _ _ _ _ hf e]
      simp
    · intro k; rw [value_replace, value_assign _ _ _ _ hv]
    · intro c hc hs
      simp at hc
      rw [p.other c ?_, a9 c hc.1]
      rintro rfl
      exact hs (List.mem_map.2 ⟨b, hb, rfl⟩)

/-! ### A concrete history -/

/-- Variables `a` and `b` share bucket 0, `c` lives in bucket 1. -/
def va : Nat := 0x40000
def vb : Nat := 0x40020
def vc : Nat := 0x40001

def num (n : Int) : Val := .imm 8 n

/-- A heap of `n` cells and an empty global environment. -/
def start (n : Nat) : GState := ⟨Heap.init n 10, initEnv⟩

theorem start_hist (n : Nat) (hn : 0 < n) : GHist (start n) (fun _ => none) := .init (init_chain n 10 hn)

/-- After `(define a 1)`, `(define b 2)`, `(define c 3)`. -/
def demo1 (n : Nat) : GState := ((define 5 id (start n) va (num 1)).getD (start n, false)).1
def demo2 : GState := ((define 5 id (demo1 9) vb (num 2)).getD (start 9, false)).1
def demo3 : GState := ((define 5 id demo2 vc (num 3)).getD (start 9, false)).1

theorem demo1_hist (n : Nat) (hn : 2 ≤ n) : GHist (demo1 n) (upd (fun _ => none) va (some (num 1))) := by
  obtain ⟨n0, st', b, e, _, h2, _, hh⟩ := C20_define_succeeds (start_hist n (by omega)) va (num 1) id (by
    intro f h1 he
    have hnf : 2 ≤ numFree (start n).heap := by simp [start, numFree, Heap.init, hn]
    obtain ⟨L, fl, r⟩ := hist_rep (start_hist n (by omega))
    obtain ⟨h2, v2, e2, hcase⟩ := r.envSet va (num 1) (f := max f ((L (bucket va)).length + 1)) (by omega)
    rw [envSet_mono (f' := max f ((L (bucket va)).length + 1)) (by omega) he] at e2
    cases e2
    rcases hcase with ⟨_, _, h3, _⟩ | ⟨h3, _⟩
    · omega
    · exact absurd rfl h3)
  have hb := h2 (by simp [start, numFree, Heap.init, hn])
  subst hb
  have hd : define 5 id (start n) va (num 1) = some (st', true) := by
    have h5 := e (max n0 5) (by omega)
    cases hx : define 5 id (start n) va (num 1) with
    | none =>
      exfalso
      have : (start n).glob (bucket va) = nil := rfl
      unfold define at hx
      simp only [this, nil] at hx
      unfold envSet at hx
      simp only [modifyLoop, isConsRW] at hx
      simp only [Bool.false_eq_true, if_false] at hx
      split at hx
      · next h => split at h <;> cases h
      · split at hx
        · split at hx
          · next h => split at h <;> cases h
          · split at hx <;> cases hx
        · cases hx
    | some x => have := define_mono (f' := max n0 5) (by omega) hx; rw [h5] at this; exact this.symm
  have : demo1 n = st' := by simp only [demo1, hd, Option.getD_some]
  rw [this]; exact hh

theorem demo3_hist : GHist demo3 (upd (upd (upd (fun _ => none) va (some (num 1))) vb (some (num 2))) vc (some (num 3))) := by
  have h2 : GHist demo2 _ := .define (f := 5) (collect := id) (s := vb) (v := num 2) (st' := demo2) (demo1_hist 9 (by omega))
    (fun h1 he => by have : (envSet 5 (demo1 9).heap ((demo1 9).glob (bucket vb)) (.sym vb) (num 2)).map (·.2) = some (.ptr .cons false 3) := by decide
                     rw [he] at this; cases this) (by rfl)
  exact .define (f := 5) (collect := id) (s := vc) (v := num 3) (st' := demo3) h2
    (fun h1 he => by have : (envSet 5 demo2.heap (demo2.glob (bucket vc)) (.sym vc) (num 3)).map (·.2) = some (.ptr .cons false 5) := by decide
                     rw [he] at this; cases this) (by rfl)

example : ∃ n, ∀ f, n ≤ f → globalLookup f demo3.heap demo3.glob vb = some (some (num 2)) := C20_global_map demo3_hist vb

example : globalLookup 4 demo3.heap demo3.glob va = some (some (num 1)) := by decide

/-- The environment of bucket 0 of `demo3`, as a local environment. -/
theorem demo3_env : EnvAt demo3.heap (.ptr .cons false 3) [⟨3, 2, .sym vb, num 2⟩, ⟨1, 0, .sym va, num 1⟩] nil :=
  ⟨rfl, rfl, .ptr .cons false 1, rfl, rfl, rfl, nil, rfl, rfl⟩

theorem demo3_free : FreeOK demo3.heap [6, 7, 8] := by
  refine ⟨⟨rfl, by decide, recovered, .ptr .cons false 7, rfl, rfl, by decide, recovered, .ptr .cons false 8, rfl, rfl,
    by decide, nil, nil, rfl, rfl⟩, by decide, rfl⟩

example : ∃ n, ∀ f, n ≤ f → lookupB demo3.heap (.sym va) f (.ptr .cons false 3) = some (some (num 1)) :=
  C20_lookup_innermost demo3_env (.sym va)

example : ∃ n h' env' b fl', (∀ f, n ≤ f → envSet f demo3.heap (.ptr .cons false 3) (.sym 0x40040) (num 4) = some (h', env')) ∧
    EnvAt h' env' [b, ⟨3, 2, .sym vb, num 2⟩, ⟨1, 0, .sym va, num 1⟩] nil ∧ b.val = num 4 ∧ FreeOK h' fl' := by
  obtain ⟨n, h', env', b, fl', e, h1, _, h2, h3, _⟩ := C20_set_new (key := .sym 0x40040) (val := num 4) demo3_env demo3_free
    (by decide) rfl (by decide)
  exact ⟨n, h', env', b, fl', e, h1, h2, h3⟩

example : ∃ n h' l', (∀ f, n ≤ f → envSet f demo3.heap (.ptr .cons false 3) (.sym va) (num 9) = some (h', .ptr .cons false 3)) ∧
    EnvAt h' (.ptr .cons false 3) l' nil ∧ value l' (.sym va) = some (num 9) ∧ value l' (.sym vb) = some (num 2) := by
  obtain ⟨n, h', l', e, h1, h2, h3, _⟩ := C20_set_bound (key := .sym va) (val := num 9) demo3_env (by decide) (by decide)
  exact ⟨n, h', l', e, h1, h2, by rw [h3 _ (by decide)]; rfl⟩

/-- A copy of that environment, and an extension of the original. -/
example : ∃ n h' env' l', (∀ f, n ≤ f → copySpine f demo3.heap (.ptr .cons false 3) = some (h', env')) ∧
    EnvAt h' env' l' nil ∧ l'.map (fun b => (b.pair, b.key, b.val)) = [(2, .sym vb, num 2), (0, .sym va, num 1)] := by
  obtain ⟨n, h', env', l', fl', e, h1, _, h2, _⟩ := C20_copy demo3_env demo3_free (by decide) (by decide)
  exact ⟨n, h', env', l', e, h1, h2⟩

example : ∃ n h' a', (∀ f, n ≤ f → envSet f demo3.heap (.ptr .cons false 1) (.sym vb) (num 5) = some (h', a')) ∧
    EnvAt h' (.ptr .cons false 3) [⟨3, 2, .sym vb, num 2⟩, ⟨1, 0, .sym va, num 1⟩] nil := by
  obtain ⟨n, h', a', e, _, h1, _⟩ := C20_copy_unaffected (a := .ptr .cons false 1) (la := [⟨1, 0, .sym va, num 1⟩])
    (key := .sym vb) (val := num 5) ⟨rfl, rfl, nil, rfl, rfl⟩ demo3_env demo3_free (by decide) (by decide) (by decide)
  exact ⟨n, h', a', e, h1⟩

example : ∃ n h' env' l', (∀ f, n ≤ f → envSetFunctional f demo3.heap (.ptr .cons false 3) (.sym va) (num 9) = some (h', env')) ∧
    EnvAt h' env' l' nil ∧ value l' (.sym va) = some (num 9) ∧ value l' (.sym vb) = some (num 2) ∧
    h'.cells 0 = demo3.heap.cells 0 := by
  obtain ⟨n, h', env', l', e, h1, h2, h3⟩ := C20_setassoc (key := .sym va) (val := num 9) demo3_env (by decide) demo3_free
    (by decide) (by decide)
  exact ⟨n, h', env', l', e, h1, by rw [h2]; rfl, by rw [h2]; rfl, h3 0 (by decide) (by decide)⟩

/-- C20 does not hold for the C function `lbm_define` in a full heap: it stores the out of memory symbol as the bucket, and
all variables of that bucket are lost, although they were bound before. -/
theorem C20_lbm_define_violated {st : GState} {m : Nat → Option Val} (hh : GHist st m) (s : Nat) (v : Val)
    (hs : m s = none) (hfull : numFree st.heap < 2) :
    ∃ n st', (∀ f, n ≤ f → cDefine f st s v = some st') ∧
      ∀ s', bucket s' = bucket s → ∀ f, 0 < f → globalLookup f st'.heap st'.glob s' = some none := by
  obtain ⟨L, fl, r⟩ := hist_rep hh
  have hv : value (L (bucket s)) (.sym s) = none := by rw [← r.map]; exact hs
  obtain ⟨h', fl', e, _⟩ := envSet_full (val := v) (f := (L (bucket s)).length + 1) rfl (r.env _) (by omega) hv r.free
    (by rw [← freeOK_len r.free]; exact hfull)
  refine ⟨(L (bucket s)).length + 1, ⟨h', st.glob.set (bucket s) merror⟩, fun f hf => ?_, ?_⟩
  · simp only [cDefine, envSet_mono hf e]
  · intro s' hb f hf
    obtain ⟨f, rfl⟩ := Nat.exists_eq_succ_of_ne_zero (by omega : f ≠ 0)
    simp [globalLookup, globalLoop, hb, Glob.set, merror, Val.isPtr]

/-- `a` is bound to 1 in a heap of three cells; `lbm_define("b", ...)` makes it unbound. -/
example : GHist (demo1 3) (upd (fun _ => none) va (some (num 1))) ∧
    ∃ n st', (∀ f, n ≤ f → cDefine f (demo1 3) vb (num 2) = some st') ∧
      ∀ f, 0 < f → globalLookup f st'.heap st'.glob va = some none := by
  refine ⟨demo1_hist 3 (by omega), ?_⟩
  obtain ⟨n, st', e, h⟩ := C20_lbm_define_violated (demo1_hist 3 (by omega)) vb (num 2) (by decide) (by decide)
  exact ⟨n, st', e, h va (by decide)⟩

/-! ### C21 -/

/-- C21 for bound variables, and what else holds: assigning a variable that is bound locally or globally
succeeds, changes that variable and no other. -/
theorem C21_set_bound {st : GState} {m : Nat → Option Val} (hh : GHist st m) {env : Val} {l : List Bind}
    (hl : Local st env l) {s : Nat} (hs : runtimeStart ≤ s) (v : Val) (hb : value l (.sym s) ≠ none ∨ m s ≠ none) :
    ∃ n st', (∀ f, n ≤ f → performSetvar f st env s v = some (st', .ok)) ∧
      GHist st' (if value l (.sym s) = none then upd m s (some v) else m) ∧
      ∃ l', EnvAt st'.heap env l' nil ∧ (value l (.sym s) = none → l' = l) ∧
        (value l (.sym s) ≠ none → value l' (.sym s) = some v ∧ ∀ k, k ≠ .sym s → value l' k = value l k) := by
  obtain ⟨L, fl, r⟩ := hist_rep hh
  obtain ⟨c1, c2⟩ := setvar_rep r hl hs v (f := max (l.length + 1) ((L (bucket s)).length + 1)) (by omega) (by omega)
  by_cases hv : value l (.sym s) = none
  · obtain ⟨h', L', fl', e, r'⟩ := c2 hv (by rcases hb with h | h; exact absurd hv h; exact h)
    refine ⟨_, ⟨h', st.glob⟩, fun f hf => performSetvar_mono hf e, ?_, ?_⟩
    · rw [if_pos hv]
      exact .setGlobal hh hl hv (by rcases hb with h | h; exact absurd hv h; exact h) e
    · -- the local environment shares no cell with the bucket that was changed
      have hms : m s ≠ none := by rcases hb with h | h; exact absurd hv h; exact h
      have hv2 : value (L (bucket s)) (.sym s) ≠ none := by rw [← r.map]; exact hms
      obtain ⟨h1, b, hbm, _, e1, _, p⟩ := modifyLoop_some (val := v)
        (max (l.length + 1) ((L (bucket s)).length + 1)) (r.env _) (by omega) (r.nodup _) hv2
      have hh1 : h1 = h' := by
        have e2 := modifyBinding_none (v := v) (f := max (l.length + 1) ((L (bucket s)).length + 1)) rfl hl.1 (by omega) hv
        have hne : st.glob (bucket s) ≠ notFound := by
          intro hm
          have := r.env (bucket s)
          revert hv2 this
          cases L (bucket s) with
          | nil => intro hv; simp [value] at hv
          | cons x xs => rintro _ ⟨h1, _⟩; rw [hm] at h1; cases h1
        simp only [performSetvar, hs, if_true, e2] at e
        simp only [modifyBinding, e1, hne, if_false, Option.some.injEq, Prod.mk.injEq, GState.mk.injEq] at e
        exact e.1.1
      subst hh1
      refine ⟨l, envAt_congr (fun c hc => ?_) hl.1, fun _ => rfl, fun h => absurd hv h⟩
      show (h1.cells c).content = _
      rw [p.other c ?_]
      rintro rfl
      exact hl.2.2.1 _ hc _ (r.cell.2 (mem_cellsOf hbm).2)
  · obtain ⟨h', e, r', he⟩ := c1 hv
    refine ⟨_, ⟨h', st.glob⟩, fun f hf => performSetvar_mono hf e, ?_, assign (.sym s) v l, he, fun h => absurd h hv, fun h => ?_⟩
    · rw [if_neg hv]; exact .setLocal hh hl hv e
    · exact ⟨by rw [value_assign _ _ _ _ h, if_pos rfl], fun k hk => by rw [value_assign _ _ _ _ h, if_neg hk]⟩

/-- No local variables. -/
theorem demo3_local : Local demo3 nil [] := ⟨rfl, by simp [cellsOf], by simp [cellsOf], _, demo3_free, by simp [cellsOf]⟩

example : ∃ n st', (∀ f, n ≤ f → performSetvar f demo3 nil va (num 7) = some (st', .ok)) ∧
    ∃ n, ∀ f, n ≤ f → globalLookup f st'.heap st'.glob va = some (some (num 7)) := by
  obtain ⟨n, st', e, hh, _⟩ := C21_set_bound demo3_hist demo3_local (s := va) (by decide) (num 7) (Or.inr (by decide))
  exact ⟨n, st', e, C20_global_map hh va⟩

/-- What an assignment to a variable that is bound nowhere really does: it reports `variable_not_bound`, and makes
every variable of the same bucket unbound. -/
theorem C21_failed_set_effect {st : GState} {m : Nat → Option Val} (hh : GHist st m) {env : Val} {l : List Bind}
    (hl : Local st env l) {s : Nat} (hs : runtimeStart ≤ s) (v : Val) (hv : value l (.sym s) = none) (hm : m s = none) :
    ∃ n, (∀ f, n ≤ f → performSetvar f st env s v = some (⟨st.heap, st.glob.set (bucket s) notFound⟩, .notBound)) ∧
      ∀ s', ∃ n, ∀ f, n ≤ f → globalLookup f st.heap (st.glob.set (bucket s) notFound) s' =
        some (if bucket s' = bucket s then none else m s') := by
  obtain ⟨L, fl, r⟩ := hist_rep hh
  have hv2 : value (L (bucket s)) (.sym s) = none := by rw [← r.map]; exact hm
  refine ⟨max (l.length + 1) ((L (bucket s)).length + 1), fun f hf => ?_, fun s' => ?_⟩
  · have e1 := modifyBinding_none (v := v) (f := f) rfl hl.1 (by omega) hv
    have e2 := modifyBinding_none (v := v) (f := f) rfl (r.env (bucket s)) (by omega) hv2
    simp only [performSetvar, hs, if_true, e1, e2]
  · obtain ⟨n, hn⟩ := C20_global_map hh s'
    refine ⟨n + 1, fun f hf => ?_⟩
    by_cases hb : bucket s' = bucket s
    · obtain ⟨f, rfl⟩ := Nat.exists_eq_succ_of_ne_zero (by omega : f ≠ 0)
      simp [globalLookup, globalLoop, hb, Glob.set, notFound, Val.isPtr]
    · rw [if_neg hb, ← hn f (by omega)]
      simp only [globalLookup, Glob.set, hb, if_false]

/-- C21 as far as it holds: an assignment to a variable that is bound nowhere reports `variable_not_bound`, and every global
variable of another bucket keeps its value. Missing: the variables of the same bucket, see `C21_failed_set_violated`. -/
theorem C21_failed_set_partial {st : GState} {m : Nat → Option Val} (hh : GHist st m) {env : Val} {l : List Bind}
    (hl : Local st env l) {s : Nat} (hs : runtimeStart ≤ s) (v : Val) (hv : value l (.sym s) = none) (hm : m s = none) :
    ∃ n st', (∀ f, n ≤ f → performSetvar f st env s v = some (st', .notBound)) ∧
      ∀ s', bucket s' ≠ bucket s → ∃ n, ∀ f, n ≤ f → globalLookup f st'.heap st'.glob s' = some (m s') := by
  obtain ⟨n, h1, h2⟩ := C21_failed_set_effect hh hl hs v hv hm
  refine ⟨n, _, h1, fun s' hb => ?_⟩
  obtain ⟨n, h⟩ := h2 s'
  exact ⟨n, fun f hf => by rw [h f hf, if_neg hb]⟩

example : ∃ n st', (∀ f, n ≤ f → performSetvar f demo3 nil 0x40040 (num 7) = some (st', .notBound)) ∧
    ∃ n, ∀ f, n ≤ f → globalLookup f st'.heap st'.glob vc = some (some (num 3)) := by
  obtain ⟨n, st', e, h⟩ := C21_failed_set_partial demo3_hist demo3_local (s := 0x40040) (by decide) (num 7) rfl (by decide)
  exact ⟨n, st', e, h vc (by decide)⟩

/-- C21 is violated: with `a` and `b` defined, assigning an undefined variable whose symbol number differs
from theirs by a multiple of 32 fails, and leaves both unbound. -/
theorem C21_failed_set_violated : ∃ st m, GHist st m ∧ m va = some (num 1) ∧ m vb = some (num 2) ∧ m 0x40040 = none ∧
    ∃ st', (∃ n, ∀ f, n ≤ f → performSetvar f st nil 0x40040 (num 7) = some (st', .notBound)) ∧
      (∃ n, ∀ f, n ≤ f → globalLookup f st'.heap st'.glob va = some none) ∧
      (∃ n, ∀ f, n ≤ f → globalLookup f st'.heap st'.glob vb = some none) := by
  refine ⟨demo3, _, demo3_hist, rfl, rfl, rfl, ?_⟩
  obtain ⟨n, h1, h2⟩ := C21_failed_set_effect demo3_hist demo3_local (s := 0x40040) (by decide) (num 7) rfl (by decide)
  exact ⟨_, ⟨n, h1⟩, h2 va, h2 vb⟩

/-! ### C22 -/

/-- C22: after any history, `undefine` terminates and makes exactly the given key unbound; it reports whether
the key was bound, and changes nothing when it was not. -/
theorem C22_undefine {st : GState} {m : Nat → Option Val} (hh : GHist st m) {s : Nat} (hs : runtimeStart ≤ s) :
    ∃ n st', (∀ f, n ≤ f → undefine f st s = some (st', (m s).isSome)) ∧
      (∃ n, ∀ f, n ≤ f → globalLookup f st'.heap st'.glob s = some none) ∧
      (∀ s', s' ≠ s → ∃ n, ∀ f, n ≤ f → globalLookup f st'.heap st'.glob s' = some (m s')) ∧
      (m s = none → st' = st) ∧ numFree st'.heap = numFree st.heap ∧ GHist st' (upd m s none) := by
  obtain ⟨L, fl, r⟩ := hist_rep hh
  obtain ⟨st', b, L', e, r', h1, h2⟩ := r.drop s (f := (L (bucket s)).length + 1) (by omega)
  have hs0 : 0 < s := by unfold runtimeStart at hs; omega
  have hh' : GHist st' (upd m s none) := .undefine hh e
  rw [h1 hs0] at e
  refine ⟨_, st', fun f hf => undefine_mono hf e, ?_, ?_, ?_, ?_, hh'⟩
  · obtain ⟨n, hn⟩ := C20_global_map hh' s
    exact ⟨n, fun f hf => by rw [hn f hf]; simp [upd]⟩
  · intro s' hne
    obtain ⟨n, hn⟩ := C20_global_map hh' s'
    exact ⟨n, fun f hf => by rw [hn f hf]; simp [upd, hne]⟩
  · intro hm
    obtain ⟨h3, h4⟩ := h2 hm
    cases st; cases st'; simp only at h3 h4; rw [h3, h4]
  · rw [freeOK_len r'.free, freeOK_len r.free]

example : ∃ n st', (∀ f, n ≤ f → undefine f demo3 va = some (st', true)) ∧
    (∃ n, ∀ f, n ≤ f → globalLookup f st'.heap st'.glob va = some none) ∧
    (∃ n, ∀ f, n ≤ f → globalLookup f st'.heap st'.glob vb = some (some (num 2))) := by
  obtain ⟨n, st', e, h1, h2, _⟩ := C22_undefine demo3_hist (s := va) (by decide)
  exact ⟨n, st', e, h1, h2 vb (by decide)⟩

/-- C22 for a list of symbols: exactly those become unbound. -/
theorem C22_undefine_list {st : GState} {m : Nat → Option Val} (hh : GHist st m) (ss : List Nat)
    (hs : ∀ s ∈ ss, runtimeStart ≤ s) :
    ∃ n st', (∀ f, n ≤ f → undefineList f st ss = some st') ∧
      ∀ s, ∃ n, ∀ f, n ≤ f → globalLookup f st'.heap st'.glob s = some (if s ∈ ss then none else m s) := by
  induction ss generalizing st m with
  | nil =>
    refine ⟨0, st, fun f _ => rfl, fun s => ?_⟩
    obtain ⟨n, hn⟩ := C20_global_map hh s
    exact ⟨n, fun f hf => by simp [hn f hf]⟩
  | cons x xs ih =>
    obtain ⟨n1, st1, e1, _, _, _, _, hh1⟩ := C22_undefine hh (hs x (by simp))
    obtain ⟨n2, st2, e2, h2⟩ := ih hh1 (fun s h => hs s (by simp [h]))
    refine ⟨max n1 n2, st2, fun f hf => ?_, fun s => ?_⟩
    · simp only [undefineList, e1 f (by omega), e2 f (by omega)]
    · obtain ⟨n, hn⟩ := h2 s
      refine ⟨n, fun f hf => ?_⟩
      rw [hn f hf]
      congr 1
      by_cases h1 : s ∈ xs
      · simp [h1]
      · by_cases h3 : s = x
        · simp [h3, upd]
        · simp [h1, h3, upd]

example : ∃ n st', (∀ f, n ≤ f → undefineList f demo3 [vb, vc] = some st') ∧
    ∀ s, ∃ n, ∀ f, n ≤ f → globalLookup f st'.heap st'.glob s = some (if s ∈ [vb, vc] then none else
      upd (upd (upd (fun _ => none) va (some (num 1))) vb (some (num 2))) vc (some (num 3)) s) :=
  C22_undefine_list demo3_hist [vb, vc] (by decide)

/-- Once an assignment has failed, C22 no longer holds for that bucket: `(setq b 1)` with `b` unbound, then
`(define b 2)`, then `(undefine 'b)` reports that there was nothing to remove, and `b` is still bound. -/
theorem C22_after_failed_set_violated : ∃ st1 st2 st3,
    performSetvar 5 (start 4) nil vb (num 1) = some (st1, .notBound) ∧
    define 5 id st1 vb (num 2) = some (st2, true) ∧
    undefine 5 st2 vb = some (st3, false) ∧
    globalLookup 5 st3.heap st3.glob vb = some (some (num 2)) :=
  ⟨_, _, _, rfl, rfl, rfl, by decide⟩

end Verif.Env
