import Verif.Eval.Sized

/-!
# Evaluation leaves alone what it cannot reach: proof
-/

namespace Verif.Eval

/-- The value is not one of the cells `N`, and if it is a cell it is one of the `k` that are in use. -/
def Away (N : Nat → Prop) (k : Nat) (v : V) : Prop := ∀ a, v = .cons a → ¬ N a ∧ a < k

/-- No word is one of the cells `N`, or a cell that is not in use. -/
def AwayK (N : Nat → Prop) (k : Nat) (K : List W) : Prop := ∀ v, .v v ∈ K → Away N k v

/-- The cells `N` exist and nothing outside of them refers to them; what is outside of them refers to cells in use only. -/
structure Apart (N : Nat → Prop) (s : St) : Prop where
  cells : ∀ a, a < s.next → ¬ N a → Away N s.next (s.car a) ∧ Away N s.next (s.cdr a)
  globals : ∀ n, Away N s.next (s.globals n)
  konts : ∀ k, AwayK N s.next (s.konts k)
  old : ∀ a, N a → a < s.next

/-- The cells `N` are as they were, and no cell that was in use is not. -/
def Kept (N : Nat → Prop) (s s' : St) : Prop := (∀ a, N a → s'.car a = s.car a ∧ s'.cdr a = s.cdr a) ∧ s.next ≤ s'.next

/-- A machine that has no reference to the cells `N`. -/
structure MAway (N : Nat → Prop) (m : M) : Prop where
  st : Apart N m.st
  K : AwayK N m.st.next m.K
  r : Away N m.st.next m.r
  exp : Away N m.st.next m.exp
  env : Away N m.st.next m.env
  program : Away N m.st.next m.program

/-- What a step that started in the store `s0` does to the cells `N`. -/
def Fine (N : Nat → Prop) (s0 : St) : Out → Prop
  | .next m => MAway N m ∧ Kept N s0 m.st
  | .fin s v _ => Apart N s ∧ Away N s.next v ∧ Kept N s0 s
  | _ => True

/-- What an operation that started in the store `s` does to the cells `N`. -/
def PFine (N : Nat → Prop) (s : St) : PRes → Prop
  | .ok s' v => Apart N s' ∧ Kept N s s' ∧ Away N s'.next v
  | .err s' v => Apart N s' ∧ Kept N s s' ∧ Away N s'.next v

/-- The fundamental operations and extensions leave alone what they cannot reach: cells `N` to which nothing else refers are not changed, and there is no
reference to them in the result or in other cells afterwards. -/
def Local (P : Prims) : Prop := ∀ (N : Nat → Prop) n args env s, Apart N s → (∀ v ∈ args, Away N s.next v) → Away N s.next env → PFine N s (P.run n args env s)

variable {N : Nat → Prop} {k : Nat}

@[grind .] theorem away_sym (n : Nat) : Away N k (.sym n) := by intro a h; cases h
@[grind .] theorem away_u (n : Nat) : Away N k (.u n) := by intro a h; cases h
@[grind .] theorem away_atom (n : Nat) : Away N k (.atom n) := by intro a h; cases h
@[grind .] theorem away_arr (n : Nat) : Away N k (.arr n) := by intro a h; cases h
theorem away_cons (a : Nat) : Away N k (.cons a) ↔ ¬ N a ∧ a < k := ⟨fun h => h a rfl, fun h b e => by cases e; exact h⟩

@[grind .] theorem awayK_nil : AwayK N k [] := by intro v h; cases h
@[grind =] theorem awayK_v (x : V) (K : List W) : AwayK N k (.v x :: K) ↔ Away N k x ∧ AwayK N k K := by
  simp only [AwayK, List.mem_cons, W.v.injEq]
  exact ⟨fun h => ⟨h x (.inl rfl), fun v hv => h v (.inr hv)⟩, fun h v hv => hv.elim (fun e => e ▸ h.1) (h.2 v)⟩
@[grind =] theorem awayK_k (n : Nat) (K : List W) : AwayK N k (.k n :: K) ↔ AwayK N k K := by simp [AwayK]
@[grind =] theorem awayK_raw (n : Nat) (K : List W) : AwayK N k (.raw n :: K) ↔ AwayK N k K := by simp [AwayK]
@[grind =] theorem awayK_junk (K : List W) : AwayK N k (.junk :: K) ↔ AwayK N k K := by simp [AwayK]
@[grind =] theorem awayK_append (K K' : List W) : AwayK N k (K ++ K') ↔ AwayK N k K ∧ AwayK N k K' := by
  simp only [AwayK, List.mem_append]
  exact ⟨fun h => ⟨fun v hv => h v (.inl hv), fun v hv => h v (.inr hv)⟩, fun h v hv => hv.elim (h.1 v) (h.2 v)⟩
@[grind →] theorem awayK_tail {w : W} {K : List W} (h : AwayK N k (w :: K)) : AwayK N k K := fun v hv => h v (List.mem_cons_of_mem _ hv)
theorem awayK_sub {K K' : List W} (h : AwayK N k K) (hs : ∀ w ∈ K', w ∈ K) : AwayK N k K' := fun v hv => h v (hs _ hv)

@[grind .] theorem kept_refl (s : St) : Kept N s s := ⟨fun _ _ => ⟨rfl, rfl⟩, Nat.le_refl _⟩
@[grind →] theorem Kept.trans {s s1 s2 : St} (h : Kept N s s1) (h' : Kept N s1 s2) : Kept N s s2 :=
  ⟨fun a ha => ⟨(h'.1 a ha).1.trans (h.1 a ha).1, (h'.1 a ha).2.trans (h.1 a ha).2⟩, Nat.le_trans h.2 h'.2⟩

theorem Away.le {k' : Nat} {v : V} (h : Away N k v) (hk : k ≤ k') : Away N k' v := fun a ha => ⟨(h a ha).1, Nat.lt_of_lt_of_le (h a ha).2 hk⟩
theorem AwayK.le {k' : Nat} {K : List W} (h : AwayK N k K) (hk : k ≤ k') : AwayK N k' K := fun v hv => (h v hv).le hk
theorem Away.up {s s1 : St} {v : V} (h : Away N s.next v) (hk : Kept N s s1) : Away N s1.next v := h.le hk.2
theorem AwayK.up {s s1 : St} {K : List W} (h : AwayK N s.next K) (hk : Kept N s s1) : AwayK N s1.next K := h.le hk.2

section
variable {s : St} (h : Apart N s)
include h

theorem Apart.gcar {v x : V} (hv : Away N s.next v) (e : s.gcar v = some x) : Away N s.next x := by
  unfold St.gcar at e
  split at e <;> cases e
  · exact (h.cells _ ((away_cons _).1 hv).2 ((away_cons _).1 hv).1).1
  · exact away_sym _

theorem Apart.gcdr {v x : V} (hv : Away N s.next v) (e : s.gcdr v = some x) : Away N s.next x := by
  unfold St.gcdr at e
  split at e <;> cases e
  · exact (h.cells _ ((away_cons _).1 hv).2 ((away_cons _).1 hv).1).2
  · exact away_sym _

theorem Apart.gcadr {v x : V} (hv : Away N s.next v) (e : s.gcadr v = some x) : Away N s.next x := by
  unfold St.gcadr at e
  split at e
  · rename_i a
    have h1 := (h.cells a ((away_cons _).1 hv).2 ((away_cons _).1 hv).1).2
    split at e <;> cases e
    · rename_i b hb
      rw [hb] at h1
      exact (h.cells _ ((away_cons _).1 h1).2 ((away_cons _).1 h1).1).1
    · exact away_sym _
  · cases e; exact away_sym _
  · cases e

theorem Apart.hd {v : V} (hv : Away N s.next v) : Away N s.next (s.hd v) := by
  unfold St.hd
  split
  · exact (h.cells _ ((away_cons _).1 hv).2 ((away_cons _).1 hv).1).1
  · exact away_sym _

theorem Apart.tl {v : V} (hv : Away N s.next v) : Away N s.next (s.tl v) := by
  unfold St.tl
  split
  · exact (h.cells _ ((away_cons _).1 hv).2 ((away_cons _).1 hv).1).2
  · exact hv

theorem Apart.car {a : Nat} (ha : Away N s.next (.cons a)) : Away N s.next (s.car a) := (h.cells _ ((away_cons _).1 ha).2 ((away_cons _).1 ha).1).1
theorem Apart.cdr {a : Nat} (ha : Away N s.next (.cons a)) : Away N s.next (s.cdr a) := (h.cells _ ((away_cons _).1 ha).2 ((away_cons _).1 ha).1).2

theorem Apart.lookup {key : V} : ∀ {f : Nat} {env x : V}, Away N s.next env → s.lookup key f env = some (some x) → Away N s.next x
  | 0, _, _, _, e => by cases e
  | f + 1, env, x, he, e => by
    unfold St.lookup at e
    split at e
    · cases e
    · have := h.car he
      split at e
      · rename_i p hp
        rw [hp] at this
        split at e
        · cases e; exact h.cdr this
        · exact Apart.lookup (h.cdr he) e
      · cases e
    · cases e

theorem Apart.glookupLoop {key : V} : ∀ {f : Nat} {env x : V}, Away N s.next env → s.glookupLoop key f env = some (some x) → Away N s.next x
  | 0, _, _, _, e => by cases e
  | f + 1, env, x, he, e => by
    unfold St.glookupLoop at e
    split at e
    · cases e
    · have := h.car he
      split at e
      · rename_i p hp
        rw [hp] at this
        split at e
        · cases e; exact h.cdr this
        · exact Apart.glookupLoop (h.cdr he) e
      · cases e
    · cases e

theorem Apart.glookup {n : Nat} {x : V} (e : s.glookup n = some (some x)) : Away N s.next x := h.glookupLoop (h.globals _) e

theorem Apart.findPair {key : V} : ∀ {f : Nat} {env x : V}, Away N s.next env → s.findPair key f env = some (some x) → Away N s.next x
  | 0, _, _, _, e => by cases e
  | f + 1, env, x, he, e => by
    unfold St.findPair at e
    split at e
    · cases e
    · split at e
      · cases e; exact h.car he
      · exact Apart.findPair (h.cdr he) e
    · cases e

theorem Apart.cons {x y : V} (hx : Away N s.next x) (hy : Away N s.next y) :
    Apart N (s.cons x y).1 ∧ Away N (s.cons x y).1.next (s.cons x y).2 ∧ Kept N s (s.cons x y).1 := by
  have hn : ¬ N s.next := fun hc => absurd (h.old _ hc) (by omega)
  have hl : s.next ≤ s.next + 1 := Nat.le_succ _
  refine ⟨⟨fun a hb ha => ?_, fun n => (h.globals n).le hl, fun k => (h.konts k).le hl, fun a ha => Nat.lt_succ_of_lt (h.old a ha)⟩,
    (away_cons _).2 ⟨hn, Nat.lt_succ_self _⟩, fun a ha => ?_, hl⟩
  · simp only [St.cons] at hb ⊢
    by_cases e : a = s.next
    · simp only [if_pos e]; exact ⟨hx.le hl, hy.le hl⟩
    · simp only [if_neg e]
      have := h.cells a (by omega) ha
      exact ⟨this.1.le hl, this.2.le hl⟩
  · have e : a ≠ s.next := fun e => hn (e ▸ ha)
    simp only [St.cons, if_neg e]; exact ⟨trivial, trivial⟩

theorem Apart.cons' {x y : V} {s1 : St} {v : V} (e : s.cons x y = (s1, v)) (hx : Away N s.next x) (hy : Away N s.next y) :
    Apart N s1 ∧ Away N s1.next v ∧ Kept N s s1 := by
  have := h.cons hx hy
  rw [e] at this; exact this

theorem Apart.setCar {v x : V} (hv : Away N s.next v) (hx : Away N s.next x) : Apart N (s.setCar v x) ∧ Kept N s (s.setCar v x) := by
  unfold St.setCar
  split
  · rename_i b
    have hb := ((away_cons _).1 hv).1
    refine ⟨⟨fun a hl ha => ?_, h.globals, h.konts, h.old⟩, fun a ha => ?_, Nat.le_refl _⟩
    · dsimp only
      split
      · exact ⟨hx, (h.cells a hl ha).2⟩
      · exact h.cells a hl ha
    · dsimp only
      rw [if_neg (fun e : a = b => hb (e ▸ ha))]; exact ⟨rfl, rfl⟩
  · exact ⟨h, kept_refl s⟩

theorem Apart.setCdr {v x : V} (hv : Away N s.next v) (hx : Away N s.next x) : Apart N (s.setCdr v x) ∧ Kept N s (s.setCdr v x) := by
  unfold St.setCdr
  split
  · rename_i b
    have hb := ((away_cons _).1 hv).1
    refine ⟨⟨fun a hl ha => ?_, h.globals, h.konts, h.old⟩, fun a ha => ?_, Nat.le_refl _⟩
    · dsimp only
      split
      · exact ⟨(h.cells a hl ha).1, hx⟩
      · exact h.cells a hl ha
    · dsimp only
      rw [if_neg (fun e : a = b => hb (e ▸ ha))]; exact ⟨rfl, rfl⟩
  · exact ⟨h, kept_refl s⟩

theorem Apart.setGlobal {n : Nat} {x : V} (hx : Away N s.next x) : Apart N { s with globals := fun i => if i = n then x else s.globals i } :=
  ⟨h.cells, fun i => by dsimp only; split <;> first | exact hx | exact h.globals i, h.konts, h.old⟩

theorem Apart.setAtomic (b : Bool) : Apart N { s with atomic := b } := ⟨h.cells, h.globals, h.konts, h.old⟩

theorem Apart.modify {env key val : V} {s1 : St} (he : Away N s.next env) (hv : Away N s.next val) (e : s.modify env key val = some (some s1)) :
    Apart N s1 ∧ Kept N s s1 := by
  unfold St.modify at e
  split at e <;> try cases e
  rename_i p hp
  exact h.setCdr (h.findPair he hp) hv

theorem Apart.envSet {env key val : V} {s1 : St} {env1 : V} (he : Away N s.next env) (hk : Away N s.next key) (hv : Away N s.next val) (e : s.envSet env key val = some (s1, env1)) :
    Apart N s1 ∧ Away N s1.next env1 ∧ Kept N s s1 := by
  unfold St.envSet at e
  split at e
  · cases e
  · rename_i p hp
    cases e
    have := h.setCdr (h.findPair he hp) hv
    exact ⟨this.1, he.up this.2, this.2⟩
  · have h1 := h.cons hk hv
    have h2 := h1.1.cons h1.2.1 (he.up h1.2.2)
    cases e
    exact ⟨h2.1, h2.2.1, h1.2.2.trans h2.2.2⟩

theorem Apart.define {n : Nat} {val : V} {s1 : St} (hv : Away N s.next val) (e : s.define n val = some s1) : Apart N s1 ∧ Kept N s s1 := by
  unfold St.define at e
  split at e
  · cases e
  · rename_i s2 x hx
    obtain ⟨h1, h2, h3⟩ := h.envSet (h.globals _) (away_sym n) hv hx
    cases e
    exact ⟨h1.setGlobal h2, h3⟩

theorem Apart.setvar {n : Nat} {val env : V} {s1 : St} {b : Bool} (he : Away N s.next env) (hv : Away N s.next val) (e : s.setvar n val env = some (s1, b)) :
    Apart N s1 ∧ Kept N s s1 := by
  unfold St.setvar at e
  split at e
  · cases e
  · rename_i hm; cases e; exact h.modify he hv hm
  · split at e
    · cases e
    · rename_i hm; cases e; exact h.modify (h.globals _) hv hm
    · cases e
      exact ⟨h.setGlobal (away_sym _), kept_refl s⟩

theorem Apart.copySpine : ∀ {f : Nat} {env : V} {s1 : St} {env1 : V}, Away N s.next env → s.copySpine f env = some (s1, env1) → Apart N s1 ∧ Away N s1.next env1 ∧ Kept N s s1
  | 0, _, _, _, _, e => by cases e
  | f + 1, env, s1, env1, he, e => by
    unfold St.copySpine at e
    split at e
    · cases e
    · split at e
      · cases e
      · rename_i s2 t ht
        obtain ⟨h1, h2, h3⟩ := Apart.copySpine (h.cdr he) ht
        have h4 := h1.cons ((h.car he).up h3) h2
        cases e
        exact ⟨h4.1, h4.2.1, h3.trans h4.2.2⟩
    · cases e; exact ⟨h, away_sym _, kept_refl s⟩

theorem Apart.allocBinding {key val rest : V} (hk : Away N s.next key) (hv : Away N s.next val) (hr : Away N s.next rest) :
    Apart N (allocBinding s key val rest).1 ∧ Away N (allocBinding s key val rest).1.next (allocBinding s key val rest).2 ∧ Kept N s (allocBinding s key val rest).1 := by
  have h1 := h.cons hk hv
  have h2 := h1.1.cons h1.2.1 (hr.up h1.2.2)
  exact ⟨h2.1, h2.2.1, h1.2.2.trans h2.2.2⟩

theorem Apart.allocClosure {params body env : V} (hk : Away N s.next params) (hv : Away N s.next body) (hr : Away N s.next env) :
    Apart N (allocClosure s params body env).1 ∧ Away N (allocClosure s params body env).1.next (allocClosure s params body env).2 ∧ Kept N s (allocClosure s params body env).1 := by
  have h1 := h.cons hr (away_sym 0)
  have h2 := h1.1.cons (hv.up h1.2.2) h1.2.1
  have h3 := h2.1.cons (hk.up (h1.2.2.trans h2.2.2)) h2.2.1
  have h4 := h3.1.cons (away_sym 0x10F) h3.2.1
  exact ⟨h4.1, h4.2.1, ((h1.2.2.trans h2.2.2).trans h3.2.2).trans h4.2.2⟩

end

theorem Apart.createLoc : ∀ {f : Nat} {s : St} {key env : V} {s1 : St} {env1 : V}, Apart N s → Away N s.next key → Away N s.next env → s.createLoc f key env = some (s1, env1) →
    Apart N s1 ∧ Away N s1.next env1 ∧ Kept N s s1
  | 0, _, _, _, _, _, _, _, _, e => by cases e
  | f + 1, s, key, env, s1, env1, h, hk, he, e => by
    unfold St.createLoc at e
    split at e
    · split at e
      · cases e; exact ⟨h, he, kept_refl s⟩
      · cases e
        exact h.allocBinding hk (away_sym _) he
    · split at e
      · cases e
      · rename_i s2 env2 h2
        obtain ⟨a1, a2, a3⟩ := Apart.createLoc h (h.car hk) he h2
        obtain ⟨b1, b2, b3⟩ := Apart.createLoc a1 (a1.cdr (hk.up a3)) a2 e
        exact ⟨b1, b2, a3.trans b3⟩
    · cases e; exact ⟨h, he, kept_refl s⟩

theorem Apart.fillLoc : ∀ {f : Nat} {s : St} {key val env : V} {s1 : St} {b : Bool}, Apart N s → Away N s.next key → Away N s.next val → Away N s.next env →
    s.fillLoc f key val env = some (s1, b) → Apart N s1 ∧ Kept N s s1
  | 0, _, _, _, _, _, _, _, _, _, _, e => by cases e
  | f + 1, s, key, val, env, s1, b, h, hk, hv, he, e => by
    unfold St.fillLoc at e
    split at e
    · split at e
      · cases e; exact ⟨h, kept_refl s⟩
      · split at e
        · cases e
        · cases e; exact ⟨h, kept_refl s⟩
        · rename_i hm; cases e; exact h.modify he hv hm
    · split at e
      · split at e
        · cases e
        · rename_i h2; cases e; exact Apart.fillLoc h (h.car hk) (h.car hv) he h2
        · rename_i s2 h2
          obtain ⟨a1, a2⟩ := Apart.fillLoc h (h.car hk) (h.car hv) he h2
          obtain ⟨b1, b2⟩ := Apart.fillLoc a1 (a1.cdr (hk.up a2)) (a1.cdr (hv.up a2)) (he.up a2) e
          exact ⟨b1, a2.trans b2⟩
      · cases e; exact ⟨h, kept_refl s⟩
    · cases e; exact ⟨h, kept_refl s⟩

theorem Apart.letLocs : ∀ {f : Nat} {s : St} {binds env : V} {s1 : St} {env1 : V}, Apart N s → Away N s.next binds → Away N s.next env →
    Verif.Eval.letLocs s f binds env = some (some (s1, env1)) → Apart N s1 ∧ Away N s1.next env1 ∧ Kept N s s1
  | 0, _, _, _, _, _, _, _, _, e => by cases e
  | f + 1, s, binds, env, s1, env1, h, hk, he, e => by
    unfold Verif.Eval.letLocs at e
    split at e
    · split at e
      · cases e
      · rename_i key hkey
        split at e
        · cases e
        · rename_i s2 env2 h2
          obtain ⟨a1, a2, a3⟩ := h.createLoc (h.gcar (h.car hk) hkey) he h2
          obtain ⟨b1, b2, b3⟩ := Apart.letLocs a1 ((h.cdr hk).up a3) a2 e
          exact ⟨b1, b2, a3.trans b3⟩
    · cases e; exact ⟨h, he, kept_refl s⟩

theorem Apart.binderVar {s : St} (h : Apart N s) {p : V} (hp : Away N s.next p) : Away N s.next (s.binderVar p) := by
  unfold St.binderVar
  split
  · split
    · have := h.cdr hp
      split
      · rename_i b hb; rw [hb] at this; exact h.car this
      · exact away_sym _
    · exact away_sym _
  · exact away_sym _

theorem Apart.matchP {eq : St → V → V → Bool} : ∀ {f : Nat} {s : St} {p e env : V} {b : Bool} {s1 : St} {env1 : V}, Apart N s → Away N s.next p → Away N s.next e → Away N s.next env →
    s.matchP eq f p e env = some (b, s1, env1) → Apart N s1 ∧ Away N s1.next env1 ∧ Kept N s s1
  | 0, _, _, _, _, _, _, _, _, _, _, _, e => by cases e
  | f + 1, s, p, x, env, b, s1, env1, h, hp, hx, he, e => by
    unfold St.matchP at e
    split at e
    · have := h.allocBinding (h.binderVar hp) hx he
      cases e
      exact this
    · split at e
      · cases e; exact ⟨h, he, kept_refl s⟩
      · split at e
        · split at e
          · cases e
          · rename_i h2; cases e; exact Apart.matchP h (h.car hp) (h.car hx) he h2
          · rename_i s2 env2 h2
            obtain ⟨a1, a2, a3⟩ := Apart.matchP h (h.car hp) (h.car hx) he h2
            obtain ⟨b1, b2, b3⟩ := Apart.matchP a1 ((h.cdr hp).up a3) ((h.cdr hx).up a3) a2 e
            exact ⟨b1, b2, a3.trans b3⟩
        · cases e; exact ⟨h, he, kept_refl s⟩
      · cases e; exact ⟨h, he, kept_refl s⟩

theorem Apart.macroEnv : ∀ {f : Nat} {s : St} {params args env : V} {s1 : St} {env1 : V}, Apart N s → Away N s.next params → Away N s.next args → Away N s.next env →
    s.macroEnv f params args env = some (s1, env1) → Apart N s1 ∧ Away N s1.next env1 ∧ Kept N s s1
  | 0, _, _, _, _, _, _, _, _, _, _, e => by cases e
  | f + 1, s, params, args, env, s1, env1, h, hp, ha, he, e => by
    unfold St.macroEnv at e
    split at e
    · obtain ⟨a1, a2, a3⟩ := h.allocBinding (h.car hp) (h.car ha) he
      obtain ⟨b1, b2, b3⟩ := Apart.macroEnv a1 ((h.cdr hp).up a3) ((h.cdr ha).up a3) a2 e
      exact ⟨b1, b2, a3.trans b3⟩
    · cases e; exact ⟨h, he, kept_refl s⟩

end Verif.Eval
