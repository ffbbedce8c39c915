import Verif.Eval.Frames

/-!
# Frames: the cases of a step
-/

namespace Verif.Eval

variable {F : Prop} {sz : Option Nat} {P : Prims}

/-! ## The store -/

theorem konts_cons {s : St} {a d : V} : (s.cons a d).1.konts = s.konts := rfl

theorem konts_createLoc : ∀ (f : Nat) {s s' : St} {key env env' : V}, s.createLoc f key env = some (s', env') → s'.konts = s.konts := by
  intro f
  induction f with
  | zero => intro s s' key env env' h; cases h
  | succ f ih =>
    intro s s' key env env' h
    cases key with
    | sym n =>
      simp only [St.createLoc] at h
      split at h
      · cases h; rfl
      · cases h; rfl
    | cons a =>
      simp only [St.createLoc] at h
      split at h
      · cases h
      · rename_i h1
        rw [ih h, ih h1]
    | u => cases h; rfl
    | atom => cases h; rfl
    | arr => cases h; rfl

theorem konts_letLocs : ∀ (f : Nat) {s s' : St} {binds env env' : V}, letLocs s f binds env = some (some (s', env')) → s'.konts = s.konts := by
  intro f
  induction f with
  | zero => intro s s' key env env' h; cases h
  | succ f ih =>
    intro s s' binds env env' h
    cases binds with
    | cons a =>
      simp only [letLocs] at h
      split at h
      · cases h
      · split at h
        · cases h
        · rename_i h1
          rw [ih h, konts_createLoc _ h1]
    | sym => cases h; rfl
    | u => cases h; rfl
    | atom => cases h; rfl
    | arr => cases h; rfl

theorem konts_modify {s s' : St} {env key val : V} (h : s.modify env key val = some (some s')) : s'.konts = s.konts := by
  unfold St.modify at h
  split at h
  · cases h
  · cases h
  · cases h; exact konts_setCdr

theorem konts_fillLoc : ∀ (f : Nat) {s s' : St} {key val env : V} {b : Bool}, s.fillLoc f key val env = some (s', b) → s'.konts = s.konts := by
  intro f
  induction f with
  | zero => intro s s' key val env b h; cases h
  | succ f ih =>
    intro s s' key val env b h
    cases key with
    | sym n =>
      simp only [St.fillLoc] at h
      split at h
      · cases h; rfl
      · split at h
        · cases h
        · cases h; rfl
        · rename_i h1; cases h; exact konts_modify h1
    | cons a =>
      simp only [St.fillLoc] at h
      split at h
      · split at h
        · cases h
        · rename_i h1; cases h; exact ih h1
        · rename_i h1; rw [ih h, ih h1]
      · cases h; rfl
    | u => cases h; rfl
    | atom => cases h; rfl
    | arr => cases h; rfl

theorem konts_setvar {s s' : St} {n : Nat} {val env : V} {b : Bool} (h : s.setvar n val env = some (s', b)) : s'.konts = s.konts := by
  unfold St.setvar at h
  split at h
  · cases h
  · rename_i h1; cases h; exact konts_modify h1
  · split at h
    · cases h
    · rename_i h1; cases h; exact konts_modify h1
    · cases h; rfl

theorem konts_envSet {s s' : St} {env key val env' : V} (h : s.envSet env key val = some (s', env')) : s'.konts = s.konts := by
  unfold St.envSet at h
  split at h
  · cases h
  · cases h; exact konts_setCdr
  · cases h; rfl

theorem konts_define {s s' : St} {n : Nat} {val : V} (h : s.define n val = some s') : s'.konts = s.konts := by
  unfold St.define at h
  split at h
  · cases h
  · rename_i h1; cases h; exact (konts_envSet h1 :)

theorem konts_copySpine : ∀ (f : Nat) {s s' : St} {env env' : V}, s.copySpine f env = some (s', env') → s'.konts = s.konts := by
  intro f
  induction f with
  | zero => intro s s' env env' h; cases h
  | succ f ih =>
    intro s s' env env' h
    cases env with
    | cons a =>
      simp only [St.copySpine] at h
      split at h
      · cases h
      · rename_i h1; cases h; exact (ih h1 :)
    | sym => cases h; rfl
    | u => cases h; rfl
    | atom => cases h; rfl
    | arr => cases h; rfl

theorem konts_matchP {eq : St → V → V → Bool} : ∀ (f : Nat) {s s' : St} {p e env env' : V} {b : Bool}, s.matchP eq f p e env = some (b, s', env') → s'.konts = s.konts := by
  intro f
  induction f with
  | zero => intro s s' p e env env' b h; cases h
  | succ f ih =>
    intro s s' p e env env' b h
    simp only [St.matchP] at h
    split at h
    · cases h; rfl
    · split at h
      · cases h; rfl
      · split at h
        · split at h
          · cases h
          · rename_i h1; cases h; exact ih h1
          · rename_i h1; rw [ih h, ih h1]
        · cases h; rfl
      · cases h; rfl

theorem konts_macroEnv : ∀ (f : Nat) {s s' : St} {params as env env' : V}, s.macroEnv f params as env = some (s', env') → s'.konts = s.konts := by
  intro f
  induction f with
  | zero => intro s s' params as env env' h; cases h
  | succ f ih =>
    intro s s' params as env env' h
    simp only [St.macroEnv] at h
    split at h
    · rw [ih h]; rfl
    · cases h; rfl

theorem KontsOk.of {s s' : St} (h : KontsOk sz s) (he : s'.konts = s.konts) : KontsOk sz s' := by unfold KontsOk; rw [he]; exact h

/-! ## Tactics -/

/-- A stack of frames. -/
local macro "framed" : tactic => `(tactic| (repeat' (first | assumption | constructor)))
/-- A stack of frames below some words. -/
local macro "loose" : tactic => `(tactic| (repeat (first | apply Loose.v | apply Loose.junk | apply Loose.raw | apply Loose.vs)) <;> exact Framed.loose (by framed))
/-- The stack fits. -/
local macro "fits" : tactic => `(tactic| (first | assumption | (refine Roomy.sub (by assumption) ?_; simp only [List.length_cons, List.length_nil, List.cons_append, List.nil_append, List.length_append, List.length_map] at *; omega)))
/-- An error. -/
local macro "err" : tactic => `(tactic| exact Whole.raise (by loose) (by fits) (by assumption))
/-- The next state. -/
local macro "nxt" : tactic => `(tactic| exact Whole.next (by framed) (by fits) (by assumption))

/-! ## Special forms -/

section Forms
variable {m : M} (hK : Framed m.K) (hf : Roomy sz m.K) (hk : KontsOk sz m.st)
include hK hf hk

theorem whole_evalSymbol {n : Nat} (he : m.exp = .sym n) : Whole (Fault sz P m) sz (evalSymbol m n) := by
  unfold evalSymbol
  split
  · split
    · exact .ub (.lookup (.inl rfl) ‹_›)
    · nxt
    · split
      · exact .ub (.glookup he ‹_›)
      · nxt
      · err
  · nxt

theorem whole_evalQuote : Whole F sz (evalQuote m) := by
  unfold evalQuote
  split
  · err
  · nxt

theorem whole_evalProgn : Whole F sz (evalProgn sz m) := by
  unfold evalProgn
  split
  · err
  · split
    · rename_i a _ h
      refine .reserve (by loose) hf hk fun hf' => ?_
      cases hd : m.st.cdr a <;> rw [hd] at h <;> first | (simp [V.isCons] at h; done) | skip
      nxt
    · nxt
  · nxt
  · err

theorem whole_evalCallcc : Whole F sz (evalCallcc sz m) := by
  unfold evalCallcc
  refine .reserve (by loose) hf hk fun hf' => ?_
  have hk' : KontsOk sz ({ m.st with konts := fun i => if i = m.st.nk then [W.v (if m.st.atomic then .tru else .nil)] ++ m.K else m.st.konts i, nk := m.st.nk + 1 } : St) := by
    intro i a K h
    simp only at h
    split at h
    · injection h with h1 h2
      subst h1; subst h2
      exact ⟨hK, hf'⟩
    · exact hk i a K h
  refine .reserve (by loose) (by fits) hk' fun hf'' => ?_
  split
  · exact .raise (by loose) (by fits) hk'
  · exact .next (by framed) (by fits) hk'

theorem whole_evalDefine : Whole F sz (evalDefine sz m) := by
  unfold evalDefine
  dsimp only
  generalize m.st.hd (m.st.tl m.exp) = key
  refine .reserve (by loose) hf hk fun hf' => ?_
  split
  · split
    · split
      · split
        · exact .out
        · nxt
      · err
    · err
  · err

theorem whole_evalLambda : Whole F sz (evalLambda m) := by
  unfold evalLambda allocClosure
  nxt

theorem whole_evalIf : Whole F sz (evalIf sz m) := by
  unfold evalIf
  split
  · err
  · refine .reserve (by loose) hf hk fun hf' => ?_
    split
    · nxt
    · err

theorem whole_evalCond : Whole (Fault sz P m) sz (evalCond sz m) := by
  unfold evalCond
  simp only
  split
  · nxt
  · split
    · exact .ub (.len (.inl rfl) ‹_›)
    · split
      · err
      · exact .reserve (by loose) hf hk fun hf' => by nxt

theorem whole_letBind {binds body : V} (hF : ∀ a, binds = .cons a → letLocs m.st (m.st.next + 1) binds m.env = none → F) : Whole F sz (letBind sz m binds body) := by
  unfold letBind
  split
  · split
    · exact .ub (hF _ rfl ‹_›)
    · err
    · rename_i h
      have hk' := hk.of (konts_letLocs _ h)
      exact .reserve (by loose) hf hk' fun hf' => by nxt
  · nxt

theorem whole_evalVar : Whole (Fault sz P m) sz (evalVar sz m) := by
  unfold evalVar
  split
  · rename_i rest c penv K hm
    rw [hm] at hK hf
    have hK0 : Framed K := by cases hK; assumption
    have hr : ∃ a, rest = .v (.cons a) := by cases hK; exact ⟨_, rfl⟩
    obtain ⟨a, rfl⟩ := hr
    dsimp only
    split
    · rename_i h
      split at h
      · exact .ub (.copy (by rw [hm]; simp) h)
      · cases h
    · rename_i s1 penv1 h
      have hs : s1 = m.st ∨ ∃ e, .v e ∈ m.K ∧ m.st.copySpine (m.st.next + 1) e = some (s1, penv1) := by
        split at h
        · exact .inr ⟨_, by rw [hm]; simp, h⟩
        · cases h; exact .inl rfl
      have hk1 : KontsOk sz s1 := by
        rcases hs with rfl | ⟨e, _, h⟩
        · exact hk
        · exact hk.of (konts_copySpine _ h)
      split
      · err
      · rename_i args h1
        split
        · err
        · rename_i key h2
          have hkey : s1.hd (s1.tl m.exp) = key := by
            cases he : m.exp with
            | cons a =>
              rw [he] at h1
              cases h1
              cases hd : s1.cdr a with
              | cons b => rw [hd] at h2; cases h2; simp only [St.tl, hd, St.hd]
              | sym n =>
                rw [hd] at h2
                cases n with
                | zero => cases h2; simp only [St.tl, hd, St.hd]
                | succ n => cases h2
              | u => rw [hd] at h2; cases h2
              | atom => rw [hd] at h2; cases h2
              | arr => rw [hd] at h2; cases h2
            | sym n =>
              rw [he] at h1
              cases n with
              | zero => cases h1; cases h2; rfl
              | succ n => cases h1
            | u => rw [he] at h1; cases h1
            | atom => rw [he] at h1; cases h1
            | arr => rw [he] at h1; cases h1
          split
          · rename_i h3
            rw [← hkey] at h3
            exact .ub (.createLoc hs h3)
          · rename_i s2 penv2 h3
            have hk2 := hk1.of (konts_createLoc _ h3)
            split
            · err
            · refine .reserve (by loose) (by fits) hk2 fun hf' => ?_
              nxt
  · err

theorem whole_evalSetq : Whole F sz (evalSetq sz m) := by
  unfold evalSetq
  exact .reserve (by loose) hf hk fun hf' => by nxt

theorem whole_evalTrap : Whole F sz (evalTrap sz m) := by
  unfold evalTrap
  split
  · err
  · exact .reserve (by loose) hf hk fun hf' => by nxt

theorem whole_evalJunct {code : Nat} (hc : code = 6 ∨ code = 7) {unit : V} : Whole F sz (evalJunct sz code unit m) := by
  unfold evalJunct
  split
  · err
  · split
    · nxt
    · refine .reserve (by loose) hf hk fun hf' => ?_
      split
      · rcases hc with rfl | rfl <;> nxt
      · err

theorem whole_evalMatch : Whole F sz (evalMatch sz m) := by
  unfold evalMatch
  split
  · err
  · exact .reserve (by loose) hf hk fun hf' => by nxt
  · err

theorem whole_evalAtomic : Whole F sz (evalAtomic sz m) := by
  unfold evalAtomic
  split
  · err
  · exact .reserve (by loose) hf hk fun hf' => whole_evalProgn (m := { m with K := [.k 14] ++ m.K, st := { m.st with atomic := true } }) (by framed) hf' hk

theorem whole_evalLet : Whole (Fault sz P m) sz (evalLet sz m) := by
  unfold evalLet
  exact whole_letBind hK hf hk fun _ _ h => .letLocs h

theorem whole_evalLoop : Whole (Fault sz P m) sz (evalLoop sz m) := by
  unfold evalLoop
  split
  · err
  · rename_i parts hp
    refine .reserve (by loose) hf hk fun hf' => ?_
    refine whole_letBind (m := { m with K := [W.k 39, W.v (m.st.hd (m.st.tl parts)), W.v (m.st.hd (m.st.tl (m.st.tl parts)))] ++ m.K }) (by framed) hf' hk fun _ _ h => .letLocs ?_
    cases he : m.exp with
    | cons a => rw [he] at hp; cases hp; exact h
    | sym n =>
      rw [he] at hp
      cases n with
      | zero => cases hp; exact h
      | succ n => cases hp
    | u => rw [he] at hp; cases hp
    | atom => rw [he] at hp; cases hp
    | arr => rw [he] at hp; cases hp

theorem whole_evalSpecial {i : Nat} (hi : i = 17 → ∃ K, m.K = .k 0 :: K ∧ K ≠ []) : Whole (Fault sz P m) sz (evalSpecial sz i m) := by
  unfold evalSpecial
  split
  · exact whole_evalQuote hK hf hk
  · exact whole_evalDefine hK hf hk
  · exact whole_evalProgn hK hf hk
  · exact whole_evalLambda hK hf hk
  · exact whole_evalIf hK hf hk
  · exact whole_evalLet hK hf hk
  · exact whole_evalJunct hK hf hk (.inl rfl)
  · exact whole_evalJunct hK hf hk (.inr rfl)
  · exact whole_evalMatch hK hf hk
  · exact whole_evalCallcc hK hf hk
  · exact whole_evalAtomic hK hf hk
  · nxt
  · nxt
  · nxt
  · exact whole_evalCond hK hf hk
  · obtain ⟨K', h1, h2⟩ := hi rfl
    unfold evalAppCont
    rw [h1] at hK hf ⊢
    cases hK with
    | done => exact absurd rfl h2
    | ended h => exact .next h (hf.sub (by simp)) hk
  · exact whole_evalVar hK hf hk
  · exact whole_evalSetq hK hf hk
  · exact whole_evalLoop hK hf hk
  · exact whole_evalTrap hK hf hk
  · exact .out

end Forms

/-! ## Application -/

theorem popVals_vs (vs : List V) : popVals (vs.map W.v) = some vs := by
  induction vs with
  | nil => rfl
  | cons x vs ih => simp only [List.map_cons, popVals, ih, Option.map_some]

theorem whole_application {m : M} {n : Nat} {vs : List V} {K : List W} (hm : m.K = vs.map W.v ++ .v (.sym n) :: K) (hK : Framed K) (hf : Roomy sz m.K) (hk : KontsOk sz m.st)
    (hP : KeepsKonts P) (hs : ∀ n v, m.st.setvar n v m.env = none → F) (hl : m.st.lookup .restArgs (m.st.next + 1) m.env = none → F) :
    Whole F sz (application sz P m vs.length) := by
  have hd : m.K.drop (vs.length + 1) = K := by
    rw [hm]
    simp [List.drop_append]
  have ht : m.K.take (vs.length + 1) = (vs ++ [V.sym n]).map W.v := by
    rw [hm]
    simp [List.take_append, List.take_of_length_le]
  unfold application
  dsimp only
  rw [hd, ht, popVals_vs]
  have hL : Loose m.K := by rw [hm]; loose
  have hK' : Roomy sz K := hf.sub (by rw [hm]; simp; omega)
  simp only [Option.map_some, List.reverse_append, List.reverse_cons, List.reverse_nil, List.nil_append, List.cons_append, List.length_reverse, ne_eq, not_true, if_false]
  split
  · have := hP n vs.reverse m.env m.st
    split
    · rename_i h
      rw [h] at this
      have hk' := hk.of this
      nxt
    · rename_i h
      rw [h] at this
      have hk' := hk.of this
      exact .raise hL hf hk'
  split
  · unfold applySetvar
    split
    · split
      · split
        · exact .ub (hs _ _ ‹_›)
        · rename_i h
          have hk' := hk.of (konts_setvar h)
          nxt
        · rename_i h
          have hk' := hk.of (konts_setvar h)
          exact .raise hL hf hk'
      · exact .raise hL hf hk
    · exact .raise hL hf hk
  split
  · unfold applyEval
    split
    · nxt
    · nxt
    · exact .raise hL hf hk
  split
  · exact .raise hL hf hk
  split
  · unfold applyMap
    split
    · rename_i hv
      have hlen : vs.length = 2 := by
        have := congrArg List.length hv
        simpa using this
      have hf2 : Roomy sz (W.v .nil :: .v .nil :: .v .nil :: K) := hf.sub (by rw [hm]; simp [hlen]; omega)
      refine .reserve (by loose) (by fits) (by assumption) fun hf' => ?_
      nxt
    · nxt
    · exact .raise hL hf hk
  split
  · unfold applyRestArgs
    split
    · split
      · exact .ub (hl ‹_›)
      · nxt
      · nxt
    · exact .out
  split
  · exact .out
  · exact .raise hL hf hk

/-! ## Continuations -/

section Conts
variable {m : M} {K : List W} (hK : Framed m.K) (hf : Roomy sz m.K) (hk : KontsOk sz m.st)

/-- The context in which a continuation is run. -/
abbrev M.pop (m : M) (K : List W) : M := { m with K := K, app := false }

include hK hf hk

theorem whole_contDone (hm : m.K = .k 0 :: K) : Whole (Fault sz P m) sz (contDone sz (m.pop K)) := by
  rw [hm] at hK hf
  unfold contDone
  dsimp only
  split
  · exact .fin ..
  · rename_i a hp
    unfold reserve
    split
    · exact .next hK hf hk
    · rename_i h
      exfalso
      apply h
      cases sz with
      | none => rfl
      | some b =>
        have := hf b rfl
        simp only [Option.all_some, decide_eq_true_eq]
        simpa using this
  · rename_i h1 h2
    refine .ub (.program h1 ?_)
    cases hp : m.program with
    | cons a => exact absurd hp (h2 a)
    | _ => rfl

theorem whole_contDefine (hm : m.K = .k 1 :: K) : Whole (Fault sz P m) sz (contDefine (m.pop K)) := by
  rw [hm] at hK hf
  cases hK
  unfold contDefine
  dsimp only
  split
  · rename_i h; exact .ub (.define h)
  · rename_i h
    have hk' := hk.of (konts_define h)
    nxt

theorem whole_contBind (hm : m.K = .k 2 :: K) : Whole (Fault sz P m) sz (contBind sz (m.pop K)) := by
  rw [hm] at hK hf
  cases hK
  unfold contBind
  dsimp only
  split
  · rename_i h; exact .ub (.fill (by rw [hm]; simp) (by rw [hm]; simp) h)
  · rename_i h
    have hk' := hk.of (konts_fillLoc _ h)
    err
  · rename_i h
    have hk' := hk.of (konts_fillLoc _ h)
    split
    · exact .reserve (by loose) (by fits) hk' fun hf' => by nxt
    · nxt

theorem whole_contIf (hm : m.K = .k 3 :: K) : Whole F sz (contIf (m.pop K)) := by
  rw [hm] at hK hf
  cases hK
  unfold contIf
  dsimp only
  split
  · split
    · err
    · nxt
  · split
    · err
    · nxt

theorem whole_contProgn (hm : m.K = .k 4 :: K) : Whole F sz (contProgn sz (m.pop K)) := by
  rw [hm] at hK hf
  cases hK
  rename_i a c env K hK
  unfold contProgn
  dsimp only
  split
  · rename_i h
    cases hd : m.st.cdr a <;> rw [hd] at h <;> first | (simp [V.isCons] at h; done) | skip
    exact .reserve (by loose) (by fits) hk fun hf' => by nxt
  · nxt

theorem whole_contArgs (hP : KeepsKonts P) (hm : m.K = .k 5 :: K) : Whole (Fault sz P m) sz (contArgs sz P (m.pop K)) := by
  rw [hm] at hK hf
  cases hK
  rename_i rest env n K vs hK
  unfold contArgs
  dsimp only
  split
  · refine .reserve (by loose) (by fits) hk fun hf' => ?_
    exact .next (Framed.args (vs := m.r :: vs) hK) hf' hk
  · exact whole_application (vs := m.r :: vs) rfl hK (by fits) hk hP (fun n v h => .setvar (.inr (by rw [hm]; simp)) h) (fun h => .lookup (.inr (by rw [hm]; simp)) h)

theorem whole_contAnd (hm : m.K = .k 6 :: K) : Whole F sz (contAnd sz (m.pop K)) := by
  rw [hm] at hK hf
  cases hK
  unfold contAnd
  dsimp only
  split
  · nxt
  split
  · nxt
  refine .reserve (by loose) (by fits) hk fun hf' => ?_
  split
  · nxt
  · err

theorem whole_contOr (hm : m.K = .k 7 :: K) : Whole F sz (contOr sz (m.pop K)) := by
  rw [hm] at hK hf
  cases hK
  unfold contOr
  dsimp only
  split
  · nxt
  split
  · nxt
  refine .reserve (by loose) (by fits) hk fun hf' => ?_
  split
  · nxt
  · err

theorem whole_contMatch (hm : m.K = .k 9 :: K) : Whole (Fault sz P m) sz (contMatch sz P (m.pop K)) := by
  rw [hm] at hK hf
  cases hK
  rename_i env pats K hK
  unfold contMatch
  dsimp only
  split
  · nxt
  · rename_i a
    split
    · rename_i p n1 n2 hp _ _
      split
      · rename_i h
        refine .ub (.matchP (a := a) (env := env) (by rw [hm]; simp) (by rw [hm]; simp) ?_)
        have he : m.st.hd (m.st.car a) = p := by
          cases hc : m.st.car a with
          | cons b => rw [hc] at hp; cases hp; rfl
          | sym n =>
            rw [hc] at hp
            cases n with
            | zero => cases hp; rfl
            | succ n => cases hp
          | u => rw [hc] at hp; cases hp
          | atom => rw [hc] at hp; cases hp
          | arr => rw [hc] at hp; cases hp
        rw [he]
        exact h
      · rename_i h
        have hk' := hk.of (konts_matchP _ h)
        split
        · nxt
        · exact .reserve (by loose) (by fits) hk' fun hf' => by nxt
      · rename_i h
        have hk' := hk.of (konts_matchP _ h)
        exact .reserve (by loose) (by fits) hk' fun hf' => by nxt
    · err
  · err

theorem whole_contGuard (hm : m.K = .k 24 :: K) : Whole F sz (contGuard (m.pop K)) := by
  rw [hm] at hK hf
  cases hK
  unfold contGuard
  dsimp only
  split
  · nxt
  · nxt

theorem whole_contEvalR (hm : m.K = .k 11 :: K) : Whole F sz (contEvalR (m.pop K)) := by
  rw [hm] at hK hf
  cases hK
  unfold contEvalR
  nxt

theorem whole_contCloArgs (hm : m.K = .k 13 :: K) : Whole F sz (contCloArgs sz (m.pop K)) := by
  rw [hm] at hK hf
  cases hK
  unfold contCloArgs allocBinding
  dsimp only
  split
  · split
    · split
      · exact .reserve (by loose) (by fits) hk fun hf' => by nxt
      · err
    split
    · nxt
    split
    · split
      · exact .reserve (by loose) (by fits) hk fun hf' => by nxt
      · err
    · err
  · err

theorem whole_contCloRest (hm : m.K = .k 42 :: K) : Whole F sz (contCloRest sz (m.pop K)) := by
  rw [hm] at hK hf
  cases hK
  rename_i last as cenv body env K hK
  have hk' : KontsOk sz ((m.st.cons m.r .nil).1.setCdr last (m.st.cons m.r .nil).2) := hk.of (konts_setCdr.trans konts_cons)
  unfold contCloRest
  dsimp only
  split
  · nxt
  · refine .reserve (by loose) (by fits) hk' fun hf' => ?_
    split
    · nxt
    · err

theorem whole_contMap (hm : m.K = .k 23 :: K) : Whole F sz (contMap sz (m.pop K)) := by
  rw [hm] at hK hf
  cases hK
  rename_i arg appli t res env ls K hK
  have hk' : KontsOk sz (m.st.setCar t m.r) := hk.of konts_setCar
  unfold contMap
  dsimp only
  split
  · refine .reserve (by loose) (by fits) hk' fun hf' => ?_
    exact .next (by framed) (by fits) (hk.of (konts_setCdr.trans (konts_cons.trans (konts_setCar.trans konts_setCar))))
  · nxt

theorem whole_contVar (hm : m.K = .k 26 :: K) : Whole (Fault sz P m) sz (contVar (m.pop K)) := by
  rw [hm] at hK hf
  cases hK
  unfold contVar
  dsimp only
  split
  · rename_i h; exact .ub (.fill (by rw [hm]; simp) (by rw [hm]; simp) h)
  · rename_i h
    have hk' := hk.of (konts_fillLoc _ h)
    err
  · rename_i h
    have hk' := hk.of (konts_fillLoc _ h)
    nxt

theorem whole_contSetq (hm : m.K = .k 27 :: K) : Whole (Fault sz P m) sz (contSetq (m.pop K)) := by
  rw [hm] at hK hf
  cases hK
  unfold contSetq
  dsimp only
  split
  · split
    · split
      · rename_i h; exact .ub (.setvar (.inr (by rw [hm]; simp)) h)
      · rename_i h
        have hk' := hk.of (konts_setvar h)
        nxt
      · rename_i h
        have hk' := hk.of (konts_setvar h)
        err
    · err
  · err

theorem whole_contLoop (hm : m.K = .k 38 :: K) : Whole F sz (contLoop sz (m.pop K)) := by
  rw [hm] at hK hf
  cases hK
  unfold contLoop
  dsimp only
  refine .reserve (by loose) (by fits) hk fun hf' => ?_
  nxt

theorem whole_contLoopCond (hm : m.K = .k 39 :: K) : Whole F sz (contLoopCond sz (m.pop K)) := by
  rw [hm] at hK hf
  cases hK
  unfold contLoopCond
  dsimp only
  split
  · nxt
  · refine .reserve (by loose) (by fits) hk fun hf' => ?_
    nxt

theorem whole_contHandler (hm : m.K = .k 45 :: K) : Whole F sz (contHandler (m.pop K)) := by
  rw [hm] at hK hf
  cases hK
  unfold contHandler
  dsimp only
  split
  · err
  · exact .next (by framed) (by fits) (hk.of konts_setCar)

theorem whole_contStart (hP : KeepsKonts P) (hm : m.K = .k 10 :: K) : Whole (Fault sz P m) sz (contStart sz P (m.pop K)) := by
  rw [hm] at hK hf
  cases hK
  rename_i as env K hK
  unfold contStart
  dsimp only
  split
  · rename_i n hr
    refine .reserve (by loose) (by fits) hk fun hf' => ?_
    unfold contArgs
    dsimp only
    simp only [List.cons_append, List.nil_append]
    split
    · refine .reserve (by rw [hr]; loose) (by fits) hk fun hf'' => ?_
      rw [hr] at hf''
      rw [hr]
      exact .next (Framed.args (vs := []) hK) hf'' hk
    · exact whole_application (vs := []) (n := n) (by rw [hr]; rfl) hK (by fits) hk hP (fun n v h => .setvar (.inr (by rw [hm]; simp)) h) (fun h => .lookup (.inr (by rw [hm]; simp)) h)
  · rename_i fa hr
    split
    · split
      · refine .reserve (by loose) (by fits) hk fun hf' => ?_
        split
        · nxt
        split
        · nxt
        split
        · nxt
        · err
      · err
    split
    · split
      · rename_i c hc
        split
        · rename_i h; exact .ub (.len (.inr (by rw [hm]; simp)) h)
        · split
          · err
          · split
            · rename_i h; exact .ub (.cont hr hc h)
            · rename_i at_ K' hkc
              have := hk _ _ _ hkc
              split
              · exact .next this.1 (this.2.sub (by simp)) hk
              · rename_i h
                exfalso
                apply h
                cases sz with
                | none => rfl
                | some b =>
                  have := this.2 b rfl
                  simp only [Option.all_some, decide_eq_true_eq]
                  simp only [List.length_cons] at this
                  omega
      · err
    split
    · split
      · rename_i params d hp hd
        split
        · rename_i h
          refine .ub (.macroEnv (as := as) (env := env) (by rw [hm]; simp) (by rw [hm]; simp) ?_)
          have he : m.st.hd (m.st.tl m.r) = params := by
            rw [hr] at hp ⊢
            cases hc : m.st.cdr fa with
            | cons b => simp only [St.gcadr, St.gcdr, hc, St.gcar] at hp; cases hp; simp only [St.tl, hc, St.hd]
            | sym n =>
              cases n with
              | zero => simp only [St.gcadr, St.gcdr, hc, St.gcar] at hp; cases hp; simp only [St.tl, hc, St.hd]
              | succ n => simp [St.gcadr, St.gcdr, hc, St.gcar] at hp
            | u => simp [St.gcadr, St.gcdr, hc, St.gcar] at hp
            | atom => simp [St.gcadr, St.gcdr, hc, St.gcar] at hp
            | arr => simp [St.gcadr, St.gcdr, hc, St.gcar] at hp
          rw [he]
          exact h
        · rename_i h
          have hk' := hk.of (konts_macroEnv _ h)
          split
          · err
          · nxt
      · err
    · err
  · err

theorem whole_runCont (hP : KeepsKonts P) {c : Nat} (hm : m.K = .k c :: K) : Whole (Fault sz P m) sz (runCont sz P c (m.pop K)) := by
  unfold runCont
  split
  · exact whole_contDone hK hf hk hm
  · exact whole_contDefine hK hf hk hm
  · exact whole_contBind hK hf hk hm
  · exact whole_contIf hK hf hk hm
  · exact whole_contProgn hK hf hk hm
  · exact whole_contArgs hK hf hk hP hm
  · exact whole_contAnd hK hf hk hm
  · exact whole_contOr hK hf hk hm
  · exact whole_contMatch hK hf hk hm
  · exact whole_contStart hK hf hk hP hm
  · exact whole_contEvalR hK hf hk hm
  · exact whole_contCloArgs hK hf hk hm
  · rw [hm] at hK hf
    cases hK
    nxt
  · exact whole_contMap hK hf hk hm
  · exact whole_contGuard hK hf hk hm
  · rw [hm] at hK
    cases hK
  · exact whole_contVar hK hf hk hm
  · exact whole_contSetq hK hf hk hm
  · exact whole_contLoop hK hf hk hm
  · exact whole_contLoopCond hK hf hk hm
  · exact whole_contCloRest hK hf hk hm
  · exact whole_contHandler hK hf hk hm
  · exact .out

end Conts

theorem Framed.head {K : List W} (h : Framed K) : ∃ c K', K = .k c :: K' := by cases h <;> exact ⟨_, _, rfl⟩

theorem whole_step {m : M} (h : Inv sz m) (ha : ¬Stray m) (hP : KeepsKonts P) : Whole (Fault sz P m) sz (step sz P m) := by
  obtain ⟨hK, hf, hk⟩ := h
  unfold step
  split
  · obtain ⟨c, K', hm⟩ := hK.head
    have := whole_runCont (P := P) hK hf hk hP hm
    rw [hm]
    exact this
  · rename_i happ
    split
    · exact whole_evalSymbol hK hf hk ‹_›
    · rename_i a he
      split
      · rename_i i hi
        refine whole_evalSpecial hK hf hk fun h17 => Classical.byContradiction fun hn => ha ⟨by simpa using happ, ⟨a, he, ?_⟩, hn⟩
        rw [hi, h17]
      · exact .reserve (by loose) hf hk fun hf' => by nxt
    · nxt

/-! ## eval-program -/

theorem konts_consAll : ∀ (es : List V) (t : V) (s : St), (consAll es t s).1.konts = s.konts
  | [], _, _ => rfl
  | _ :: es, t, s => konts_consAll es t s

theorem konts_newProgram (s : St) (es : List V) (p : V) : (newProgram s es p).1.konts = s.konts := konts_consAll es _ _

theorem whole_applyEvalProgram {m : M} {args : List V} {K : List W} (hL : Loose m.K) (hK : Framed K) (hf : Roomy sz m.K) (hl : K.length ≤ m.K.length) (hk : KontsOk sz m.st)
    (hF : ∀ p ∈ args, elems m.st (m.st.next + 1) p = none → F) : Whole F sz (applyEvalProgram sz m args K) := by
  unfold applyEvalProgram
  dsimp only
  split
  · split
    · rename_i h; exact .ub (hF _ (by simp) h)
    · rename_i es _
      have hk' := hk.of (konts_newProgram m.st es m.program)
      exact .reserve hK.loose (hf.sub hl) hk' fun hf' => .next (.ended hK) hf' hk'
  · split
    · rename_i h; exact .ub (hF _ (by simp) h)
    · rename_i es _
      have hk' := hk.of (konts_newProgram m.st es m.program)
      exact .reserve hK.loose (hf.sub hl) hk' fun hf' => .next (.ended hK) hf' hk'
  · exact .raise hL hf hk

theorem whole_stepP {m : M} (h : Inv sz m) (ha : ¬Stray m) (hP : KeepsKonts P) : Whole (Fault sz P m) sz (stepP sz P m) := by
  unfold stepP
  split
  · rename_i env args K he
    obtain ⟨hK, hf, hk⟩ := h
    unfold M.evalProgram? at he
    split at he
    case isFalse => cases he
    split at he
    case h_2 => cases he
    rename_i c rest env' K1 hm
    split at he
    case isTrue => cases he
    split at he
    case h_2 => cases he
    rename_i args' hp
    split at he
    case isFalse => cases he
    cases he
    rw [hm] at hK hf
    cases hK
    rename_i n K vs hK _
    have hd : (W.v m.r :: (vs.map W.v ++ W.v (.sym n) :: K)).drop (vs.length + 1 + 1) = K := by simp [List.drop_append]
    have ht : (W.v m.r :: (vs.map W.v ++ W.v (.sym n) :: K)).take (vs.length + 1 + 1) = (m.r :: vs ++ [V.sym n]).map W.v := by
      simp [List.take_append, List.take_of_length_le]
    rw [ht, popVals_vs] at hp
    rw [hd]
    have hargs : args = (m.r :: vs).reverse := by
      simp only [Option.map_some, List.reverse_append, List.reverse_cons, List.reverse_nil, List.nil_append, List.cons_append, Option.some.injEq, List.cons.injEq] at hp
      rw [List.reverse_cons]
      exact hp.2.symm
    rw [hm]
    refine whole_applyEvalProgram (K := K) ?_ hK ?_ ?_ hk ?_
    · simp only [List.drop_succ_cons, List.drop_zero]
      loose
    · simp only [List.drop_succ_cons, List.drop_zero]
      fits
    · simp only [List.drop_succ_cons, List.drop_zero, List.length_cons, List.length_append]
      omega
    · intro p hpm hp
      rw [hargs] at hpm
      simp only [List.mem_reverse, List.mem_cons] at hpm
      refine .elems (p := p) ?_ hp
      rcases hpm with rfl | hpm
      · exact .inl rfl
      · exact .inr (by rw [hm]; simp [hpm])
  · exact whole_step h ha hP

end Verif.Eval
