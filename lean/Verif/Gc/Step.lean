import Verif.Gc.Funs

/-!
# Every step keeps the relation: the functions that do not allocate
-/

namespace Verif.Gc

open Verif.Eval

/-- Related machines. -/
structure MR (ρ κ : Nat → Nat → Prop) (m m' : M) : Prop where
  st : Agree ρ κ m.st m'.st
  r : VR ρ κ m.r m'.r
  exp : VR ρ κ m.exp m'.exp
  env : VR ρ κ m.env m'.env
  program : VR ρ κ m.program m'.program
  K : KR ρ κ m.K m'.K
  flags : m.flags = m'.flags
  app : m.app = m'.app

/-- Related outcomes. Nothing is said when the machine without a collector has undefined behaviour. -/
def OutRel : Out → Out → Prop
  | .ub, _ => True
  | .next m, .next m' => ∃ ρ κ, MR ρ κ m m'
  | .fin s v ok, .fin s' v' ok' => ok = ok' ∧ ∃ ρ κ, Agree ρ κ s s' ∧ VR ρ κ v v'
  | .out, .out => True
  | _, _ => False

section
variable {ρ κ : Nat → Nat → Prop} {m m' : M} {sz : Option Nat}

theorem MR.setK (hm : MR ρ κ m m') {K K' : List W} (h : KR ρ κ K K') : MR ρ κ { m with K := K } { m' with K := K' } :=
  ⟨hm.st, hm.r, hm.exp, hm.env, hm.program, h, hm.flags, hm.app⟩

theorem MR.setSt (hm : MR ρ κ m m') {s s' : St} (h : Agree ρ κ s s') : MR ρ κ { m with st := s } { m' with st := s' } :=
  ⟨h, hm.r, hm.exp, hm.env, hm.program, hm.K, hm.flags, hm.app⟩

theorem MR.setR (hm : MR ρ κ m m') {v v' : V} (h : VR ρ κ v v') : MR ρ κ { m with r := v } { m' with r := v' } :=
  ⟨hm.st, h, hm.exp, hm.env, hm.program, hm.K, hm.flags, hm.app⟩

theorem MR.setExp (hm : MR ρ κ m m') {v v' : V} (h : VR ρ κ v v') : MR ρ κ { m with exp := v } { m' with exp := v' } :=
  ⟨hm.st, hm.r, h, hm.env, hm.program, hm.K, hm.flags, hm.app⟩

theorem MR.setEnv (hm : MR ρ κ m m') {v v' : V} (h : VR ρ κ v v') : MR ρ κ { m with env := v } { m' with env := v' } :=
  ⟨hm.st, hm.r, hm.exp, h, hm.program, hm.K, hm.flags, hm.app⟩

theorem MR.setProgram (hm : MR ρ κ m m') {v v' : V} (h : VR ρ κ v v') : MR ρ κ { m with program := v } { m' with program := v' } :=
  ⟨hm.st, hm.r, hm.exp, hm.env, h, hm.K, hm.flags, hm.app⟩

theorem MR.setApp (hm : MR ρ κ m m') (b : Bool) : MR ρ κ { m with app := b } { m' with app := b } :=
  ⟨hm.st, hm.r, hm.exp, hm.env, hm.program, hm.K, hm.flags, rfl⟩

theorem MR.setFlags (hm : MR ρ κ m m') (f : Nat) : MR ρ κ { m with flags := f } { m' with flags := f } :=
  ⟨hm.st, hm.r, hm.exp, hm.env, hm.program, hm.K, rfl, hm.app⟩

theorem KR.inv {w : W} {K L : List W} (h : KR ρ κ (w :: K) L) : ∃ w' K', L = w' :: K' ∧ WR ρ κ w w' ∧ KR ρ κ K K' := by
  cases h with
  | cons h t => exact ⟨_, _, rfl, h, t⟩

theorem KR.invV {x : V} {K L : List W} (h : KR ρ κ (.v x :: K) L) : ∃ y K', L = .v y :: K' ∧ VR ρ κ x y ∧ KR ρ κ K K' := by
  cases h with
  | cons h t =>
    cases h with
    | v h => exact ⟨_, _, rfl, h, t⟩

theorem KR.invK {n : Nat} {K L : List W} (h : KR ρ κ (.k n :: K) L) : ∃ K', L = .k n :: K' ∧ KR ρ κ K K' := by
  cases h with
  | cons h t => cases h; exact ⟨_, rfl, t⟩

theorem KR.invRaw {n : Nat} {K L : List W} (h : KR ρ κ (.raw n :: K) L) : ∃ K', L = .raw n :: K' ∧ KR ρ κ K K' := by
  cases h with
  | cons h t => cases h; exact ⟨_, rfl, t⟩

theorem unwind_rel (hm : MR ρ κ m m') {e e' : V} (he : VR ρ κ e e') {L L' : List W} (hL : KR ρ κ L L') : OutRel (unwind m e L) (unwind m' e' L') := by
  fun_induction unwind m e L generalizing L' with
  | case1 =>
    cases hL
    exact ⟨rfl, ρ, κ, hm.st, .sym _⟩
  | case2 f rv K =>
    obtain ⟨_, rfl, hL1⟩ := hL.invK
    obtain ⟨_, rfl, hL2⟩ := hL1.invRaw
    obtain ⟨y, _, rfl, hy, hL3⟩ := hL2.invV
    simp only [unwind]
    exact ⟨ρ, κ, (((hm.setSt (setCar_rel hm.st hy (.sym _))).setR he).setK (.cons (.k _) (.cons (.raw _) (.cons (.v hy) hL3)))).setApp _⟩
  | case3 => trivial
  | case4 => trivial
  | case5 w K h1 h2 h3 ih =>
    obtain ⟨w', K', rfl, hw, hL⟩ := hL.inv
    have := ih hL
    cases hw with
    | v h => simpa [unwind] using this
    | k n =>
      by_cases hn : n = 45
      · subst hn
        exact absurd rfl (by first | exact h2 | exact fun h => h2 h | simpa using h2)
      · simpa [unwind, hn] using this
    | raw n => simpa [unwind] using this
    | junk => exact absurd rfl (by first | exact h3 | simpa using h3)

theorem raise_rel (hm : MR ρ κ m m') {e e' : V} (he : VR ρ κ e e') : OutRel (raise m e) (raise m' e') := by
  have h1 : (e = .fatal) = (e' = .fatal) := propext (he.eqSym 0x26)
  unfold raise
  rw [← hm.flags]
  split
  · exact ⟨rfl, ρ, κ, hm.st, he⟩
  · simp only [ne_eq, h1]
    split
    · exact unwind_rel hm he hm.K
    · exact ⟨rfl, ρ, κ, hm.st, he⟩

theorem reserve_rel (hm : MR ρ κ m m') {ws ws' : List W} (hw : KR ρ κ ws ws') {c c' : M → Out}
    (hc : MR ρ κ { m with K := ws ++ m.K } { m' with K := ws' ++ m'.K } → OutRel (c { m with K := ws ++ m.K }) (c' { m' with K := ws' ++ m'.K })) :
    OutRel (reserve sz m ws c) (reserve sz m' ws' c') := by
  unfold reserve
  rw [← hm.K.length, ← hw.length]
  split
  · exact hc (hm.setK (hw.append hm.K))
  · exact raise_rel hm (.sym _)

theorem ret_rel (hm : MR ρ κ m m') {v v' : V} (hv : VR ρ κ v v') : OutRel (m.ret v) (m'.ret v') :=
  ⟨ρ, κ, ((hm.setR (hv)).setApp _)⟩

theorem go_rel (hm : MR ρ κ m m') {v v' e e' : V} (hv : VR ρ κ v v') (he : VR ρ κ e e') : OutRel (m.go v e) (m'.go v' e') :=
  ⟨ρ, κ, (((hm.setExp (hv)).setEnv (he)).setApp _)⟩

theorem evalSymbol_rel (hm : MR ρ κ m m') (n : Nat) : OutRel (evalSymbol m n) (evalSymbol m' n) := by
  unfold evalSymbol
  split
  · cases h1 : m.st.lookup (.sym n) (m.st.next + 1) m.env with
    | none => trivial
    | some r =>
      obtain ⟨r', e, hr⟩ := lookup_rel hm.st n (f' := m'.st.next + 1) (by have := hm.st.nle; omega) hm.env h1
      rw [e]
      cases hr with
      | some hv => exact ret_rel hm hv
      | none =>
        cases h2 : m.st.glookup n with
        | none => trivial
        | some r =>
          obtain ⟨r', e, hr⟩ := glookup_rel hm.st n h2
          rw [e]
          cases hr with
          | some hv => exact ret_rel hm hv
          | none => exact raise_rel hm (.sym _)
  · exact ret_rel hm (.sym _)

theorem evalQuote_rel (hm : MR ρ κ m m') : OutRel (evalQuote m) (evalQuote m') := by
  have h := gcadr_rel hm.st hm.exp
  unfold evalQuote
  generalize m.st.gcadr m.exp = x, m'.st.gcadr m'.exp = y at h ⊢
  cases h with
  | none => exact raise_rel hm (.sym _)
  | some h => exact ret_rel hm h

theorem evalProgn_rel (hm : MR ρ κ m m') : OutRel (evalProgn sz m) (evalProgn sz m') := by
  have h := gcdr_rel hm.st hm.exp
  unfold evalProgn
  generalize m.st.gcdr m.exp = x, m'.st.gcdr m'.exp = y at h ⊢
  cases h with
  | none => exact raise_rel hm (.sym _)
  | some h =>
    cases h with
    | cons h =>
      have hd := hm.st.cdrs _ _ h
      simp only [hd.isCons]
      split
      · exact reserve_rel hm (.cons (.k _) (.cons (.v hd) (.cons (.v (.u _)) (.cons (.v hm.env) .nil)))) fun hm => go_rel hm (hm.st.cars _ _ h) hm.env
      · exact go_rel hm (hm.st.cars _ _ h) hm.env
    | sym n =>
      cases n with
      | zero => exact ret_rel hm (.sym _)
      | succ n => exact raise_rel hm (.sym _)
    | _ => exact raise_rel hm (.sym _)

theorem setAtomic_rel {s s' : St} (h : Agree ρ κ s s') (b : Bool) : Agree ρ κ { s with atomic := b } { s' with atomic := b } := { h with atomic := rfl }

theorem evalAtomic_rel (hm : MR ρ κ m m') : OutRel (evalAtomic sz m) (evalAtomic sz m') := by
  unfold evalAtomic
  rw [← hm.st.atomic]
  split
  · exact raise_rel (hm.setSt (setAtomic_rel hm.st _)) (.sym _)
  · exact reserve_rel hm (.cons (.k _) .nil) fun hm => evalProgn_rel (hm.setSt (setAtomic_rel hm.st _))

theorem evalDefine_rel (hm : MR ρ κ m m') : OutRel (evalDefine sz m) (evalDefine sz m') := by
  unfold evalDefine
  have h0 := tl_rel hm.st hm.exp
  have h1 := hd_rel hm.st h0
  have h2 := tl_rel hm.st h0
  have h3 := hd_rel hm.st h2
  have h4 := (tl_rel hm.st h2).eqSym 0
  simp only
  generalize m.st.hd (m.st.tl m.exp) = x, m'.st.hd (m'.st.tl m'.exp) = y at h1 ⊢
  refine reserve_rel hm (.cons .junk (.cons .junk .nil)) fun hm1 => ?_
  cases h1 with
  | sym n =>
    simp only [V.nil, h4]
    split
    · split
      · have hfl : flagConst m'.flags = flagConst m.flags := by rw [hm.flags]
        rw [hfl]
        split
        · trivial
        · exact go_rel (hm.setK (.cons (.k _) (.cons (.v (.sym _)) hm.K))) h3 hm.env
      · exact raise_rel (hm.setK (.cons .junk (.cons (.v (.sym _)) hm.K))) (.sym _)
    · exact raise_rel hm1 (.sym _)
  | _ => exact raise_rel hm1 (.sym _)

theorem evalIf_rel (hm : MR ρ κ m m') : OutRel (evalIf sz m) (evalIf sz m') := by
  unfold evalIf
  have h := gcdr_rel hm.st hm.exp
  generalize m.st.gcdr m.exp = x, m'.st.gcdr m'.exp = y at h ⊢
  cases h with
  | none => exact raise_rel hm (.sym _)
  | @some d d' h =>
    refine reserve_rel hm (.cons .junk (.cons .junk (.cons .junk .nil))) fun hm1 => ?_
    have h1 := gcdr_rel hm.st h
    have h2 := gcar_rel hm.st h
    simp only
    generalize m.st.gcdr d = x, m'.st.gcdr d' = y at h1 ⊢
    generalize m.st.gcar d = z, m'.st.gcar d' = w at h2 ⊢
    cases h1 with
    | none => exact raise_rel hm1 (.sym _)
    | some h1 =>
      cases h2 with
      | none => exact raise_rel hm1 (.sym _)
      | some h2 => exact go_rel (hm.setK (.cons (.k _) (.cons (.v hm.env) (.cons (.v h1) hm.K)))) h2 hm.env

theorem evalAppCont_rel (hm : MR ρ κ m m') : OutRel (evalAppCont m) (evalAppCont m') := by
  unfold evalAppCont
  have hK := hm.K
  cases h : m.K with
  | nil => trivial
  | cons w K =>
    rw [h] at hK
    obtain ⟨w', K', e, _, hK⟩ := hK.inv
    rw [e]
    exact ⟨ρ, κ, ((hm.setK (hK)).setApp _)⟩

theorem evalSetq_rel (hm : MR ρ κ m m') : OutRel (evalSetq sz m) (evalSetq sz m') := by
  unfold evalSetq
  have h0 := tl_rel hm.st hm.exp
  exact reserve_rel hm (.cons (.k _) (.cons (.v (hd_rel hm.st h0)) (.cons (.v hm.env) .nil))) fun hm1 => go_rel hm1 (hd_rel hm.st (tl_rel hm.st h0)) hm.env

theorem evalJunct_rel (hm : MR ρ κ m m') (code : Nat) (n : Nat) : OutRel (evalJunct sz code (.sym n) m) (evalJunct sz code (.sym n) m') := by
  unfold evalJunct
  have h := gcdr_rel hm.st hm.exp
  generalize m.st.gcdr m.exp = x, m'.st.gcdr m'.exp = y at h ⊢
  cases h with
  | none => exact raise_rel hm (.sym _)
  | @some d d' h =>
    simp only [V.nil, h.eqSym 0]
    split
    · exact ret_rel hm (.sym _)
    · refine reserve_rel hm (.cons .junk (.cons .junk (.cons .junk .nil))) fun hm1 => ?_
      have h1 := gcdr_rel hm.st h
      have h2 := gcar_rel hm.st h
      simp only
      generalize m.st.gcdr d = x, m'.st.gcdr d' = y at h1 ⊢
      generalize m.st.gcar d = z, m'.st.gcar d' = w at h2 ⊢
      cases h1 with
      | none => exact raise_rel hm1 (.sym _)
      | some h1 =>
        cases h2 with
        | none => exact raise_rel hm1 (.sym _)
        | some h2 => exact go_rel (hm.setK (.cons (.k _) (.cons (.v h1) (.cons (.v hm.env) hm.K)))) h2 hm.env

theorem evalMatch_rel (hm : MR ρ κ m m') : OutRel (evalMatch sz m) (evalMatch sz m') := by
  unfold evalMatch
  have h := gcdr_rel hm.st hm.exp
  generalize m.st.gcdr m.exp = x, m'.st.gcdr m'.exp = y at h ⊢
  cases h with
  | none => exact raise_rel hm (.sym _)
  | some h =>
    cases h with
    | cons h =>
      exact reserve_rel hm (.cons (.k _) (.cons (.v hm.env) (.cons (.v (hm.st.cdrs _ _ h)) .nil))) fun hm1 => go_rel hm1 (hm.st.cars _ _ h) hm.env
    | _ => exact raise_rel hm (.sym _)

theorem applySetvar_rel (hm : MR ρ κ m m') {args args' : List V} (ha : All2 (VR ρ κ) args args') {K K' : List W} (hK : KR ρ κ K K') :
    OutRel (applySetvar m args K) (applySetvar m' args' K') := by
  unfold applySetvar
  split
  · rename_i n v
    cases ha with
    | cons h1 ha =>
      cases h1
      cases ha with
      | cons h2 ha =>
        cases ha
        simp only
        split
        · cases h3 : m.st.setvar n v m.env with
          | none => trivial
          | some r =>
            obtain ⟨s1, b⟩ := r
            obtain ⟨s1', e, h4⟩ := setvar_rel hm.st n h2 hm.env h3
            rw [e]
            cases b with
            | true => exact ret_rel ((hm.setSt (h4)).setK (hK)) h2
            | false => exact raise_rel (hm.setSt (h4)) (.sym _)
        · exact raise_rel hm (.sym _)
  · rename_i hne
    have : ∀ (n : Nat) (v : V), args' = [.sym n, v] → False := by
      intro n v e
      subst e
      cases ha with
      | cons h1 ha =>
        cases h1
        cases ha with
        | cons h2 ha =>
          cases ha
          exact hne _ _ rfl
    split
    · exact (this _ _ rfl).elim
    · exact raise_rel hm (.sym _)

theorem applyEval_rel (hm : MR ρ κ m m') {args args' : List V} (ha : All2 (VR ρ κ) args args') {K K' : List W} (hK : KR ρ κ K K') :
    OutRel (applyEval m args K) (applyEval m' args' K') := by
  unfold applyEval
  cases ha with
  | nil => exact raise_rel hm (.sym _)
  | cons h1 ha =>
    cases ha with
    | nil => exact go_rel (hm.setK (hK)) h1 hm.env
    | cons h2 ha =>
      cases ha with
      | nil => exact go_rel (hm.setK (hK)) h2 h1
      | cons => exact raise_rel hm (.sym _)

theorem applyError_rel (hm : MR ρ κ m m') {args args' : List V} (ha : All2 (VR ρ κ) args args') : OutRel (applyError m args) (applyError m' args') := by
  unfold applyError
  cases ha with
  | nil => exact raise_rel hm (.sym _)
  | cons h1 ha => exact raise_rel hm h1

theorem applyRestArgs_rel (hm : MR ρ κ m m') {args args' : List V} (ha : All2 (VR ρ κ) args args') {K K' : List W} (hK : KR ρ κ K K') :
    OutRel (applyRestArgs m args K) (applyRestArgs m' args' K') := by
  unfold applyRestArgs
  cases ha with
  | nil =>
    simp only
    cases h1 : m.st.lookup .restArgs (m.st.next + 1) m.env with
    | none => trivial
    | some r =>
      obtain ⟨r', e, hr⟩ := lookup_rel hm.st 0x30015 (f' := m'.st.next + 1) (by have := hm.st.nle; omega) hm.env h1
      simp only [V.restArgs]
      rw [e]
      cases hr with
      | some hv => exact ret_rel (hm.setK (hK)) hv
      | none => exact ret_rel (hm.setK (hK)) (.sym _)
  | cons => trivial

theorem popVals_rel {K K' : List W} (h : KR ρ κ K K') {l : List V} (e : popVals K = some l) : ∃ l', popVals K' = some l' ∧ All2 (VR ρ κ) l l' := by
  induction h generalizing l with
  | nil =>
    simp only [popVals, Option.some.injEq] at e
    subst e
    exact ⟨_, rfl, .nil⟩
  | cons h _ ih =>
    cases h with
    | v h =>
      simp only [popVals, Option.map_eq_some_iff] at e ⊢
      obtain ⟨l1, e1, rfl⟩ := e
      obtain ⟨l1', e1', h1⟩ := ih e1
      exact ⟨_, ⟨_, e1', rfl⟩, .cons h h1⟩
    | _ => simp [popVals] at e

theorem contAnd_rel (hm : MR ρ κ m m') : OutRel (contAnd sz m) (contAnd sz m') := by
  unfold contAnd
  have hK := hm.K
  split
  · rename_i rest env K e
    rw [e] at hK
    obtain ⟨rest', _, e', h1, hK⟩ := hK.invV
    obtain ⟨env', K', rfl, h2, hK⟩ := hK.invV
    simp only [e', V.nil, hm.r.eqSym 0, h1.eqSym 0]
    split
    · exact ret_rel (hm.setK (hK)) (.sym _)
    · split
      · exact ret_rel (hm.setK (hK)) hm.r
      · refine reserve_rel (hm.setK (hK)) (.cons .junk (.cons .junk (.cons .junk .nil))) fun hm1 => ?_
        have h3 := gcdr_rel hm.st h1
        have h4 := gcar_rel hm.st h1
        simp only
        generalize m.st.gcdr rest = x, m'.st.gcdr rest' = y at h3 ⊢
        generalize m.st.gcar rest = z, m'.st.gcar rest' = w at h4 ⊢
        cases h3 with
        | none => exact raise_rel hm1 (.sym _)
        | some h3 =>
          cases h4 with
          | none => exact raise_rel hm1 (.sym _)
          | some h4 => exact go_rel (hm.setK (.cons (.k _) (.cons (.v h3) (.cons (.v h2) hK)))) h4 h2
  · trivial

theorem contOr_rel (hm : MR ρ κ m m') : OutRel (contOr sz m) (contOr sz m') := by
  unfold contOr
  have hK := hm.K
  split
  · rename_i rest env K e
    rw [e] at hK
    obtain ⟨rest', _, e', h1, hK⟩ := hK.invV
    obtain ⟨env', K', rfl, h2, hK⟩ := hK.invV
    simp only [e', V.nil, ne_eq, hm.r.eqSym 0, h1.eqSym 0]
    split
    · exact ret_rel (hm.setK (hK)) hm.r
    · split
      · exact ret_rel (hm.setK (hK)) (.sym _)
      · refine reserve_rel (hm.setK (hK)) (.cons .junk (.cons .junk (.cons .junk .nil))) fun hm1 => ?_
        have h3 := gcdr_rel hm.st h1
        have h4 := gcar_rel hm.st h1
        simp only
        generalize m.st.gcdr rest = x, m'.st.gcdr rest' = y at h3 ⊢
        generalize m.st.gcar rest = z, m'.st.gcar rest' = w at h4 ⊢
        cases h3 with
        | none => exact raise_rel hm1 (.sym _)
        | some h3 =>
          cases h4 with
          | none => exact raise_rel hm1 (.sym _)
          | some h4 => exact go_rel (hm.setK (.cons (.k _) (.cons (.v h3) (.cons (.v h2) hK)))) h4 h2
  · trivial

theorem contBind_rel (hm : MR ρ κ m m') : OutRel (contBind sz m) (contBind sz m') := by
  unfold contBind
  obtain ⟨K0, r0, x0, n0, a0, f0, p0, s0⟩ := m'
  have hK : KR ρ κ m.K K0 := hm.K
  split
  · rename_i key env rest body K e
    rw [e] at hK
    obtain ⟨key', _, rfl, h1, hK1⟩ := hK.invV
    obtain ⟨env', _, rfl, h2, hK2⟩ := hK1.invV
    obtain ⟨rest', _, rfl, h3, hK3⟩ := hK2.invV
    obtain ⟨body', K', rfl, h4, hK4⟩ := hK3.invV
    simp only
    cases hf : m.st.fillLoc (m.st.next + 1) key m.r env with
    | none => trivial
    | some r =>
      obtain ⟨s1, b⟩ := r
      obtain ⟨s1', ef, hs⟩ := fillLoc_rel hm.st (f' := s0.next + 1) (by have h := hm.st.nle; simp only at h; omega) h1 hm.r h2 hf
      simp only at ef
      simp only [ef]
      cases b with
      | false => exact raise_rel (hm.setSt (hs)) (.sym _)
      | true =>
        cases h3 with
        | cons h3 =>
          have hb := hs.cars _ _ h3
          exact reserve_rel ((hm.setSt (hs)).setK (.cons (.v (hd_rel hs hb)) (.cons (.v h2) (.cons (.v (hs.cdrs _ _ h3)) (.cons (.v h4) hK4)))))
            (.cons (.k _) .nil) fun hm1 => go_rel hm1 (hd_rel hs (tl_rel hs hb)) h2
        | _ => exact go_rel ((hm.setSt (hs)).setK hK4) h4 h2
  · trivial

theorem contIf_rel (hm : MR ρ κ m m') : OutRel (contIf m) (contIf m') := by
  unfold contIf
  have hK := hm.K
  split
  · rename_i env br K e
    rw [e] at hK
    obtain ⟨env', _, e', h1, hK⟩ := hK.invV
    obtain ⟨br', K', rfl, h2, hK⟩ := hK.invV
    simp only [e', V.nil, hm.r.eqSym 0]
    split
    · have h := gcadr_rel hm.st h2
      generalize m.st.gcadr br = x, m'.st.gcadr br' = y at h ⊢
      cases h with
      | none => exact raise_rel ((hm.setK (hK)).setEnv (h1)) (.sym _)
      | some h => exact go_rel ((hm.setK (hK)).setEnv (h1)) h h1
    · have h := gcar_rel hm.st h2
      generalize m.st.gcar br = x, m'.st.gcar br' = y at h ⊢
      cases h with
      | none => exact raise_rel ((hm.setK (hK)).setEnv (h1)) (.sym _)
      | some h => exact go_rel ((hm.setK (hK)).setEnv (h1)) h h1
  · trivial

theorem contGuard_rel (hm : MR ρ κ m m') : OutRel (contGuard m) (contGuard m') := by
  unfold contGuard
  have hK := hm.K
  split
  · rename_i x body env K e
    rw [e] at hK
    obtain ⟨x', _, e', h1, hK⟩ := hK.invV
    obtain ⟨body', _, rfl, h2, hK⟩ := hK.invV
    obtain ⟨env', K', rfl, h3, hK⟩ := hK.invV
    simp only [e', V.nil, hm.r.eqSym 0]
    split
    · exact ret_rel (hm.setK (hK)) h1
    · split
      · obtain ⟨_, _, rfl, _, hK⟩ := hK.inv
        obtain ⟨_, _, rfl, _, hK⟩ := hK.inv
        obtain ⟨_, _, rfl, _, hK⟩ := hK.inv
        exact go_rel (hm.setK (hK)) h2 h3
      · trivial
  · trivial

theorem contLoop_rel (hm : MR ρ κ m m') : OutRel (contLoop sz m) (contLoop sz m') := by
  unfold contLoop
  have hK := hm.K
  split
  · rename_i c w K e
    rw [e] at hK
    obtain ⟨c', _, e', h1, hK⟩ := hK.invV
    obtain ⟨w', K', rfl, _, hK⟩ := hK.inv
    simp only [e']
    exact reserve_rel hm (.cons (.k _) .nil) fun hm1 => go_rel hm1 h1 hm.env
  · trivial

theorem contLoopCond_rel (hm : MR ρ κ m m') : OutRel (contLoopCond sz m) (contLoopCond sz m') := by
  unfold contLoopCond
  have hK := hm.K
  split
  · rename_i c body K e
    rw [e] at hK
    obtain ⟨c', _, e', _, hK⟩ := hK.inv
    obtain ⟨body', K', rfl, h1, hK⟩ := hK.invV
    simp only [e', V.nil, hm.r.eqSym 0]
    split
    · exact ret_rel (hm.setK (hK)) hm.r
    · exact reserve_rel hm (.cons (.k _) .nil) fun hm1 => go_rel hm1 h1 hm.env
  · trivial

theorem contProgn_rel (hm : MR ρ κ m m') : OutRel (contProgn sz m) (contProgn sz m') := by
  unfold contProgn
  have hK := hm.K
  split
  · rename_i a c env K e
    rw [e] at hK
    obtain ⟨a', _, e', h1, hK⟩ := hK.invV
    obtain ⟨c', _, rfl, hc, hK⟩ := hK.inv
    obtain ⟨env', K', rfl, h2, hK⟩ := hK.invV
    cases h1 with
    | cons h1 =>
      have hd := hm.st.cdrs _ _ h1
      simp only [e', hd.isCons]
      split
      · exact reserve_rel (hm.setK (.cons (.v hd) (.cons hc (.cons (.v h2) hK)))) (.cons (.k _) .nil) fun hm1 => go_rel hm1 (hm.st.cars _ _ h1) h2
      · exact go_rel (hm.setK (hK)) (hm.st.cars _ _ h1) h2
  · trivial

theorem contVar_rel (hm : MR ρ κ m m') : OutRel (contVar m) (contVar m') := by
  unfold contVar
  have hK := hm.K
  split
  · rename_i key env K e
    rw [e] at hK
    obtain ⟨key', _, e', h1, hK⟩ := hK.invV
    obtain ⟨env', K', rfl, h2, hK⟩ := hK.invV
    simp only [e']
    cases hf : m.st.fillLoc (m.st.next + 1) key m.r env with
    | none => trivial
    | some r =>
      obtain ⟨s1, b⟩ := r
      obtain ⟨s1', ef, hs⟩ := fillLoc_rel hm.st (f' := m'.st.next + 1) (by have := hm.st.nle; omega) h1 hm.r h2 hf
      rw [ef]
      cases b with
      | false => exact raise_rel ((hm.setSt (hs)).setK (hK)) (.sym _)
      | true => exact ret_rel ((hm.setSt (hs)).setK (hK)) hm.r
  · trivial

theorem contSetq_rel (hm : MR ρ κ m m') : OutRel (contSetq m) (contSetq m') := by
  unfold contSetq
  have hK := hm.K
  split
  · rename_i key env K e
    rw [e] at hK
    obtain ⟨key', _, e', h1, hK1⟩ := hK.invV
    obtain ⟨env', K', rfl, h2, hK2⟩ := hK1.invV
    simp only [e']
    cases h1 with
    | sym n =>
      simp only
      split
      · cases h3 : m.st.setvar n m.r env with
        | none => trivial
        | some r =>
          obtain ⟨s1, b⟩ := r
          obtain ⟨s1', e, h4⟩ := setvar_rel hm.st n hm.r h2 h3
          simp only [e]
          cases b with
          | true => exact ret_rel ((hm.setSt (h4)).setK hK2) hm.r
          | false => exact raise_rel ((hm.setSt (h4)).setK hK2) (.sym _)
      · exact raise_rel (hm.setK hK2) (.sym _)
    | _ => exact raise_rel (hm.setK hK2) (.sym _)
  · trivial

theorem contHandler_rel (hm : MR ρ κ m m') : OutRel (contHandler m) (contHandler m') := by
  unfold contHandler
  have hK := hm.K
  split
  · rename_i f rv K e
    rw [e] at hK
    obtain ⟨_, e', hK⟩ := hK.invRaw
    obtain ⟨rv', K', rfl, h1, hK⟩ := hK.invV
    simp only [e']
    have h := gcdr_rel hm.st h1
    generalize m.st.gcdr rv = x, m'.st.gcdr rv' = y at h ⊢
    cases h with
    | none => exact raise_rel (hm.setK (hK)) (.sym _)
    | some h => exact ret_rel (((hm.setK (hK)).setFlags _).setSt (setCar_rel hm.st h hm.r)) h1
  · trivial

theorem contEvalR_rel (hm : MR ρ κ m m') : OutRel (contEvalR m) (contEvalR m') := by
  unfold contEvalR
  have hK := hm.K
  split
  · rename_i env K e
    rw [e] at hK
    obtain ⟨env', K', e', h1, hK⟩ := hK.invV
    simp only [e']
    exact go_rel (hm.setK (hK)) hm.r h1
  · trivial

theorem contDone_rel (hm : MR ρ κ m m') : OutRel (contDone sz m) (contDone sz m') := by
  unfold contDone
  have h := hm.program
  generalize m.program = x, m'.program = y at h ⊢
  cases h with
  | sym n =>
    cases n with
    | zero => exact ⟨rfl, ρ, κ, hm.st, hm.r⟩
    | succ n => trivial
  | cons h =>
    exact reserve_rel (hm.setProgram (hm.st.cdrs _ _ h)) (.cons (.k _) .nil) fun hm1 => go_rel hm1 (hm.st.cars _ _ h) (.sym _)
  | _ => trivial

end

end Verif.Gc
