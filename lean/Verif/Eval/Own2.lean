import Verif.Eval.Own

/-!
# Evaluation leaves alone what it cannot reach: the machine
-/

namespace Verif.Eval
variable {N : Nat → Prop} {sz : Option Nat} {P : Prims}

theorem Fine.mono {s0 s1 : St} (h : Kept N s0 s1) : ∀ {o : Out}, Fine N s1 o → Fine N s0 o
  | .next _, ⟨a, b⟩ => ⟨a, h.trans b⟩
  | .fin .., ⟨a, b, c⟩ => ⟨a, b, h.trans c⟩
  | .ub, _ => trivial
  | .out, _ => trivial

theorem fine_unwind {m : M} (h : MAway N m) {e : V} (he : Away N m.st.next e) : ∀ K : List W, AwayK N m.st.next K → Fine N m.st (unwind m e K) := by
  intro K hK
  induction K with
  | nil => exact ⟨h.st, away_sym _, kept_refl _⟩
  | cons w K ih =>
    rw [unwind.eq_def]
    split
    · rename_i h1; cases h1
    · rename_i f rv K' h1
      obtain ⟨rfl, rfl⟩ := List.cons.inj h1
      have hrv : Away N m.st.next rv := ((awayK_v _ _).1 ((awayK_raw _ _).1 ((awayK_k _ _).1 hK))).1
      have := h.st.setCar hrv (away_sym 0x3000C)
      exact ⟨⟨this.1, hK.up this.2, he.up this.2, h.exp.up this.2, h.env.up this.2, h.program.up this.2⟩, this.2⟩
    · trivial
    · trivial
    · rename_i w' K' h1 h2 h3 h4
      obtain ⟨rfl, rfl⟩ := List.cons.inj h4
      exact ih (awayK_tail hK)

theorem fine_raise {m : M} (h : MAway N m) {e : V} (he : Away N m.st.next e) : Fine N m.st (raise m e) := by
  unfold raise
  split
  · exact ⟨h.st, he, kept_refl _⟩
  · split
    · exact fine_unwind h he _ h.K
    · exact ⟨h.st, he, kept_refl _⟩

theorem fine_ret {m : M} (h : MAway N m) {v : V} (hv : Away N m.st.next v) : Fine N m.st (m.ret v) :=
  ⟨⟨h.st, h.K, hv, h.exp, h.env, h.program⟩, kept_refl _⟩

theorem fine_go {m : M} (h : MAway N m) {e env : V} (he : Away N m.st.next e) (hv : Away N m.st.next env) : Fine N m.st (m.go e env) :=
  ⟨⟨h.st, h.K, h.r, he, hv, h.program⟩, kept_refl _⟩

theorem fine_reserve {m : M} (h : MAway N m) {ws : List W} (hw : AwayK N m.st.next ws) {c : M → Out}
    (hc : MAway N { m with K := ws ++ m.K } → Fine N m.st (c { m with K := ws ++ m.K })) : Fine N m.st (reserve sz m ws c) := by
  unfold reserve
  split
  · exact hc ⟨h.st, (awayK_append _ _).2 ⟨hw, h.K⟩, h.r, h.exp, h.env, h.program⟩
  · exact fine_raise h (away_sym _)

/-- The stack is replaced. -/
theorem MAway.withK {m : M} (h : MAway N m) {K : List W} (hK : AwayK N m.st.next K) : MAway N { m with K := K } := ⟨h.st, hK, h.r, h.exp, h.env, h.program⟩

/-- The store is replaced. -/
theorem MAway.withSt {m : M} (h : MAway N m) {s : St} (hs : Apart N s) (hk : Kept N m.st s) : MAway N { m with st := s } :=
  ⟨hs, h.K.up hk, h.r.up hk, h.exp.up hk, h.env.up hk, h.program.up hk⟩

section
variable {m : M} (h : MAway N m)
include h

theorem fine_symbol (n : Nat) : Fine N m.st (evalSymbol m n) := by
  unfold evalSymbol
  split
  · split
    · trivial
    · rename_i e; exact fine_ret h (h.st.lookup h.env e)
    · split
      · trivial
      · rename_i e; exact fine_ret h (h.st.glookup e)
      · exact fine_raise h (away_sym _)
  · exact fine_ret h (away_sym _)

theorem fine_quote : Fine N m.st (evalQuote m) := by
  unfold evalQuote
  split
  · exact fine_raise h (away_sym _)
  · rename_i e; exact fine_ret h (h.st.gcadr h.exp e)

theorem fine_progn : Fine N m.st (evalProgn sz m) := by
  unfold evalProgn
  split
  · exact fine_raise h (away_sym _)
  · rename_i a e
    have ha := h.st.gcdr h.exp e
    split
    · refine fine_reserve h ?_ fun h1 => fine_go h1 (h.st.car ha) h.env
      have := h.env
      have := h.st.cdr ha
      grind
    · exact fine_go h (h.st.car ha) h.env
  · exact fine_ret h (away_sym _)
  · exact fine_raise h (away_sym _)

theorem fine_atomic : Fine N m.st (evalAtomic sz m) := by
  unfold evalAtomic
  split
  · exact fine_raise (h.withSt (h.st.setAtomic false) ⟨fun _ _ => ⟨rfl, rfl⟩, Nat.le_refl _⟩) (away_sym _)
  · exact fine_reserve h (by grind) fun h1 => fine_progn (h1.withSt (h1.st.setAtomic true) ⟨fun _ _ => ⟨rfl, rfl⟩, Nat.le_refl _⟩)

theorem fine_define : Fine N m.st (evalDefine sz m) := by
  unfold evalDefine
  have hk := h.st.hd (h.st.tl h.exp)
  have hv := h.st.hd (h.st.tl (h.st.tl h.exp))
  have hK := h.K
  refine fine_reserve h (by grind) fun h1 => ?_
  dsimp only
  split
  · split
    · split
      · split
        · trivial
        · exact fine_go (h.withK (by grind)) hv h.env
      · exact fine_raise (h.withK (by grind)) (away_sym _)
    · exact fine_raise h1 (away_sym _)
  · exact fine_raise h1 (away_sym _)

theorem fine_callcc : Fine N m.st (evalCallcc sz m) := by
  unfold evalCallcc
  have hf : Away N m.st.next (if m.st.atomic then V.tru else V.nil) := by split <;> exact away_sym _
  generalize (if m.st.atomic then V.tru else V.nil) = fv at hf
  refine fine_reserve h (by rw [awayK_v]; exact ⟨hf, awayK_nil⟩) fun h1 => ?_
  have hs : Apart N { m.st with konts := fun i => if i = m.st.nk then .v fv :: m.K else m.st.konts i, nk := m.st.nk + 1 } :=
    ⟨h.st.cells, h.st.globals, fun k => by dsimp only; split; exact h1.K; exact h.st.konts k, h.st.old⟩
  have a1 := hs.cons (away_sym 0x10E) (away_arr m.st.nk)
  have a2 := a1.1.cons a1.2.1 (away_sym 0)
  refine Fine.mono (a1.2.2.trans a2.2.2) ?_
  have hk : Kept N m.st _ := a1.2.2.trans a2.2.2
  refine fine_reserve (m := { m with K := m.env :: m.K, st := _ }) ⟨a2.1, (awayK_v _ _).2 ⟨h.env.up hk, h.K.up hk⟩, h.r.up hk, h.exp.up hk, h.env.up hk, h.program.up hk⟩ ?_ fun h2 => ?_
  · rw [awayK_k, awayK_v]
    exact ⟨a2.2.1, awayK_nil⟩
  · dsimp only
    split
    · exact fine_raise h2 (away_sym _)
    · rename_i e; exact fine_go h2 (a2.1.gcadr (h.exp.up hk) e) (h.env.up hk)

theorem fine_lambda : Fine N m.st (evalLambda m) := by
  have hk := h.st.hd (h.st.tl h.exp)
  have hv := h.st.hd (h.st.tl (h.st.tl h.exp))
  have a := h.st.allocClosure hk hv h.env
  exact Fine.mono a.2.2 (fine_ret (h.withSt a.1 a.2.2) a.2.1)

theorem fine_if : Fine N m.st (evalIf sz m) := by
  unfold evalIf
  split
  · exact fine_raise h (away_sym _)
  · rename_i d e
    have hd := h.st.gcdr h.exp e
    refine fine_reserve h (by grind) fun h1 => ?_
    dsimp only
    split
    · rename_i e1 e2
      have := h.st.gcdr hd e1
      have := h.K
      have := h.env
      exact fine_go (h.withK (by grind)) (h.st.gcar hd e2) h.env
    · exact fine_raise h1 (away_sym _)

theorem fine_cond : Fine N m.st (evalCond sz m) := by
  unfold evalCond
  have hc := h.st.hd (h.st.tl h.exp)
  have hr := h.st.tl (h.st.tl h.exp)
  dsimp only
  split
  · exact fine_ret h (away_sym _)
  · split
    · trivial
    · split
      · exact fine_raise h (away_sym _)
      · have a1 := h.st.cons (away_sym 0x110) hr
        have a2 := a1.1.cons a1.2.1 (away_sym 0)
        have a3 := a2.1.cons ((h.st.hd (h.st.tl hc)).up (a1.2.2.trans a2.2.2)) a2.2.1
        have hk := (a1.2.2.trans a2.2.2).trans a3.2.2
        refine Fine.mono hk ?_
        refine fine_reserve (h.withSt a3.1 hk) ?_ fun h1 => fine_go h1 ((h.st.hd hc).up hk) (h.env.up hk)
        rw [awayK_k, awayK_v, awayK_v]
        exact ⟨h.env.up hk, a3.2.1, awayK_nil⟩

theorem fine_letBind {binds body : V} (hb : Away N m.st.next binds) (hy : Away N m.st.next body) : Fine N m.st (letBind sz m binds body) := by
  unfold letBind
  split
  · split
    · trivial
    · exact fine_raise h (away_sym _)
    · rename_i a _ s env e
      obtain ⟨a1, a2, a3⟩ := h.st.letLocs hb h.env e
      refine Fine.mono a3 (fine_reserve (h.withSt a1 a3) ?_ fun h1 => fine_go h1 (a1.hd (a1.tl (a1.hd (hb.up a3)))) a2)
      simp only [awayK_k, awayK_v]
      exact ⟨a1.hd (a1.hd (hb.up a3)), a2, a1.tl (hb.up a3), hy.up a3, awayK_nil⟩
  · exact fine_go h hy h.env

theorem fine_var : Fine N m.st (evalVar sz m) := by
  unfold evalVar
  split
  · rename_i rest c penv K hK
    have hK' := h.K
    rw [hK] at hK'
    have hpenv : Away N m.st.next penv := by grind
    have hK1 : AwayK N m.st.next K := by grind
    have hrest : AwayK N m.st.next [rest] := awayK_sub hK' (by simp)
    have hb : ∀ {n j : Nat} {p : V}, m.st.next ≤ j → Away N j p → AwayK N j (.k 4 :: rest :: .v (.u n) :: .v p :: K) := by
      intro n j p hj hp
      rw [show (.k 4 :: rest :: .v (.u n) :: .v p :: K : List W) = .k 4 :: ([rest] ++ (.v (.u n) :: .v p :: K)) from rfl, awayK_k, awayK_append, awayK_v, awayK_v]
      exact ⟨hrest.le hj, away_u _, hp, hK1.le hj⟩
    dsimp only
    have hcp : ∀ s1 p1, (if c = 0 then m.st.copySpine (m.st.next + 1) penv else some (m.st, penv)) = some (s1, p1) → Apart N s1 ∧ Away N s1.next p1 ∧ Kept N m.st s1 := by
      intro s1 p1 e
      split at e
      · exact h.st.copySpine hpenv e
      · cases e; exact ⟨h.st, hpenv, kept_refl _⟩
    revert hcp
    generalize (if c = 0 then m.st.copySpine (m.st.next + 1) penv else some (m.st, penv)) = x
    intro hcp
    cases x with
    | none => trivial
    | some q =>
      obtain ⟨s1, p1⟩ := q
      obtain ⟨a1, a2, a3⟩ := hcp s1 p1 rfl
      have h1 : MAway N { m with st := s1, K := .k 4 :: rest :: .v (.u (if c = 0 then 1 else c)) :: .v p1 :: K } :=
        ⟨a1, hb a3.2 a2, h.r.up a3, h.exp.up a3, h.env.up a3, h.program.up a3⟩
      refine Fine.mono a3 ?_
      dsimp only
      split
      · exact fine_raise h1 (away_sym _)
      · rename_i args e1
        have hargs := a1.gcdr (h.exp.up a3) e1
        split
        · exact fine_raise h1 (away_sym _)
        · rename_i key e2
          have hkey := a1.gcar hargs e2
          split
          · trivial
          · rename_i s2 p2 e3
            obtain ⟨b1, b2, b3⟩ := a1.createLoc hkey a2 e3
            have h2 : MAway N { m with st := s2, K := .k 4 :: rest :: .v (.u (if c = 0 then 1 else c)) :: .v p2 :: K } :=
              ⟨b1, hb (Nat.le_trans a3.2 b3.2) b2, h1.r.up b3, h1.exp.up b3, h1.env.up b3, h1.program.up b3⟩
            refine Fine.mono b3 ?_
            split
            · exact fine_raise h2 (away_sym _)
            · rename_i e4
              exact fine_reserve h2 (by simp only [awayK_k, awayK_v]; exact ⟨hkey.up b3, b2, awayK_nil⟩) fun h3 => fine_go h3 (b1.gcadr (hargs.up b3) e4) b2
  · exact fine_raise h (away_sym _)

theorem fine_setq : Fine N m.st (evalSetq sz m) := by
  unfold evalSetq
  have hk := h.st.hd (h.st.tl h.exp)
  have hv := h.st.hd (h.st.tl (h.st.tl h.exp))
  have := h.env
  exact fine_reserve h (by grind) fun h1 => fine_go h1 hv h.env

theorem fine_loop : Fine N m.st (evalLoop sz m) := by
  unfold evalLoop
  split
  · exact fine_raise h (away_sym _)
  · rename_i parts e
    have hp := h.st.gcdr h.exp e
    have h1 := h.st.hd hp
    have h2 := h.st.hd (h.st.tl hp)
    have h3 := h.st.hd (h.st.tl (h.st.tl hp))
    exact fine_reserve h (by grind) fun h4 => fine_letBind h4 h1 h2

theorem fine_trap : Fine N m.st (evalTrap sz m) := by
  unfold evalTrap
  split
  · exact fine_raise h (away_sym _)
  · rename_i x e
    have hx := h.st.gcadr h.exp e
    have a1 := h.st.cons (away_sym 0) (away_sym 0)
    have a2 := a1.1.cons (away_sym 0x3000B) a1.2.1
    have hk := a1.2.2.trans a2.2.2
    refine Fine.mono hk (fine_reserve (h.withSt a2.1 hk) ?_ fun h1 => ?_)
    · rw [awayK_k, awayK_raw, awayK_v]
      exact ⟨a2.2.1, awayK_nil⟩
    · exact fine_go (m := { m with st := _, K := _, flags := setUnroll m.flags }) ⟨h1.st, h1.K, h1.r, h1.exp, h1.env, h1.program⟩ (hx.up hk) (h.env.up hk)

theorem fine_junct (c : Nat) {u : V} (hu : Away N m.st.next u) : Fine N m.st (evalJunct sz c u m) := by
  unfold evalJunct
  split
  · exact fine_raise h (away_sym _)
  · rename_i rest e
    have hr := h.st.gcdr h.exp e
    split
    · exact fine_ret h hu
    · refine fine_reserve h (by grind) fun h1 => ?_
      dsimp only
      split
      · rename_i e1 e2
        have := h.st.gcdr hr e1
        have := h.K
        have := h.env
        exact fine_go (h.withK (by grind)) (h.st.gcar hr e2) h.env
      · exact fine_raise h1 (away_sym _)

theorem fine_match : Fine N m.st (evalMatch sz m) := by
  unfold evalMatch
  split
  · exact fine_raise h (away_sym _)
  · rename_i a e
    have ha := h.st.gcdr h.exp e
    have := h.env
    have := h.st.cdr ha
    exact fine_reserve h (by grind) fun h1 => fine_go h1 (h.st.car ha) h.env
  · exact fine_raise h (away_sym _)

theorem fine_appCont : Fine N m.st (evalAppCont m) := by
  unfold evalAppCont
  split
  · trivial
  · rename_i w K hK
    have := h.K
    rw [hK] at this
    exact ⟨⟨h.st, awayK_tail this, h.r, h.exp, h.env, h.program⟩, kept_refl _⟩

theorem fine_special (i : Nat) : Fine N m.st (evalSpecial sz i m) := by
  unfold evalSpecial
  split
  · exact fine_quote h
  · exact fine_define h
  · exact fine_progn h
  · exact fine_lambda h
  · exact fine_if h
  · exact fine_letBind h (h.st.hd (h.st.tl h.exp)) (h.st.hd (h.st.tl (h.st.tl h.exp)))
  · exact fine_junct h _ (away_sym _)
  · exact fine_junct h _ (away_sym _)
  · exact fine_match h
  · exact fine_callcc h
  · exact fine_atomic h
  · exact fine_ret h h.exp
  · exact fine_ret h h.exp
  · exact fine_ret h h.exp
  · exact fine_cond h
  · exact fine_appCont h
  · exact fine_var h
  · exact fine_setq h
  · exact fine_loop h
  · exact fine_trap h
  · trivial

/-! ### Functions -/

theorem awayK_vals {K : List W} {l : List V} (hK : AwayK N m.st.next K) (e : popVals K = some l) : ∀ v ∈ l, Away N m.st.next v := by
  induction K generalizing l with
  | nil => cases e; intro v hv; cases hv
  | cons w K ih =>
    cases w with
    | v x =>
      simp only [popVals, Option.map_eq_some_iff] at e
      obtain ⟨l', e1, rfl⟩ := e
      intro v hv
      rcases List.mem_cons.1 hv with rfl | hv
      · exact ((awayK_v _ _).1 hK).1
      · exact ih ((awayK_v _ _).1 hK).2 e1 v hv
    | _ => cases e

theorem fine_applySetvar {args : List V} (ha : ∀ v ∈ args, Away N m.st.next v) {K : List W} (hK : AwayK N m.st.next K) : Fine N m.st (applySetvar m args K) := by
  unfold applySetvar
  split
  · rename_i n v
    have hv : Away N m.st.next v := ha v (by simp)
    split
    · split
      · trivial
      · rename_i e
        obtain ⟨a1, a2⟩ := h.st.setvar h.env hv e
        exact Fine.mono a2 (fine_ret ((h.withK hK).withSt a1 a2) (hv.up a2))
      · rename_i e
        obtain ⟨a1, a2⟩ := h.st.setvar h.env hv e
        exact Fine.mono a2 (fine_raise (h.withSt a1 a2) (away_sym _))
    · exact fine_raise h (away_sym _)
  · exact fine_raise h (away_sym _)

theorem fine_applyMap {args : List V} (ha : ∀ v ∈ args, Away N m.st.next v) {K : List W} (hK : AwayK N m.st.next K) : Fine N m.st (applyMap sz m args K) := by
  unfold applyMap
  split
  · rename_i f a
    have hf : Away N m.st.next f := ha f (by simp)
    have hl : Away N m.st.next (.cons a) := ha _ (by simp)
    have a1 := h.st.cons (h.st.car hl) (away_sym 0)
    have a2 := a1.1.cons (away_sym 0x100) a1.2.1
    have a3 := a2.1.cons a2.2.1 (away_sym 0)
    have a4 := a3.1.cons (hf.up ((a1.2.2.trans a2.2.2).trans a3.2.2)) a3.2.1
    have k4 := ((a1.2.2.trans a2.2.2).trans a3.2.2).trans a4.2.2
    have a5 := a4.1.cons (h.r.up k4) (away_sym 0)
    have k5 := k4.trans a5.2.2
    refine Fine.mono k5 ?_
    have b5 := a5.2.1
    have b4 := a4.2.1.up a5.2.2
    have b1 := a1.2.1.up (((a2.2.2.trans a3.2.2).trans a4.2.2).trans a5.2.2)
    have he := h.env.up k5
    have hd := (h.st.cdr hl).up k5
    replace hK := hK.up k5
    refine fine_reserve ((h.withSt a5.1 k5).withK ?_) ?_ fun h1 => fine_go h1 b4 he
    · rw [awayK_v, awayK_v, awayK_v]; exact ⟨b5, he, hd, hK⟩
    · rw [awayK_k, awayK_v, awayK_v, awayK_v]; exact ⟨b1, b4, b5, awayK_nil⟩
  · exact fine_ret (h.withK hK) (away_sym _)
  · exact fine_raise h (away_sym _)

theorem fine_application (hP : Local P) (c : Nat) : Fine N m.st (application sz P m c) := by
  unfold application
  dsimp only
  have hK := awayK_sub h.K (K' := m.K.drop (c + 1)) (fun w hw => List.mem_of_mem_drop hw)
  split
  · rename_i n args e
    obtain ⟨l, e1, e2⟩ := Option.map_eq_some_iff.1 e
    have ha : ∀ v ∈ args, Away N m.st.next v := fun v hv => awayK_vals h (awayK_sub h.K (fun w hw => List.mem_of_mem_take hw)) e1 v (by
      rw [← List.mem_reverse, e2]; exact List.mem_cons_of_mem _ hv)
    split
    · trivial
    · split
      · have hp := hP N n args m.env m.st h.st ha h.env
        split
        · rename_i e; rw [e] at hp
          exact Fine.mono hp.2.1 (fine_ret ((h.withK hK).withSt hp.1 hp.2.1) hp.2.2)
        · rename_i e; rw [e] at hp
          exact Fine.mono hp.2.1 (fine_raise (h.withSt hp.1 hp.2.1) hp.2.2)
      · split
        · exact fine_applySetvar h ha hK
        · split
          · unfold applyEval
            split
            · exact fine_go (h.withK hK) (ha _ (by simp)) h.env
            · exact fine_go (h.withK hK) (ha _ (by simp)) (ha _ (by simp))
            · exact fine_raise h (away_sym _)
          · split
            · refine fine_raise h ?_
              cases args with
              | nil => exact away_sym _
              | cons x l => exact ha x (by simp)
            · split
              · exact fine_applyMap h ha hK
              · split
                · unfold applyRestArgs
                  split
                  · split
                    · trivial
                    · rename_i e; exact fine_ret (h.withK hK) (h.st.lookup h.env e)
                    · exact fine_ret (h.withK hK) (away_sym _)
                  · trivial
                · split
                  · trivial
                  · exact fine_raise h (away_sym _)
  · trivial

end

section
variable {m : M} (h : MAway N m)
include h

theorem fine_args (hP : Local P) : Fine N m.st (contArgs sz P m) := by
  unfold contArgs
  split
  · rename_i c rest env K hK
    have hk := h.K
    rw [hK] at hk
    have hr := h.r
    split
    · rename_i a
      have ha : Away N m.st.next (.cons a) := by grind
      have := h.st.cdr ha
      exact fine_reserve (h.withK (by grind)) (by grind) fun h1 => fine_go h1 (h.st.car ha) (by grind)
    · exact fine_application (m := { m with K := m.r :: K, env := env }) ⟨h.st, by grind, h.r, h.exp, by grind, h.program⟩ hP _
  · trivial

theorem fine_start (hP : Local P) : Fine N m.st (contStart sz P m) := by
  unfold contStart
  split
  · exact fine_reserve h (by grind) fun h1 => fine_args h1 hP
  · rename_i fa hfa
    have hf := h.r
    rw [hfa] at hf
    split
    · rename_i args aenv K hK
      have hk := h.K
      rw [hK] at hk
      have hargs : Away N m.st.next args := by grind
      have haenv : Away N m.st.next aenv := by grind
      have hK1 : AwayK N m.st.next K := by grind
      dsimp only
      split
      · have hcl := h.st.cdr hf
        have hparams := h.st.hd hcl
        have hbody := h.st.hd (h.st.tl hcl)
        have hcenv := h.st.hd (h.st.tl (h.st.tl hcl))
        split
        · rename_i a0 arest e1 e2
          have h0 := h.st.gcar hargs e1
          have h1 := h.st.gcdr hargs e2
          refine fine_reserve (h.withK (by grind)) (by grind) fun hm => ?_
          dsimp only
          split
          · exact fine_go (h.withK (by grind)) h0 haenv
          · split
            · exact fine_go (h.withK (by grind)) hbody hcenv
            · split
              · have a := h.st.allocBinding (away_sym 0x30015) (away_sym 0) hcenv
                have b := a.1.hd a.2.1
                have c := a.2.1
                have hk := a.2.2
                refine Fine.mono hk (fine_go ((h.withSt a.1 hk).withK ?_) (h0.up hk) (haenv.up hk))
                rw [awayK_k, awayK_v, awayK_v, awayK_v, awayK_v, awayK_v]
                exact ⟨b, h1.up hk, c, hbody.up hk, haenv.up hk, hK1.up hk⟩
              · exact fine_raise hm (away_sym _)
        · exact fine_raise h (away_sym _)
      · split
        · split
          · split
            · trivial
            · split
              · exact fine_raise h (away_sym _)
              · split
                · trivial
                · rename_i e
                  split
                  · have := h.st.konts
                    have hk := awayK_sub (this _) (by rw [e]; intro w hw; exact List.mem_cons_of_mem _ hw)
                    exact ⟨⟨h.st.setAtomic _, hk, h.r, h.st.hd hargs, h.env, h.program⟩, fun _ _ => ⟨rfl, rfl⟩, Nat.le_refl _⟩
                  · trivial
          · exact fine_raise h (away_sym _)
        · split
          · split
            · rename_i params d e1 e2
              have hparams := h.st.gcadr h.r e1
              have hd := h.st.gcdr h.r e2
              split
              · trivial
              · rename_i s eenv e3
                obtain ⟨a1, a2, a3⟩ := h.st.macroEnv hparams hargs haenv e3
                have hm : MAway N { m with st := s, K := .k 11 :: aenv :: K } :=
                  ⟨a1, by rw [awayK_k, awayK_v]; exact ⟨haenv.up a3, hK1.up a3⟩, h.r.up a3, h.exp.up a3, h.env.up a3, h.program.up a3⟩
                refine Fine.mono a3 ?_
                split
                · exact fine_raise hm (away_sym _)
                · rename_i e4; exact fine_go hm (a1.gcadr (hd.up a3) e4) a2
            · exact fine_raise h (away_sym _)
          · exact fine_raise h (away_sym _)
    · trivial
  · exact fine_raise h (away_sym _)

theorem fine_cloArgs : Fine N m.st (contCloArgs sz m) := by
  unfold contCloArgs
  split
  · rename_i args params cenv body aenv K hK
    have hk := h.K
    rw [hK] at hk
    simp only [awayK_v] at hk
    obtain ⟨hargs, hparams, hcenv, hbody, haenv, hK1⟩ := hk
    split
    · rename_i p ps e1 e2
      have hp := h.st.gcar hparams e1
      have hps := h.st.gcdr hparams e2
      have a := h.st.allocBinding hp h.r hcenv
      revert a
      generalize allocBinding m.st p m.r cenv = q
      obtain ⟨s, env⟩ := q
      rintro ⟨a1, a2, a3⟩
      refine Fine.mono a3 ?_
      dsimp only at a1 a2 a3 ⊢
      replace hargs := hargs.up a3
      replace hps := hps.up a3
      replace hbody := hbody.up a3
      replace haenv := haenv.up a3
      replace hK1 := hK1.up a3
      have h := h.withSt a1 a3
      split
      · split
        · rename_i e3 e4
          have h3 := a1.gcar hargs e3
          have h4 := a1.gcdr hargs e4
          refine fine_reserve (h.withK ?_) (by grind) fun h1 => fine_go h1 h3 haenv
          simp only [awayK_v]; exact ⟨h4, hps, a2, hbody, haenv, hK1⟩
        · exact fine_raise h (away_sym _)
      · split
        · exact fine_go (h.withK hK1) hbody a2
        · split
          · have b := a1.allocBinding (away_sym 0x30015) (away_sym 0) a2
            revert b
            generalize allocBinding s .restArgs .nil env = q
            obtain ⟨s2, rb⟩ := q
            rintro ⟨b1, b2, b3⟩
            refine Fine.mono b3 ?_
            dsimp only at b1 b2 b3 ⊢
            replace hargs := hargs.up b3
            replace hbody := hbody.up b3
            replace haenv := haenv.up b3
            replace hK1 := hK1.up b3
            have h := h.withSt b1 b3
            split
            · rename_i e3 e4
              have h3 := b1.gcdr hargs e3
              have h4 := b1.gcar hargs e4
              refine fine_reserve (h.withK ?_) (by grind) fun h1 => fine_go h1 h4 haenv
              simp only [awayK_v]; exact ⟨b1.hd b2, h3, b2, hbody, haenv, hK1⟩
            · exact fine_raise h (away_sym _)
          · exact fine_raise h (away_sym _)
    · exact fine_raise h (away_sym _)
  · trivial

theorem fine_cloRest : Fine N m.st (contCloRest sz m) := by
  unfold contCloRest
  split
  · rename_i last args cenv body aenv K hK
    have hk := h.K
    rw [hK] at hk
    simp only [awayK_v] at hk
    obtain ⟨hlast, hargs, hcenv, hbody, haenv, hK1⟩ := hk
    have a := h.st.cons h.r (away_sym 0)
    revert a
    generalize m.st.cons m.r .nil = q
    obtain ⟨s, b⟩ := q
    rintro ⟨a1, a2, a3⟩
    obtain ⟨b1, b2⟩ := a1.setCdr (hlast.up a3) a2
    have hk := a3.trans b2
    refine Fine.mono hk ?_
    dsimp only at a1 a2 b1 b2 hk ⊢
    replace a2 := a2.up b2
    replace hargs := hargs.up hk
    replace hcenv := hcenv.up hk
    replace hbody := hbody.up hk
    replace haenv := haenv.up hk
    replace hK1 := hK1.up hk
    have h := h.withSt b1 hk
    split
    · exact fine_go (h.withK hK1) hbody hcenv
    · refine fine_reserve (h.withK ?_) (by grind) fun h1 => ?_
      · simp only [awayK_v]; exact ⟨a2, hargs, hcenv, hbody, haenv, hK1⟩
      · dsimp only
        split
        · rename_i e1 e2
          refine fine_go (h.withK ?_) (b1.gcar hargs e2) haenv
          simp only [awayK_v, awayK_k]; exact ⟨a2, b1.gcdr hargs e1, hcenv, hbody, haenv, hK1⟩
        · exact fine_raise h1 (away_sym _)
  · trivial

theorem fine_and : Fine N m.st (contAnd sz m) := by
  unfold contAnd
  split
  · rename_i rest env K hK
    have hk := h.K
    rw [hK] at hk
    simp only [awayK_v] at hk
    obtain ⟨hrest, henv, hK1⟩ := hk
    dsimp only
    split
    · exact fine_ret (h.withK hK1) (away_sym _)
    · split
      · exact fine_ret (h.withK hK1) h.r
      · refine fine_reserve (h.withK hK1) (by grind) fun h1 => ?_
        dsimp only
        split
        · rename_i e1 e2
          refine fine_go (h.withK ?_) (h.st.gcar hrest e2) henv
          simp only [awayK_v, awayK_k]; exact ⟨h.st.gcdr hrest e1, henv, hK1⟩
        · exact fine_raise h1 (away_sym _)
  · trivial

theorem fine_or : Fine N m.st (contOr sz m) := by
  unfold contOr
  split
  · rename_i rest env K hK
    have hk := h.K
    rw [hK] at hk
    simp only [awayK_v] at hk
    obtain ⟨hrest, henv, hK1⟩ := hk
    dsimp only
    split
    · exact fine_ret (h.withK hK1) h.r
    · split
      · exact fine_ret (h.withK hK1) (away_sym _)
      · refine fine_reserve (h.withK hK1) (by grind) fun h1 => ?_
        dsimp only
        split
        · rename_i e1 e2
          refine fine_go (h.withK ?_) (h.st.gcar hrest e2) henv
          simp only [awayK_v, awayK_k]; exact ⟨h.st.gcdr hrest e1, henv, hK1⟩
        · exact fine_raise h1 (away_sym _)
  · trivial

theorem fine_bind : Fine N m.st (contBind sz m) := by
  unfold contBind
  split
  · rename_i key env rest body K hK
    have hk := h.K
    rw [hK] at hk
    simp only [awayK_v] at hk
    obtain ⟨hkey, henv, hrest, hbody, hK1⟩ := hk
    split
    · trivial
    · rename_i s e
      obtain ⟨a1, a2⟩ := h.st.fillLoc hkey h.r henv e
      exact Fine.mono a2 (fine_raise (h.withSt a1 a2) (away_sym _))
    · rename_i s e
      obtain ⟨a1, a2⟩ := h.st.fillLoc hkey h.r henv e
      refine Fine.mono a2 ?_
      replace henv := henv.up a2
      replace hbody := hbody.up a2
      replace hrest := hrest.up a2
      replace hK1 := hK1.up a2
      have h := h.withSt a1 a2
      split
      · have hb := a1.car hrest
        refine fine_reserve (h.withK ?_) (by grind) fun h1 => fine_go h1 (a1.hd (a1.tl hb)) henv
        simp only [awayK_v]; exact ⟨a1.hd hb, henv, a1.cdr hrest, hbody, hK1⟩
      · exact fine_go (h.withK hK1) hbody henv
  · trivial

theorem fine_cif : Fine N m.st (contIf m) := by
  unfold contIf
  split
  · rename_i env br K hK
    have hk := h.K
    rw [hK] at hk
    simp only [awayK_v] at hk
    obtain ⟨henv, hbr, hK1⟩ := hk
    have hm : MAway N { m with K := K, env := env } := ⟨h.st, hK1, h.r, h.exp, henv, h.program⟩
    dsimp only
    split
    · split
      · exact fine_raise hm (away_sym _)
      · rename_i e; exact fine_go hm (h.st.gcadr hbr e) henv
    · split
      · exact fine_raise hm (away_sym _)
      · rename_i e; exact fine_go hm (h.st.gcar hbr e) henv
  · trivial

theorem fine_cmatch : Fine N m.st (contMatch sz P m) := by
  unfold contMatch
  split
  · rename_i oenv pats K hK
    have hk := h.K
    rw [hK] at hk
    simp only [awayK_v] at hk
    obtain ⟨hoenv, hpats, hK1⟩ := hk
    split
    · exact fine_ret (h.withK hK1) (away_sym _)
    · rename_i a
      have hmc := h.st.car hpats
      dsimp only
      split
      · rename_i p n1 n2 e1 e2 e3
        have hp := h.st.gcar hmc e1
        have h1 := h.st.gcadr hmc e2
        have h2 : Away N m.st.next n2 := by
          obtain ⟨x, e4, e5⟩ := Option.bind_eq_some_iff.1 e3
          exact h.st.gcadr (h.st.gcdr hmc e4) e5
        split
        · trivial
        · rename_i s env e
          obtain ⟨a1, a2, a3⟩ := h.st.matchP hp h.r hoenv e
          refine Fine.mono a3 ?_
          replace hpats := hpats.up a3
          replace hoenv := hoenv.up a3
          replace h1 := h1.up a3
          replace h2 := h2.up a3
          replace hK1 := hK1.up a3
          have h := h.withSt a1 a3
          split
          · exact fine_go (h.withK hK1) h1 a2
          · refine fine_reserve (h.withK ?_) ?_ fun h4 => fine_go h4 h1 a2
            · simp only [awayK_v]; exact ⟨h.env, a1.cdr hpats, hK1⟩
            · simp only [awayK_v, awayK_k]; exact ⟨h.r, h2, a2, awayK_nil⟩
        · rename_i s env e
          obtain ⟨a1, a2, a3⟩ := h.st.matchP hp h.r hoenv e
          refine Fine.mono a3 ?_
          replace hpats := hpats.up a3
          replace hoenv := hoenv.up a3
          replace h1 := h1.up a3
          replace h2 := h2.up a3
          replace hK1 := hK1.up a3
          have h := h.withSt a1 a3
          refine fine_reserve (h.withK ?_) (by grind) fun h4 => fine_ret h4 h.r
          simp only [awayK_v]; exact ⟨hoenv, a1.cdr hpats, hK1⟩
      · exact fine_raise h (away_sym _)
    · exact fine_raise h (away_sym _)
  · trivial

theorem fine_cmap : Fine N m.st (contMap sz m) := by
  unfold contMap
  split
  · rename_i arg appli t res env ls K hK
    have hk := h.K
    rw [hK] at hk
    simp only [awayK_v] at hk
    obtain ⟨harg, happli, ht, hres, henv, hls, hK1⟩ := hk
    obtain ⟨a1, a2⟩ := h.st.setCar ht h.r
    refine Fine.mono a2 ?_
    replace harg := harg.up a2
    replace happli := happli.up a2
    replace ht := ht.up a2
    replace hres := hres.up a2
    replace henv := henv.up a2
    replace hls := hls.up a2
    replace hK1 := hK1.up a2
    have h := h.withSt a1 a2
    dsimp only
    split
    · rename_i a
      have hx := a1.car hls
      have hr := a1.cdr hls
      refine fine_reserve (h.withK ?_) (by grind) fun h1 => ?_
      · simp only [awayK_v]; exact ⟨harg, happli, ht, hres, henv, hr, hK1⟩
      · obtain ⟨b1, b2⟩ := a1.setCar harg hx
        have c := b1.cons (away_sym 0) (away_sym 0)
        obtain ⟨d1, d2⟩ := c.1.setCdr (ht.up (b2.trans c.2.2)) c.2.1
        have hk := (b2.trans c.2.2).trans d2
        refine Fine.mono hk (fine_go ((h.withSt d1 hk).withK ?_) (happli.up hk) (henv.up hk))
        rw [awayK_k, awayK_v, awayK_v, awayK_v, awayK_v, awayK_v, awayK_v]; exact ⟨harg.up hk, happli.up hk, c.2.1.up d2, hres.up hk, henv.up hk, hr.up hk, hK1.up hk⟩
    · exact fine_ret (m := { m with st := _, K := K, env := env }) ⟨a1, hK1, h.r, h.exp, henv, h.program⟩ hres
  · trivial

theorem fine_guard : Fine N m.st (contGuard m) := by
  unfold contGuard
  split
  · rename_i e body env K hK
    have hk := h.K
    rw [hK] at hk
    simp only [awayK_v] at hk
    obtain ⟨he, hbody, henv, hK1⟩ := hk
    split
    · exact fine_ret (h.withK hK1) he
    · split
      · exact fine_go (h.withK (awayK_tail (awayK_tail (awayK_tail hK1)))) hbody henv
      · trivial
  · trivial

theorem fine_cloop : Fine N m.st (contLoop sz m) := by
  unfold contLoop
  split
  · rename_i cond w K hK
    have hk := h.K
    rw [hK] at hk
    exact fine_reserve h (by grind) fun h1 => fine_go h1 ((awayK_v _ _).1 hk).1 h.env
  · trivial

theorem fine_cloopcond : Fine N m.st (contLoopCond sz m) := by
  unfold contLoopCond
  split
  · rename_i w body K hK
    have hk := h.K
    rw [hK] at hk
    have := (awayK_v _ _).1 (awayK_tail hk)
    split
    · exact fine_ret (h.withK this.2) h.r
    · exact fine_reserve h (by grind) fun h1 => fine_go h1 this.1 h.env
  · trivial

theorem fine_cprogn : Fine N m.st (contProgn sz m) := by
  unfold contProgn
  split
  · rename_i a c env K hK
    have hk := h.K
    rw [hK] at hk
    have ha := ((awayK_v _ _).1 hk).1
    have hc : AwayK N m.st.next [c] := awayK_sub hk (by simp)
    have h2 := (awayK_v _ _).1 (awayK_tail (awayK_tail hk))
    split
    · refine fine_reserve (h.withK ?_) (by grind) fun h1 => fine_go h1 (h.st.car ha) h2.1
      rw [show ∀ x, (W.v x :: c :: W.v env :: K) = .v x :: ([c] ++ (W.v env :: K)) from fun _ => rfl, awayK_v, awayK_append, awayK_v]
      exact ⟨h.st.cdr ha, hc, h2⟩
    · exact fine_go (h.withK h2.2) (h.st.car ha) h2.1
  · trivial

theorem fine_cvar : Fine N m.st (contVar m) := by
  unfold contVar
  split
  · rename_i key env K hK
    have hk := h.K
    rw [hK] at hk
    simp only [awayK_v] at hk
    obtain ⟨hkey, henv, hK1⟩ := hk
    split
    · trivial
    · rename_i s e
      obtain ⟨a1, a2⟩ := h.st.fillLoc hkey h.r henv e
      exact Fine.mono a2 (fine_raise ((h.withK hK1).withSt a1 a2) (away_sym _))
    · rename_i s e
      obtain ⟨a1, a2⟩ := h.st.fillLoc hkey h.r henv e
      exact Fine.mono a2 (fine_ret ((h.withK hK1).withSt a1 a2) (h.r.up a2))
  · trivial

theorem fine_csetq : Fine N m.st (contSetq m) := by
  unfold contSetq
  split
  · rename_i key env K hK
    have hk := h.K
    rw [hK] at hk
    simp only [awayK_v] at hk
    obtain ⟨hkey, henv, hK1⟩ := hk
    dsimp only
    split
    · split
      · split
        · trivial
        · rename_i e
          obtain ⟨a1, a2⟩ := h.st.setvar henv h.r e
          exact Fine.mono a2 (fine_ret ((h.withK hK1).withSt a1 a2) (h.r.up a2))
        · rename_i e
          obtain ⟨a1, a2⟩ := h.st.setvar henv h.r e
          exact Fine.mono a2 (fine_raise ((h.withK hK1).withSt a1 a2) (away_sym _))
      · exact fine_raise (h.withK hK1) (away_sym _)
    · exact fine_raise (h.withK hK1) (away_sym _)
  · trivial

theorem fine_cdefine : Fine N m.st (contDefine m) := by
  unfold contDefine
  split
  · rename_i n K hK
    have hk := h.K
    rw [hK] at hk
    split
    · trivial
    · rename_i e
      obtain ⟨a1, a2⟩ := h.st.define h.r e
      exact Fine.mono a2 (fine_ret ((h.withK (awayK_tail hk)).withSt a1 a2) (h.r.up a2))
  · trivial

theorem fine_handler : Fine N m.st (contHandler m) := by
  unfold contHandler
  split
  · rename_i f rv K hK
    have hk := h.K
    rw [hK] at hk
    have h1 := (awayK_v _ _).1 (awayK_tail hk)
    split
    · exact fine_raise (h.withK h1.2) (away_sym _)
    · rename_i c e
      obtain ⟨a1, a2⟩ := h.st.setCar (h.st.gcdr h1.1 e) h.r
      exact Fine.mono a2 (fine_ret (m := { m with K := K, flags := f, st := _ }) ⟨a1, h1.2.up a2, h.r.up a2, h.exp.up a2, h.env.up a2, h.program.up a2⟩ (h1.1.up a2))
  · trivial

theorem fine_evalR : Fine N m.st (contEvalR m) := by
  unfold contEvalR
  split
  · rename_i env K hK
    have hk := h.K
    rw [hK] at hk
    have h1 := (awayK_v _ _).1 hk
    exact fine_go (h.withK h1.2) h.r h1.1
  · trivial

theorem fine_done : Fine N m.st (contDone sz m) := by
  unfold contDone
  split
  · exact ⟨h.st, h.r, kept_refl _⟩
  · rename_i a e
    have hp := h.program
    rw [e] at hp
    exact fine_reserve (m := { m with program := m.st.cdr a }) ⟨h.st, h.K, h.r, h.exp, h.env, h.st.cdr hp⟩ (by rw [awayK_k]; exact awayK_nil) fun h1 => fine_go h1 (h.st.car hp) (away_sym _)
  · trivial

theorem fine_runCont (hP : Local P) (c : Nat) : Fine N m.st (runCont sz P c m) := by
  unfold runCont
  split
  · exact fine_done h
  · exact fine_cdefine h
  · exact fine_bind h
  · exact fine_cif h
  · exact fine_cprogn h
  · exact fine_args h hP
  · exact fine_and h
  · exact fine_or h
  · exact fine_cmatch h
  · exact fine_start h hP
  · exact fine_evalR h
  · exact fine_cloArgs h
  · exact fine_ret (h.withSt (h.st.setAtomic false) ⟨fun _ _ => ⟨rfl, rfl⟩, Nat.le_refl _⟩) h.r
  · exact fine_cmap h
  · exact fine_guard h
  · exact fine_raise h h.r
  · exact fine_cvar h
  · exact fine_csetq h
  · exact fine_cloop h
  · exact fine_cloopcond h
  · exact fine_cloRest h
  · exact fine_handler h
  · trivial

theorem fine_step (hP : Local P) : Fine N m.st (step sz P m) := by
  unfold step
  split
  · split
    · rename_i c K hK
      have hk := h.K
      rw [hK] at hk
      exact fine_runCont (m := { m with K := K, app := false }) ⟨h.st, awayK_tail hk, h.r, h.exp, h.env, h.program⟩ hP c
    · trivial
  · have he := h.exp
    split
    · exact fine_symbol h _
    · rename_i a e
      rw [e] at he
      split
      · exact fine_special h _
      · have := h.st.cdr he
        have := h.env
        exact fine_reserve h (by grind) fun h1 => fine_go h1 (h.st.car he) h.env
    · exact fine_ret h he

end

theorem fine_steps (hP : Local P) : ∀ (n : Nat) {s0 : St} {o : Out}, Fine N s0 o → Fine N s0 (steps sz P n o)
  | 0, _, _, h => h
  | n + 1, _, .next _, h => fine_steps hP n (Fine.mono h.2 (fine_step h.1 hP))
  | _ + 1, _, .fin .., h => h
  | _ + 1, _, .ub, h => h
  | _ + 1, _, .out, h => h

end Verif.Eval
