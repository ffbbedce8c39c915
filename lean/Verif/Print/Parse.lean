import Verif.Print.Grammar
import Verif.Print.Reader
import Verif.Tok.Closed

/-! # The reader follows the grammar: single steps -/

namespace Verif.Print

open Verif.Tok (Byte ascii Token Stream)
open Verif.Eq (T NTy Val Heap Obj)

/-! ## Runs -/

/-- The reader gets there in at least one step. -/
def To (D : Dev) (m : RS) (res : RRes) : Prop := ∃ n, rrun D (n + 1) m = res

theorem To.one {D : Dev} {m : RS} {res : RRes} (h : rstep D m = res) : To D m res := by
  refine ⟨0, ?_⟩
  subst h
  simp only [rrun]
  cases rstep D m <;> rfl

theorem To.trans {D : Dev} {m q : RS} {res : RRes} (h1 : To D m (.run q)) (h2 : To D q res) : To D m res := by
  obtain ⟨n, h1⟩ := h1
  obtain ⟨k, h2⟩ := h2
  refine ⟨n + 1 + k, ?_⟩
  rw [Nat.add_assoc, rrun_add, h1]
  exact h2

theorem To.step {D : Dev} {m q : RS} {res : RRes} (h1 : rstep D m = .run q) (h2 : To D q res) : To D m res :=
  .trans (.one h1) h2

/-- The reader stops without a result. -/
def Stops (D : Dev) (m : RS) : Prop := To D m .error ∨ To D m .ub ∨ To D m .unmodelled

theorem Stops.trans {D : Dev} {m q : RS} (h1 : To D m (.run q)) (h2 : Stops D q) : Stops D m :=
  h2.imp h1.trans (Or.imp h1.trans h1.trans)

theorem Stops.step {D : Dev} {m q : RS} (h1 : rstep D m = .run q) (h2 : Stops D q) : Stops D m := .trans (.one h1) h2

/-! ## Tokens -/

/-- The next token apart from constant markers. -/
inductive Next : Stream → Token → Stream → Prop
  | tok {s s' k} : Tok.nextToken s = (.token k, s') → isMark k = false → Next s k s'
  | mark {s s1 s' k k'} : Tok.nextToken s = (.token k', s1) → isMark k' = true → Next s1 k s' → Next s k s'

/-- There is no further token. -/
inductive AtEnd : Stream → Tok.Out → Stream → Prop
  | stop {s s' o} : Tok.nextToken s = (o, s') → (∀ k, o ≠ .token k) → AtEnd s o s'
  | mark {s s1 s' o k'} : Tok.nextToken s = (.token k', s1) → isMark k' = true → AtEnd s1 o s' → AtEnd s o s'

/-- The next tokens. -/
def Took : Stream → List Token → Stream → Prop
  | s, [], s' => s = s'
  | s, k :: ts, s' => ∃ s1, Next s k s1 ∧ Took s1 ts s'

theorem Took.append {s s' s'' : Stream} {a b : List Token} : Took s a s' → Took s' b s'' → Took s (a ++ b) s'' := by
  induction a generalizing s with
  | nil => intro h1 h2; cases h1; exact h2
  | cons k a ih => rintro ⟨s1, h1, h3⟩ h2; exact ⟨s1, h1, ih h3 h2⟩

theorem Took.split {s s'' : Stream} {a b : List Token} : Took s (a ++ b) s'' → ∃ s', Took s a s' ∧ Took s' b s'' := by
  induction a generalizing s with
  | nil => intro h; exact ⟨s, rfl, h⟩
  | cons k a ih =>
    rintro ⟨s1, h1, h3⟩
    obtain ⟨s', h4, h5⟩ := ih h3
    exact ⟨s', ⟨s1, h1, h4⟩, h5⟩

theorem Took.one {s s' : Stream} {k : Token} : Took s [k] s' ↔ Next s k s' :=
  ⟨fun ⟨_, h1, h2⟩ => by cases h2; exact h1, fun h => ⟨s', h, rfl⟩⟩

theorem next_facts {s s' : Stream} {k : Token} (h : Next s k s') (hs : s.ended = true) :
    s'.ended = true ∧ s'.avail.length < s.avail.length := by
  induction h with
  | @tok s s' k h _ =>
    have := Tok.nextToken_closed s hs
    rw [h] at this
    exact ⟨this.2.2.1, this.2.2.2 _ rfl⟩
  | @mark s s1 s' k k' h _ _ ih =>
    have := Tok.nextToken_closed s hs
    rw [h] at this
    have h2 := ih this.2.2.1
    have := this.2.2.2 _ rfl
    exact ⟨h2.1, by simp only at this; omega⟩

/-- There is a token or there is none. -/
theorem next_or_end (n : Nat) : ∀ s : Stream, s.ended = true → s.avail.length ≤ n → (∃ k s', Next s k s') ∨
    ∃ s', AtEnd s .finished s' ∨ AtEnd s .error s' ∨ AtEnd s .ub s' := by
  induction n using Nat.strongRecOn with
  | ind n ih =>
    intro s hs hn
    have hc := Tok.nextToken_closed s hs
    rcases ht : Tok.nextToken s with ⟨o, s'⟩
    rw [ht] at hc
    cases o with
    | token k =>
      cases hk : isMark k with
      | false => exact .inl ⟨k, s', .tok ht hk⟩
      | true =>
        have hl := hc.2.2.2 k rfl
        simp only at hl
        rcases ih s'.avail.length (by omega) s' hc.2.2.1 (Nat.le_refl _) with ⟨k1, s1, h1⟩ | ⟨s1, h1⟩
        · exact .inl ⟨k1, s1, .mark ht hk h1⟩
        · exact .inr ⟨s1, h1.imp (.mark ht hk) (Or.imp (.mark ht hk) (.mark ht hk))⟩
    | again => exact absurd rfl hc.1
    | fuel => exact absurd rfl hc.2.1
    | finished => exact .inr ⟨s', .inl (.stop ht (fun _ h => by cases h))⟩
    | error => exact .inr ⟨s', .inr (.inl (.stop ht (fun _ h => by cases h)))⟩
    | ub => exact .inr ⟨s', .inr (.inr (.stop ht (fun _ h => by cases h)))⟩

theorem nextToken_finished {s s' : Stream} (h : Tok.nextToken s = (.finished, s')) : s'.avail = [] := by
  have hd : ∀ p f, (Tok.dispatch p f).1 ≠ .finished := Tok.dispatch_ne_finished
  unfold Tok.nextToken at h
  split at h
  · next he =>
    cases h
    cases ha : s.avail with
    | nil => rfl
    | cons => rw [ha] at he; simp at he
  · split at h
    · cases h
    · split at h
      · next he =>
        cases h
        cases ha : s'.avail with
        | nil => rfl
        | cons => rw [ha] at he; simp at he
      · exact absurd (congrArg Prod.fst h) (hd _ _)

theorem atEnd_finished {s s' : Stream} (h : AtEnd s .finished s') : s'.avail = [] := by
  generalize ho : Tok.Out.finished = o at h
  induction h with
  | stop h _ => subst ho; exact nextToken_finished h
  | mark _ _ _ ih => exact ih ho

/-! ### The public form -/

theorem lexes_raw {s s' : Stream} {ts : List Token} (h : Took s ts s') : ∀ {ts' o}, Tok.Lexes s' ts' o →
    ∃ raw, Tok.Lexes s raw o ∧ raw.filter (!isMark ·) = ts ++ ts'.filter (!isMark ·) := by
  have one : ∀ {s k s'}, Next s k s' → ∀ {ts' o}, Tok.Lexes s' ts' o →
      ∃ raw, Tok.Lexes s raw o ∧ raw.filter (!isMark ·) = k :: ts'.filter (!isMark ·) := by
    intro s k s' h
    induction h with
    | tok h hk => intro ts' o hl; exact ⟨_, .tok h hl, by simp [hk]⟩
    | mark h hk _ ih =>
      intro ts' o hl
      obtain ⟨raw, h1, h2⟩ := ih hl
      exact ⟨_, .tok h h1, by simp [hk, h2]⟩
  induction ts generalizing s with
  | nil => intro ts' o hl; cases h; exact ⟨_, hl, rfl⟩
  | cons k ts ih =>
    obtain ⟨s1, h1, h2⟩ := h
    intro ts' o hl
    obtain ⟨raw, h3, h4⟩ := ih h2 hl
    obtain ⟨raw', h5, h6⟩ := one h1 h3
    exact ⟨raw', h5, by rw [h6, h4]; rfl⟩

theorem lexes_end {s s' : Stream} {o : Tok.Out} (h : AtEnd s o s') :
    ∃ raw, Tok.Lexes s raw o ∧ raw.filter (!isMark ·) = [] := by
  induction h with
  | stop h ho => exact ⟨[], .stop h ho, rfl⟩
  | mark h hk _ ih =>
    obtain ⟨raw, h1, h2⟩ := ih
    exact ⟨_, .tok h h1, by simp [hk, h2]⟩

/-- The tokens of a text come one after the other. -/
theorem took_of_lexes {s : Stream} {raw : List Token} {o : Tok.Out} (h : Tok.Lexes s raw o) : ∀ {ts ts' : List Token},
    raw.filter (!isMark ·) = ts ++ ts' → ∃ s' raw', Took s ts s' ∧ Tok.Lexes s' raw' o ∧ raw'.filter (!isMark ·) = ts' := by
  induction h with
  | stop h ho =>
    intro ts ts' e
    have : ts = [] ∧ ts' = [] := by simpa using e.symm
    obtain ⟨rfl, rfl⟩ := this
    exact ⟨_, [], rfl, .stop h ho, rfl⟩
  | tok h hr ih =>
    rename_i s s1 k raw o
    intro ts ts' e
    cases ts with
    | nil => exact ⟨s, _, rfl, .tok h hr, e⟩
    | cons k' ts =>
      cases hk : isMark k with
      | false =>
        simp only [List.filter_cons, hk, Bool.not_false, if_true, List.cons_append, List.cons.injEq] at e
        obtain ⟨rfl, e⟩ := e
        obtain ⟨s', raw', h1, h2, h3⟩ := ih e
        exact ⟨s', raw', ⟨s1, .tok h hk, h1⟩, h2, h3⟩
      | true =>
        simp only [List.filter_cons, hk, Bool.not_true, Bool.false_eq_true, if_false] at e
        obtain ⟨s', raw', ⟨s2, h0, h1⟩, h2, h3⟩ := ih e
        exact ⟨s', raw', ⟨s2, .mark h hk h0, h1⟩, h2, h3⟩

theorem end_of_lexes {s : Stream} {raw : List Token} {o : Tok.Out} (h : Tok.Lexes s raw o)
    (e : raw.filter (!isMark ·) = []) : ∃ s', AtEnd s o s' := by
  induction h with
  | stop h ho => exact ⟨_, .stop h ho⟩
  | tok h hr ih =>
    rename_i s s1 k raw o
    cases hk : isMark k with
    | false => simp [List.filter_cons, hk] at e
    | true =>
      simp only [List.filter_cons, hk, Bool.not_true, Bool.false_eq_true, if_false] at e
      obtain ⟨s', h'⟩ := ih e
      exact ⟨s', .mark h hk h'⟩

/-! ## Names -/

/-- The name of a symbol token. -/
def TokName (x : List Byte) : Prop := x ≠ [] ∧ x.length ≤ 255 ∧ (0 : Byte) ∉ x ∧ x.head? ≠ some 91

theorem char_facts : ∀ c : Byte, (Tok.symChar c = true → Tok.toLower c ≠ 0) ∧
    (Tok.symChar0 c = true → Tok.toLower c ≠ 0 ∧ Tok.toLower c ≠ 91) := by decide +kernel

theorem symLoop_name {p : Nat → Tok.Peek} : ∀ (f len : Nat) (out : List Byte), TokName out → out.length = len → ∀ {r},
    Tok.symLoop p f len out = .ok r → TokName r.2 := by
  intro f
  induction f with
  | zero => intro len out _ _ r h; cases h
  | succ f ih =>
    intro len out ho hl r h
    simp only [Tok.symLoop] at h
    split at h
    · next c hc =>
      split at h
      · next hs =>
        split at h
        · cases h
        · refine ih (len + 1) _ ⟨by simp, ?_, ?_, ?_⟩ (by simp [hl]) h
          · simp only [List.length_append, List.length_singleton]; omega
          · simp only [List.mem_append, List.mem_singleton, not_or]
            exact ⟨ho.2.2.1, fun e => (char_facts c).1 hs e.symm⟩
          · cases out with
            | nil => exact absurd rfl ho.1
            | cons a out => exact ho.2.2.2
      · cases h; exact ho
    · cases h
    · cases h; exact ho

theorem tokSymbol_name {p : Nat → Tok.Peek} {f : Nat} {r : Nat × List Byte} (h : Tok.tokSymbol p f = .ok r) : TokName r.2 := by
  unfold Tok.tokSymbol at h
  cases hp : Tok.peekTok p 0 with
  | ok c =>
    rw [hp] at h
    replace h : (if (!Tok.symChar0 c) = true then Tok.R.none else Tok.symLoop p f 1 [Tok.toLower c]) = .ok r := h
    split at h
    · cases h
    · next hc =>
      have hc : Tok.symChar0 c = true := by simpa using hc
      have := (char_facts c).2 hc
      refine symLoop_name f 1 _ ⟨by simp, by simp, ?_, ?_⟩ rfl h
      · simpa using Ne.symm this.1
      · simpa using this.2
  | _ => rw [hp] at h; cases h

theorem dispatch_name {p : Nat → Tok.Peek} {f : Nat} {x : List Byte} (h : (Tok.dispatch p f).1 = .token (.symbol x)) : TokName x := by
  have key : ∀ {α : Type} {r : Tok.R α} {use : α → Tok.Out × Nat} {e : Tok.Out × Nat},
      (Tok.orElse r use e).1 = .token (.symbol x) → (∃ a, r = .ok a ∧ (use a).1 = .token (.symbol x)) ∨ e.1 = .token (.symbol x) := by
    intro α r use e h
    cases r with
    | ok a => exact .inl ⟨a, rfl, h⟩
    | none => exact .inr h
    | _ => cases h
  unfold Tok.dispatch at h
  rcases key h with ⟨a, _, h⟩ | h
  · cases h
  rcases key h with ⟨a, _, h⟩ | h
  · cases h
  rcases key h with ⟨a, _, h⟩ | h
  · simp only [Tok.floatOut] at h
    split at h <;> cases h
  rcases key h with ⟨a, _, h⟩ | h
  · simp only [Tok.intOut] at h
    split at h <;> cases h
  rcases key h with ⟨a, ha, h⟩ | h
  · cases h; exact tokSymbol_name ha
  rcases key h with ⟨a, _, h⟩ | h
  · cases h
  · cases h

theorem nextToken_name {s s' : Stream} {x : List Byte} (h : Tok.nextToken s = (.token (.symbol x), s')) : TokName x := by
  unfold Tok.nextToken at h
  split at h
  · cases h
  · split at h
    · cases h
    · split at h
      · cases h
      · exact dispatch_name (congrArg Prod.fst h)

theorem next_name {s s' : Stream} {k : Token} (h : Next s k s') : ∀ x, k = .symbol x → TokName x := by
  induction h with
  | tok h _ => rintro x rfl; exact nextToken_name h
  | mark _ _ _ ih => exact ih

theorem next_not_mark {s s' : Stream} {k : Token} (h : Next s k s') : isMark k ≠ true := by
  induction h with
  | tok _ hk => rw [hk]; simp
  | mark _ _ _ ih => exact ih

theorem name_cstr {x : List Byte} (h : TokName x) : Sym.CStr (x.map BitVec.toNat) := by
  intro h0
  obtain ⟨c, hc, e⟩ := List.mem_map.1 h0
  have : c = 0 := BitVec.eq_of_toNat_eq e
  exact h.2.2.1 (this ▸ hc)

/-- The markers of the reader have names that are no symbol tokens. -/
theorem special_marks : (Sym.specialTable.all fun e => !(decide (0x70 ≤ e.2) && decide (e.2 ≤ 0x85)) || e.1.head? == some 91) = true := by
  decide +kernel

theorem name_not_mark {tab : Sym.Tab} (hi : Sym.Inv tab) {x : List Byte} (hx : TokName x) {id : Nat}
    (h : Sym.getByName tab (x.map BitVec.toNat) = some id) : isTokSym (.sym id) = false := by
  cases hb : isTokSym (.sym id) with
  | false => rfl
  | true =>
    simp only [isTokSym, Bool.and_eq_true, decide_eq_true_eq] at hb
    rcases Sym.getByName_some hi (name_cstr hx) h with h | ⟨k, f, _, e⟩ | h
    · have := List.all_eq_true.1 special_marks _ h
      simp only [hb.1, hb.2, decide_true, Bool.and_self, Bool.not_true, Bool.false_or, beq_iff_eq] at this
      refine absurd ?_ hx.2.2.2
      cases x with
      | nil => simp at this
      | cons c x =>
        simp only [List.map_cons, List.head?_cons, Option.some.injEq] at this
        have : c = 91 := BitVec.eq_of_toNat_eq this
        rw [this]; rfl
    · have : Sym.extStart = 0x10000 := rfl
      omega
    · have := (hi.symRange _ _ h).1
      have e : Sym.runtimeStart = 0x40000 := rfl
      omega

/-! ## Symbol tables -/

/-- The table after the names among the tokens have been read. -/
def Enters : Sym.Tab → List Token → Sym.Tab → Prop
  | tab, [], tab' => tab = tab'
  | tab, k :: ts, tab' => ∃ tab1, (match k with
      | .symbol x => ∃ id, Sym.readSymbol tab (x.map BitVec.toNat) false true true = (tab1, some id)
      | _ => tab1 = tab) ∧ Enters tab1 ts tab'

theorem Enters.split {a b : List Token} {t t'' : Sym.Tab} : Enters t (a ++ b) t'' → ∃ t', Enters t a t' ∧ Enters t' b t'' := by
  induction a generalizing t with
  | nil => intro h; exact ⟨t, rfl, h⟩
  | cons k a ih =>
    rintro ⟨t1, h1, h3⟩
    obtain ⟨t', h4, h5⟩ := ih h3
    exact ⟨t', ⟨t1, h1, h4⟩, h5⟩

theorem enters_unique {ts : List Token} {t t1 t2 : Sym.Tab} (h1 : Enters t ts t1) (h2 : Enters t ts t2) : t1 = t2 := by
  induction ts generalizing t with
  | nil => cases h1; exact h2
  | cons k ts ih =>
    obtain ⟨u1, a1, b1⟩ := h1
    obtain ⟨u2, a2, b2⟩ := h2
    have : u1 = u2 := by
      cases k with
      | symbol x =>
        obtain ⟨_, e1⟩ := a1
        obtain ⟨_, e2⟩ := a2
        rw [e1] at e2
        exact congrArg Prod.fst e2
      | _ => exact Eq.trans a1 (Eq.symm a2)
    subst this
    exact ih b1 b2

/-- The tables of a reader. -/
structure Later (tab tab' : Sym.Tab) : Prop where
  inv : Sym.Inv tab'
  grow : Sym.Grow tab tab'

theorem Later.trans {a b c : Sym.Tab} (h1 : Later a b) (h2 : Later b c) : Later a c := ⟨h2.inv, h1.grow.trans h2.grow⟩

/-- All names of an expression are names of tokens. -/
def X.Names : X → Prop
  | .name s => TokName s
  | .cons a d => a.Names ∧ d.Names
  | _ => True

theorem known_later {tab tab' : Sym.Tab} (hi : Sym.Inv tab) (h : Later tab tab') : ∀ {x : X}, x.Names → x.Known tab →
    x.Known tab' ∧ x.tree tab' = x.tree tab := by
  intro x
  induction x with
  | name s =>
    intro hn hk
    obtain ⟨id, e⟩ := Option.isSome_iff_exists.1 hk
    have e' := (Sym.getByName_iff h.inv (name_cstr hn)).2 (h.grow.has _ _ (Sym.getByName_some hi (name_cstr hn) e))
    exact ⟨by simp only [X.Known, e', Option.isSome_some], by simp only [X.tree, e, e']⟩
  | cons a d iha ihd =>
    intro hn hk
    obtain ⟨a1, a2⟩ := iha hn.1 hk.1
    obtain ⟨d1, d2⟩ := ihd hn.2 hk.2
    exact ⟨⟨a1, d1⟩, by simp only [X.tree, a2, d2]⟩
  | _ => intro _ _; exact ⟨trivial, rfl⟩

/-! ## One token -/

/-- What the reader does with a token. -/
def tokStep (D : Dev) (m : RS) (K : List RF) (t : Token) : RRes :=
  match t with
    | .syntax t => syntaxToken m K t
    | .string x =>
      let e := m.alloc .array (.bytes (x ++ [0]))
      .run { e.1 with K := K, r := e.2 }
    | .float ty x =>
      let e := m.number D (if ty = 107 then .float else .double) (D.strtod ty x)
      .run { e.1 with K := K, r := e.2 }
    | .int ty neg x =>
      match tokNTy ty with
      | some t => let e := m.number D t (intVal D.b neg x t); .run { e.1 with K := K, r := e.2 }
      | none => .error
    | .symbol x =>
      let e := Sym.readSymbol m.tab (x.map BitVec.toNat) false true true
      match e.2 with
      | some id => .run { m with tab := e.1, K := K, r := .sym id }
      | none => .error
    | .char x => .run { m with K := K, r := .imm .char x.toNat }

section
variable {D : Dev} {tot : Nat}

theorem to_next {s s' : Stream} {k : Token} (h : Next s k s') {hp : Heap} {n : Nat} {tab : Sym.Tab} {K : List RF} {r : Val} :
    To D ⟨hp, n, tab, s, tot, .next :: K, r⟩ (tokStep D ⟨hp, n, tab, s', tot, .next :: K, r⟩ K k) := by
  induction h with
  | tok h hk =>
    refine .one ?_
    simp only [rstep, nextStep, h]
    rfl
  | mark h hk _ ih =>
    refine .step ?_ ih
    simp only [rstep, nextStep, h]
    rename_i k' _ _
    revert hk
    unfold isMark
    split
    · intro _; rfl
    · intro _; rfl
    · intro h; cases h

theorem to_end {s s' : Stream} {o : Tok.Out} (h : AtEnd s o s') {hp : Heap} {n : Nat} {tab : Sym.Tab} {K : List RF} {r : Val} :
    (o = .finished → To D ⟨hp, n, tab, s, tot, .next :: K, r⟩ (readFinish ⟨hp, n, tab, s', tot, K, r⟩)) ∧
    (o = .error → To D ⟨hp, n, tab, s, tot, .next :: K, r⟩ .error) ∧
    (o = .ub → To D ⟨hp, n, tab, s, tot, .next :: K, r⟩ .ub) := by
  induction h with
  | stop h ho =>
    refine ⟨?_, ?_, ?_⟩ <;> (rintro rfl; refine .one ?_; simp only [rstep, nextStep, h])
  | mark h hk _ ih =>
    rename_i s0 s1 s2 o k' _
    have h1 : rstep D ⟨hp, n, tab, s0, tot, .next :: K, r⟩ = .run ⟨hp, n, tab, s1, tot, .next :: K, r⟩ := by
      simp only [rstep, nextStep, h]
      revert hk
      unfold isMark
      split
      · intro _; rfl
      · intro _; rfl
      · intro h; cases h
    exact ⟨fun h => .step h1 (ih.1 h), fun h => .step h1 (ih.2.1 h), fun h => .step h1 (ih.2.2 h)⟩

/-- `v`, in cells from `n` to `n'`, is `x`. -/
structure Read (n : Nat) (h : Heap) (tab : Sym.Tab) (n' : Nat) (h' : Heap) (tab' : Sym.Tab) (v : Val) (x : X) : Prop where
  le : n ≤ n'
  old : Old n h h'
  later : Later tab tab'
  names : x.Names
  known : x.Known tab'
  built : Built h' n n' v (x.tree tab')
  mark : isTokSym v = false

theorem number_built (m : RS) (t : NTy) (z : Int) : ∃ h' n' v, m.number D t z = ({ m with h := h', nxt := n' }, v) ∧ m.nxt ≤ n' ∧
    Old m.nxt m.h h' ∧ Built h' m.nxt n' v (.num t z) ∧ isTokSym v = false := by
  unfold RS.number
  split
  · exact ⟨m.h, m.nxt, _, rfl, Nat.le_refl _, fun _ _ _ => rfl, fun _ _ => .imm, rfl⟩
  · refine ⟨_, _, _, rfl, by omega, old_upd _ _ _ (Nat.le_refl _) _, fun h' hh => .boxed ?_, rfl⟩
    rw [hh m.nxt (by omega) (by omega)]
    exact if_pos ⟨rfl, rfl⟩

/-- A leaf is read, or the symbol table has no room for its name. -/
theorem leaf_step {k : Token} {x : X} (hk : leafOf D k = some x) (hn : ∀ y, k = .symbol y → TokName y) {h : Heap} {n : Nat}
    {tab : Sym.Tab} (hi : Sym.Inv tab) {s : Stream} {K0 K : List RF} {r : Val} :
    (∃ h' n' tab' v, tokStep D ⟨h, n, tab, s, tot, K0, r⟩ K k = .run ⟨h', n', tab', s, tot, K, v⟩ ∧ Enters tab [k] tab' ∧
      Read n h tab n' h' tab' v x) ∨
    (tokStep D ⟨h, n, tab, s, tot, K0, r⟩ K k = .error ∧ ¬ ∃ tab', Enters tab [k] tab') := by
  have hl : Later tab tab := ⟨hi, .refl _⟩
  cases k with
  | string y =>
    cases hk
    refine .inl ⟨upd h n (.bytes (y ++ [0])), n + 1, tab, .ptr .array false n, rfl, ⟨tab, rfl, rfl⟩, ⟨by omega, old_upd _ _ _ (Nat.le_refl _) _, hl, trivial, trivial, fun h' hh => .bytes ?_, rfl⟩⟩
    rw [hh n (by omega) (by omega)]
    exact if_pos ⟨rfl, rfl⟩
  | float ty y =>
    cases hk
    obtain ⟨h', n', v, e, h1, h2, h3, h4⟩ := number_built (D := D) ⟨h, n, tab, s, tot, K0, r⟩ (if ty = 107 then .float else .double) (D.strtod ty y)
    refine .inl ⟨h', n', tab, v, ?_, ⟨tab, rfl, rfl⟩, ⟨h1, h2, hl, trivial, trivial, h3, h4⟩⟩
    simp only [tokStep, e]
  | int ty neg y =>
    simp only [leafOf, Option.map_eq_some_iff] at hk
    obtain ⟨t, ht, rfl⟩ := hk
    obtain ⟨h', n', v, e, h1, h2, h3, h4⟩ := number_built (D := D) ⟨h, n, tab, s, tot, K0, r⟩ t (intVal D.b neg y t)
    refine .inl ⟨h', n', tab, v, ?_, ⟨tab, rfl, rfl⟩, ⟨h1, h2, hl, trivial, trivial, h3, h4⟩⟩
    simp only [tokStep, ht, e]
  | char c =>
    cases hk
    exact .inl ⟨h, n, tab, _, rfl, ⟨tab, rfl, rfl⟩, ⟨Nat.le_refl _, fun _ _ _ => rfl, hl, trivial, trivial, fun _ _ => .imm, rfl⟩⟩
  | symbol y =>
    cases hk
    have hy := hn y rfl
    have hc := name_cstr hy
    have hsp := Sym.readSymbol_spec hi hc false true true
    cases hid : (Sym.readSymbol tab (y.map BitVec.toNat) false true true).2 with
    | none =>
      refine .inr ⟨by simp only [tokStep, hid], ?_⟩
      rintro ⟨tab', t1, ⟨id, e⟩, _⟩
      rw [e] at hid
      cases hid
    | some id =>
      have hg := Sym.read_id hi hc hid
      refine .inl ⟨h, n, _, .sym id, by simp only [tokStep, hid], ⟨_, ⟨id, Prod.ext rfl hid⟩, rfl⟩,
        ⟨Nat.le_refl _, fun _ _ _ => rfl, ⟨hsp.1, hsp.2⟩, hy, ?_, ?_, name_not_mark hsp.1 hy hg⟩⟩
      · simp only [X.Known, hg, Option.isSome_some]
      · intro _ _
        simp only [X.tree, hg, Option.getD_some]
        exact .sym
  | «syntax» k =>
    have : k = 6 ∨ k = 11 := by
      unfold leafOf at hk
      split at hk <;> simp_all
    rcases this with rfl | rfl <;> cases hk <;>
      exact .inl ⟨h, n, tab, _, rfl, ⟨tab, rfl, rfl⟩, ⟨Nat.le_refl _, fun _ _ _ => rfl, hl, trivial, trivial, fun _ _ => .sym, by decide⟩⟩

end

end Verif.Print
