import Verif.Mbox.Spec

/-! C35, C36, C43 and C60: mailboxes and `recv`. -/

namespace Verif.Mbox
open Verif.Eq

variable {M : Type} {F : Flt}

/-! ### The array -/

theorem mail_length (m : Mbox M) : m.mail.length = m.num := by simp [Mbox.mail]

theorem mail_get (m : Mbox M) (i : Nat) (h : i < m.num) : m.mail[i]'(by rw [mail_length]; exact h) = m.slot i := by simp [Mbox.mail]

theorem mail_ext {m : Mbox M} {l : List M} (hl : l.length = m.num) (h : ∀ i (hi : i < l.length), l[i] = m.slot i) : m.mail = l := by
  apply List.ext_getElem
  · rw [mail_length, hl]
  · intro i h1 h2
    rw [mail_get m i (by omega), h i h2]

theorem shift_spec : ∀ (n i : Nat) (m : Mbox M), i + n < m.size → ∃ m', shift n i m = some m' ∧ m'.size = m.size ∧ m'.num = m.num ∧
    ∀ j, m'.slot j = if i ≤ j ∧ j < i + n then m.slot (j + 1) else m.slot j := by
  intro n
  induction n with
  | zero => intro i m _; exact ⟨m, rfl, rfl, rfl, fun j => by rw [if_neg (by omega)]⟩
  | succ n ih =>
    intro i m hm
    obtain ⟨m', e, h1, h2, h3⟩ := ih (i + 1) { m with slot := fun j => if j = i then m.slot (i + 1) else m.slot j } (by simp; omega)
    refine ⟨m', by rw [shift, if_pos (by omega)]; exact e, h1, h2, fun j => ?_⟩
    rw [h3 j]
    simp only
    by_cases hj : j = i
    · subst hj; rw [if_neg (by omega), if_pos rfl, if_pos (by omega)]
    · by_cases h4 : i + 1 ≤ j ∧ j < i + 1 + n
      · rw [if_pos h4, if_neg (by omega), if_pos (by omega)]
      · rw [if_neg h4, if_neg hj, if_neg (by omega)]

/-- Removing a message removes exactly that message. -/
theorem remove_spec {m : Mbox M} (h : m.WF) {ix : Nat} (hix : ix < m.num) :
    ∃ m', remove m ix = some m' ∧ m'.WF ∧ m'.size = m.size ∧ m'.mail = m.mail.eraseIdx ix := by
  obtain ⟨h1, h2⟩ := h
  obtain ⟨m', e, e1, e2, e3⟩ := shift_spec (m.num - 1 - ix) ix m (by omega)
  refine ⟨{ m' with num := m'.num - 1 }, ?_, ⟨?_, ?_⟩, e1, ?_⟩
  · unfold remove; rw [if_neg (by omega), e]; rfl
  · simp only; omega
  · simp only; omega
  · apply mail_ext
    · rw [List.length_eraseIdx_of_lt (by rw [mail_length]; exact hix), mail_length, e2]
    · intro i hi
      rw [List.length_eraseIdx_of_lt (by rw [mail_length]; exact hix), mail_length] at hi
      simp only
      rw [List.getElem_eraseIdx, e3 i]
      split
      · rw [if_neg (by omega), mail_get _ _ (by omega)]
      · rw [if_pos (by omega), mail_get _ _ (by omega)]

theorem store_spec {m : Mbox M} (h : m.num < m.size) (v : M) :
    ∃ m', store m v = some m' ∧ m'.WF ∧ m'.size = m.size ∧ m'.mail = m.mail ++ [v] := by
  refine ⟨{ m with slot := fun j => if j = m.num then v else m.slot j, num := m.num + 1 }, by unfold store; rw [if_pos h], ⟨?_, ?_⟩, rfl, ?_⟩
  · simp only; omega
  · simp only; omega
  · apply mail_ext
    · simp [mail_length]
    · intro i hi
      simp [mail_length] at hi
      simp only
      split
      · rename_i e; subst e; rw [List.getElem_append_right (by rw [mail_length]; omega)]; simp
      · rw [List.getElem_append_left (by rw [mail_length]; omega), mail_get _ _ (by omega)]

/-- **C35 (sending).** Sending never writes outside of the mailbox; the message becomes the newest one, and only when the mailbox is full the oldest is discarded. -/
theorem C35_send {m : Mbox M} (h : m.WF) (v : M) :
    ∃ m', add m v = some m' ∧ m'.WF ∧ m'.size = m.size ∧ m'.mail = (if m.mail.length < m.size then m.mail else m.mail.tail) ++ [v] := by
  rw [mail_length]
  unfold add
  by_cases hf : m.num ≥ m.size
  · rw [if_pos hf, if_neg (by omega)]
    have := h.2
    obtain ⟨m1, e, w, s, l⟩ := remove_spec h (ix := 0) (by omega)
    rw [e]
    have hlen : m1.num < m1.size := by
      rw [← mail_length m1, l, s, List.length_eraseIdx_of_lt (by rw [mail_length]; omega), mail_length]
      have := h.1
      omega
    obtain ⟨m2, e2, w2, s2, l2⟩ := store_spec hlen v
    exact ⟨m2, e2, w2, by rw [s2, s], by rw [l2, l, List.eraseIdx_zero]⟩
  · rw [if_neg hf, if_pos (by omega)]
    exact store_spec (by omega) v

/-- Sending one message after the other. -/
def addAll : Mbox M → List M → Option (Mbox M)
  | m, [] => some m
  | m, v :: vs => match add m v with
    | none => none
    | some m' => addAll m' vs

/-- **C35 (order, newest kept).** After any sequence of messages the mailbox holds the newest ones, as many as fit, in the order they were sent. -/
theorem C35_newest : ∀ {m : Mbox M}, m.WF → ∀ vs, ∃ m', addAll m vs = some m' ∧ m'.WF ∧ m'.size = m.size ∧
    m'.mail = (m.mail ++ vs).drop (m.mail.length + vs.length - m.size) := by
  intro m h vs
  induction vs generalizing m with
  | nil =>
    have h1 := h.1
    refine ⟨m, rfl, h, rfl, ?_⟩
    rw [mail_length]
    simp only [List.append_nil, List.length_nil, Nat.add_zero]
    rw [show m.num - m.size = 0 by omega, List.drop_zero]
  | cons v vs ih =>
    obtain ⟨m1, e, w, s, l⟩ := C35_send h v
    obtain ⟨m2, e2, w2, s2, l2⟩ := ih w
    have hn := h.1
    rw [← mail_length m] at hn
    refine ⟨m2, by rw [addAll, e]; exact e2, w2, by rw [s2, s], ?_⟩
    rw [l2, l, s]
    by_cases hf : m.mail.length < m.size
    · rw [if_pos hf]
      simp only [List.append_assoc, List.singleton_append, List.length_append, List.length_cons, List.length_nil]
      congr 1; omega
    · rw [if_neg hf]
      have hne : m.mail ≠ [] := by
        intro e; rw [e] at hf; have := h.2; simp at hf; omega
      obtain ⟨a, q, eq⟩ := List.exists_cons_of_ne_nil hne
      rw [eq]
      rw [eq] at hf hn
      simp only [List.length_cons] at hf hn
      simp only [List.tail_cons, List.append_assoc, List.singleton_append, List.length_append, List.length_cons, List.length_nil, List.cons_append]
      rw [show q.length + 1 + (vs.length + 1) - m.size = (q.length + (0 + 1) + vs.length - m.size) + 1 by omega, List.drop_succ_cons, List.nil_append]

/-! ### Changing the size -/

theorem copyMail_spec (old : Nat → M) (size : Nat) : ∀ (n i : Nat) (s : Nat → M),
    (i + n ≤ size → ∃ s', copyMail old size n i s = some s' ∧ ∀ j, s' j = if i ≤ j ∧ j < i + n then old j else s j) ∧
    (size < i + n → i ≤ size → copyMail old size n i s = none) := by
  intro n
  induction n with
  | zero => intro i s; exact ⟨fun _ => ⟨s, rfl, fun j => by rw [if_neg (by omega)]⟩, fun h1 h2 => by omega⟩
  | succ n ih =>
    intro i s
    constructor
    · intro h
      obtain ⟨s', e, h1⟩ := (ih (i + 1) (fun j => if j = i then old i else s j)).1 (by omega)
      refine ⟨s', by rw [copyMail, if_pos (by omega)]; exact e, fun j => ?_⟩
      rw [h1 j]
      by_cases hj : j = i
      · subst hj; rw [if_neg (by omega), if_pos rfl, if_pos (by omega)]
      · by_cases h2 : i + 1 ≤ j ∧ j < i + 1 + n
        · rw [if_pos h2, if_pos (by omega)]
        · rw [if_neg h2, if_neg hj, if_neg (by omega)]
    · intro h h2
      rw [copyMail]
      split
      · exact (ih (i + 1) _).2 (by omega) (by omega)
      · rfl

/-- **C36 (partial).** A size that is large enough for the pending messages keeps all of them, in order. (Full property: any size; see the violation.) -/
theorem C36_resize_partial {m : Mbox M} {newSize : Nat} (fresh : Nat → M) (hn : m.mail.length ≤ newSize) (h0 : 0 < newSize) :
    ∃ m', changeSize m newSize fresh = some m' ∧ m'.WF ∧ m'.size = newSize ∧ m'.mail = m.mail := by
  rw [mail_length] at hn
  obtain ⟨s', e, h⟩ := (copyMail_spec m.slot newSize m.num 0 fresh).1 (by omega)
  refine ⟨⟨s', newSize, m.num⟩, by unfold changeSize; rw [e]; rfl, ⟨hn, h0⟩, rfl, ?_⟩
  apply mail_ext
  · exact mail_length m
  · intro i hi
    rw [mail_length] at hi
    rw [mail_get m i hi]
    show m.slot i = s' i
    rw [h i, if_pos (by omega)]

/-- **C36 fails.** Whenever more messages are pending than the new size, `set-mailbox-size` writes outside of the new mailbox. -/
theorem C36_resize_violated {m : Mbox M} {newSize : Nat} (fresh : Nat → M) (hn : newSize < m.mail.length) : changeSize m newSize fresh = none := by
  rw [mail_length] at hn
  unfold changeSize
  rw [(copyMail_spec m.slot newSize m.num 0 fresh).2 (by omega) (by omega)]
  rfl

/-! ### Matching -/

theorem vars_eq (p : T) : vars p = match binderVar p with
    | some v => [v]
    | none => match p with
      | .cons hp tp => vars hp ++ vars tp
      | _ => [] := by
  cases p with
  | cons a d => rw [vars]; cases binderVar (.cons a d) <;> rfl
  | _ => rfl

theorem matchP_binder {p v : T} (h : binderVar p = some v) (e : T) (s : MSt) : matchP F p e s = bind s v e := by
  rw [matchP.eq_def]; simp only [h]

theorem pm_binder {p v : T} (h : binderVar p = some v) (e : T) : pm F p e = some [(v, e)] := by
  rw [pm.eq_def]; simp only [h]

theorem matchP_cons {a d : T} (h : binderVar (.cons a d) = none) (x y : T) (s : MSt) :
    matchP F (.cons a d) (.cons x y) s = if (matchP F a x s).1 then matchP F d y (matchP F a x s).2 else matchP F a x s := by
  rw [matchP.eq_def]; simp only [h]

theorem pm_cons {a d : T} (h : binderVar (.cons a d) = none) (x y : T) :
    pm F (.cons a d) (.cons x y) = match pm F a x with
      | none => none
      | some b => (pm F d y).map (b ++ ·) := by
  rw [pm.eq_def]; simp only [h]; cases pm F a x <;> rfl

/-- With enough cells, `match` decides `pm`; it adds the bindings of a match to the environment, and some bindings of variables of the pattern also if it fails. -/
def MatchOk (F : Flt) (p e : T) (s : MSt) : Prop :=
  (matchP F p e s).1 = (pm F p e).isSome ∧ (matchP F p e s).2.gc = false ∧ s.free ≤ (matchP F p e s).2.free + 2 * (vars p).length ∧
    (∀ b, pm F p e = some b → (matchP F p e s).2.env = b.reverse ++ s.env ∧ b.map (·.1) = vars p) ∧
    (∃ j, (matchP F p e s).2.env = j ++ s.env ∧ ∀ x ∈ j, x.1 ∈ vars p)

theorem matchOk_leaf {p e : T} {s : MSt} {t : Bool} (hg : s.gc = false) (hm : matchP F p e s = (t, s)) (hp : pm F p e = if t then some [] else none)
    (hv : t = true → vars p = []) : MatchOk F p e s := by
  unfold MatchOk
  rw [hm, hp]
  cases t with
  | true => rw [hv rfl]; exact ⟨rfl, hg, by simp, fun b h => by cases h; simp, [], rfl, by simp⟩
  | false => exact ⟨rfl, hg, by simp, fun b h => (by cases h), [], rfl, by simp⟩

theorem matchP_spec : ∀ (p e : T) (s : MSt), s.gc = false → 2 * (vars p).length ≤ s.free → MatchOk F p e s
  | p, e, s, hg, hf => by
    cases hb : binderVar p with
    | some v =>
      have hv : vars p = [v] := by rw [vars_eq, hb]
      rw [hv] at hf
      simp only [List.length_singleton] at hf
      unfold MatchOk
      rw [hv, matchP_binder hb, pm_binder hb, bind, if_pos hf]
      exact ⟨rfl, rfl, by simp; omega, fun b h => by cases h; simp, [(v, e)], rfl, by simp⟩
    | none =>
      cases p with
      | sym k =>
        by_cases hd : k = symDontcare
        · refine matchOk_leaf (t := true) hg ?_ ?_ (fun _ => rfl)
          · rw [matchP.eq_def]; simp only [hb, if_pos hd]
          · rw [pm.eq_def]; simp only [hb, if_pos hd]; rfl
        · refine matchOk_leaf (t := same F (.sym k) e) hg ?_ ?_ (fun _ => rfl)
          · rw [matchP.eq_def]; simp only [hb, if_neg hd]; cases e <;> simp [same]
          · rw [pm.eq_def]; simp only [hb, if_neg hd]
      | cons hp tp =>
        have hv : vars (.cons hp tp) = vars hp ++ vars tp := by rw [vars_eq, hb]
        cases e with
        | cons he te =>
          rw [hv, List.length_append] at hf
          obtain ⟨a1, a2, a3, a4, j, a5, a6⟩ := matchP_spec hp he s hg (by omega)
          unfold MatchOk
          rw [matchP_cons hb, pm_cons hb, hv, List.length_append]
          cases h1 : pm F hp he with
          | none =>
            rw [h1] at a1
            rw [if_neg (by simp [a1])]
            exact ⟨a1, a2, by omega, fun b h => (by cases h), j, a5, fun x hx => List.mem_append_left _ (a6 x hx)⟩
          | some a =>
            rw [h1] at a1
            have a1 : (matchP F hp he s).1 = true := a1
            rw [if_pos a1]
            obtain ⟨b1, b2, b3, b4, j', b5, b6⟩ := matchP_spec tp te (matchP F hp he s).2 a2 (by omega)
            obtain ⟨c1, c2⟩ := a4 a h1
            refine ⟨?_, b2, by omega, fun b h => ?_, j' ++ j, by rw [b5, a5]; simp, fun x hx => ?_⟩
            · rw [b1]; cases pm F tp te <;> rfl
            · cases h2 : pm F tp te with
              | none => rw [h2] at h; cases h
              | some d =>
                rw [h2] at h; cases h
                obtain ⟨d1, d2⟩ := b4 d h2
                rw [d1, c1]
                simp [c2, d2]
            · rcases List.mem_append.1 hx with hx | hx
              · exact List.mem_append_right _ (b6 x hx)
              · exact List.mem_append_left _ (a6 x hx)
        | _ =>
          refine matchOk_leaf (t := false) hg ?_ ?_ (fun h => by cases h)
          · rw [matchP.eq_def]; simp only [hb]; rfl
          · rw [pm.eq_def]; simp only [hb]; rfl
      | num t z =>
        refine matchOk_leaf (t := same F (.num t z) e) hg ?_ ?_ (fun _ => rfl)
        · rw [matchP.eq_def]; simp only [hb]
        · rw [pm.eq_def]; simp only [hb]
      | bytes l =>
        refine matchOk_leaf (t := same F (.bytes l) e) hg ?_ ?_ (fun _ => rfl)
        · rw [matchP.eq_def]; simp only [hb]
        · rw [pm.eq_def]; simp only [hb]
      | arr l =>
        refine matchOk_leaf (t := same F (.arr l) e) hg ?_ ?_ (fun _ => rfl)
        · rw [matchP.eq_def]; simp only [hb]
        · rw [pm.eq_def]; simp only [hb]
      | obj n =>
        refine matchOk_leaf (t := same F (.obj n) e) hg ?_ ?_ (fun _ => rfl)
        · rw [matchP.eq_def]; simp only [hb]
        · rw [pm.eq_def]; simp only [hb]

/-- Bindings left over from clauses that did not match. -/
def Junk (cs : List Clause) (j : Env) : Prop := ∀ x ∈ j, ∃ c ∈ cs, x.1 ∈ vars c.pat

theorem junk_mono {cs ds : List Clause} {j : Env} (h : Junk cs j) (hs : ∀ c ∈ cs, c ∈ ds) : Junk ds j :=
  fun x hx => by obtain ⟨c, hc, hv⟩ := h x hx; exact ⟨c, hs c hc, hv⟩

theorem junk_append {cs : List Clause} {j k : Env} (h : Junk cs j) (h' : Junk cs k) : Junk cs (j ++ k) := by
  intro x hx
  rcases List.mem_append.1 hx with hx | hx
  · exact h x hx
  · exact h' x hx

theorem tryClauses_spec {e : T} : ∀ {cs : List Clause} {s : MSt}, s.gc = false → cost cs ≤ s.free →
    (tryClauses F e cs s).2.gc = false ∧ s.free ≤ (tryClauses F e cs s).2.free + cost cs ∧
    match (tryClauses F e cs s).1 with
    | none => ¬ Accepts F cs e ∧ ∃ j, (tryClauses F e cs s).2.env = j ++ s.env ∧ Junk cs j
    | some c => ∃ b j, First F e cs c b ∧ (tryClauses F e cs s).2.env = b.reverse ++ (j ++ s.env) ∧ Junk cs j := by
  intro cs
  induction cs with
  | nil => intro s hg _; exact ⟨hg, by simp [tryClauses], (by rintro ⟨c, hc, _⟩; cases hc), [], rfl, by simp [Junk]⟩
  | cons c cs ih =>
    intro s hg hf
    have hcost : cost (c :: cs) = 2 * (vars c.pat).length + cost cs := by simp [cost]
    rw [hcost] at hf ⊢
    obtain ⟨a1, a2, a3, a4, j, a5, a6⟩ := matchP_spec (F := F) c.pat e s hg (by omega)
    rw [tryClauses]
    cases hp : pm F c.pat e with
    | some b =>
      rw [hp] at a1
      have a1 : (matchP F c.pat e s).1 = true := a1
      rw [if_pos a1]
      exact ⟨a2, by simp only; omega, b, [], .here hp, by simpa using (a4 b hp).1, by simp [Junk]⟩
    | none =>
      rw [hp] at a1
      rw [if_neg (by simp [a1])]
      obtain ⟨b1, b2, b3⟩ := ih (s := (matchP F c.pat e s).2) a2 (by omega)
      refine ⟨b1, by omega, ?_⟩
      have hj : Junk (c :: cs) j := fun x hx => ⟨c, by simp, a6 x hx⟩
      cases hr : (tryClauses F e cs (matchP F c.pat e s).2).1 with
      | none =>
        rw [hr] at b3
        obtain ⟨h1, j', h2, h3⟩ := b3
        refine ⟨?_, j' ++ j, by rw [h2, a5]; simp, junk_append (junk_mono h3 (by simp_all)) hj⟩
        rintro ⟨d, hd, hs⟩
        rcases List.mem_cons.1 hd with rfl | hd
        · rw [hp] at hs; cases hs
        · exact h1 ⟨d, hd, hs⟩
      | some d =>
        rw [hr] at b3
        obtain ⟨b, j', h1, h2, h3⟩ := b3
        exact ⟨b, j' ++ j, .there hp h1, by rw [h2, a5]; simp, junk_append (junk_mono h3 (by simp_all)) hj⟩

theorem findLoop_spec {cs : List Clause} : ∀ {es : List T} {n : Nat} {s : MSt}, s.gc = false → es.length * cost cs ≤ s.free →
    ((∀ e ∈ es, ¬ Accepts F cs e) ∧ (findLoop F cs es n s).1 = .noMatch) ∨
    ∃ i e c b j, es[i]? = some e ∧ (∀ i' e', i' < i → es[i']? = some e' → ¬ Accepts F cs e') ∧ First F e cs c b ∧ Junk cs j ∧
      (findLoop F cs es n s).1 = (if isNil c.extra then .found (n + i) c.body else .patternError) ∧
      (findLoop F cs es n s).2.env = b.reverse ++ (j ++ s.env) := by
  intro es
  induction es with
  | nil => intro n s _ _; exact .inl ⟨by simp, rfl⟩
  | cons e es ih =>
    intro n s hg hf
    have hmul : (e :: es).length * cost cs = es.length * cost cs + cost cs := by simp [Nat.add_mul]
    rw [hmul] at hf
    obtain ⟨a1, a2, a3⟩ := tryClauses_spec (F := F) (e := e) (cs := cs) hg (by omega)
    rw [findLoop]
    cases hr : (tryClauses F e cs s).1 with
    | some c =>
      rw [hr] at a3
      obtain ⟨b, j, h1, h2, h3⟩ := a3
      refine .inr ⟨0, e, c, b, j, rfl, by intro i' _ h; omega, h1, h3, ?_, ?_⟩
      · simp only [a1]; simp only [Bool.false_eq_true, if_false, Nat.add_zero]; split <;> rfl
      · simp only [a1, Bool.false_eq_true, if_false]; split <;> exact h2
    | none =>
      rw [hr] at a3
      obtain ⟨h1, j, h2, h3⟩ := a3
      simp only
      rcases ih (n := n + 1) a1 (by omega) with ⟨g1, g2⟩ | ⟨i, e', c, b, j', g1, g2, g3, g4, g5, g6⟩
      · left
        refine ⟨fun x hx => ?_, g2⟩
        rcases List.mem_cons.1 hx with rfl | hx
        · exact h1
        · exact g1 x hx
      · right
        refine ⟨i + 1, e', c, b, j' ++ j, g1, ?_, g3, junk_append g4 h3, by rw [g5]; congr 2; omega, by rw [g6, h2]; simp⟩
        intro i' e'' hi he
        cases i' with
        | zero => cases he; exact h1
        | succ i' => exact g2 i' e'' (by omega) he

/-- **C35 (receiving).** With enough free memory, `recv` blocks exactly when no pending message matches any pattern. Otherwise it takes the oldest message that some pattern matches,
removes that message and keeps all others in order, and evaluates the body of the first pattern that matches (or reports an error if that clause has too many parts). -/
theorem C35_receive {cs : List Clause} {m : Mbox T} (h : m.WF) {env : Env} {free gcFree : Nat} (hfree : m.mail.length * cost cs ≤ free) :
    ((∀ e ∈ m.mail, ¬ Accepts F cs e) ∧ receive F cs m env free gcFree = some .block) ∨
    ∃ i e c b, m.mail[i]? = some e ∧ (∀ i' e', i' < i → m.mail[i']? = some e' → ¬ Accepts F cs e') ∧ First F e cs c b ∧
      if isNil c.extra then ∃ m' env', receive F cs m env free gcFree = some (.body m' c.body env') ∧ m'.WF ∧ m'.size = m.size ∧ m'.mail = m.mail.eraseIdx i
      else receive F cs m env free gcFree = some .patternError := by
  unfold receive
  by_cases h0 : m.num = 0
  · rw [if_pos h0]
    left
    refine ⟨fun e he => ?_, rfl⟩
    have : m.mail = [] := List.length_eq_zero_iff.1 (by rw [mail_length, h0])
    rw [this] at he; cases he
  · rw [if_neg h0]
    rcases findLoop_spec (F := F) (cs := cs) (es := m.mail) (n := 0) (s := ⟨env, false, free⟩) rfl hfree with ⟨g1, g2⟩ | ⟨i, e, c, b, j, g1, g2, g3, g4, g5, g6⟩
    · left
      refine ⟨g1, ?_⟩
      simp only [findMatch, g2]
    · right
      refine ⟨i, e, c, b, g1, g2, g3, ?_⟩
      by_cases hn : isNil c.extra = true
      · rw [if_pos hn] at g5 ⊢
        have hi : i < m.num := by
          rw [← mail_length m]
          by_cases hh : i < m.mail.length
          · exact hh
          · rw [List.getElem?_eq_none (by omega)] at g1; cases g1
        obtain ⟨m', e', w, s, l⟩ := remove_spec h hi
        refine ⟨m', (findMatch F cs m.mail env free).2.env, ?_, w, s, l⟩
        simp only [findMatch, g5]
        rw [Nat.zero_add, e']
        rfl
      · rw [if_neg hn] at g5 ⊢
        simp only [findMatch, g5]

theorem first_mem {e : T} {cs : List Clause} {c : Clause} {b : List (T × T)} (h : First F e cs c b) : c ∈ cs ∧ pm F c.pat e = some b := by
  induction h with
  | here h => exact ⟨by simp, h⟩
  | there _ _ ih => exact ⟨List.mem_cons_of_mem _ ih.1, ih.2⟩

theorem lookup_append (k : Nat) : ∀ (a b : Env), lookup k (a ++ b) = (lookup k a).or (lookup k b)
  | [], b => by simp [lookup]
  | (x, v) :: a, b => by
    have ih := lookup_append k a b
    cases x with
    | sym k' =>
      simp only [List.cons_append, lookup]
      split
      · rfl
      · exact ih
    | _ => simpa [lookup] using ih

theorem lookup_none {k : Nat} {a : Env} (h : ∀ x ∈ a, x.1 ≠ .sym k) : lookup k a = none := by
  induction a with
  | nil => rfl
  | cons x a ih =>
    obtain ⟨y, v⟩ := x
    have h1 := h (y, v) (by simp)
    have ih := ih fun x hx => h x (by simp [hx])
    cases y with
    | sym k' => rw [lookup, if_neg (by rintro rfl; exact h1 rfl)]; exact ih
    | _ => simpa [lookup] using ih

/-- **C43 (partial).** With enough free memory, the body that `recv` selects sees every variable of the selected pattern bound as that pattern says (the last occurrence wins), and every variable that occurs in no
pattern of this `recv` as before. (Full property: also the variables of the other patterns keep their values; see the violation.) -/
theorem C43_scope_partial {cs : List Clause} {m m' : Mbox T} {env env' : Env} {free gcFree : Nat} {body : T}
    (hfree : m.mail.length * cost cs ≤ free) (hr : receive F cs m env free gcFree = some (.body m' body env')) :
    ∃ (i : Nat) (e : T) (c : Clause) (b : List (T × T)), m.mail[i]? = some e ∧ First F e cs c b ∧ body = c.body ∧ pm F c.pat e = some b ∧
      (∀ k v, lookup k b.reverse = some v → lookup k env' = some v) ∧
      (∀ k, (∀ c ∈ cs, .sym k ∉ vars c.pat) → lookup k env' = lookup k env) := by
  unfold receive at hr
  by_cases h0 : m.num = 0
  · rw [if_pos h0] at hr; cases hr
  · rw [if_neg h0] at hr
    rcases findLoop_spec (F := F) (cs := cs) (es := m.mail) (n := 0) (s := ⟨env, false, free⟩) rfl hfree with ⟨g1, g2⟩ | ⟨i, e, c, b, j, g1, g2, g3, g4, g5, g6⟩
    · simp only [findMatch, g2] at hr; cases hr
    · by_cases hn : isNil c.extra = true
      · rw [if_pos hn] at g5
        simp only [findMatch, g5] at hr
        cases hm : remove m (0 + i) with
        | none => rw [hm] at hr; cases hr
        | some m2 =>
          rw [hm] at hr
          cases hr
          refine ⟨i, e, c, b, g1, g3, rfl, (first_mem g3).2, fun k v hk => ?_, fun k hk => ?_⟩
          · rw [g6, lookup_append, hk]; rfl
          · rw [g6, lookup_append, lookup_append]
            have hb : lookup k b.reverse = none := by
              apply lookup_none
              rintro ⟨x, w⟩ hx rfl
              have := (matchP_spec (F := F) c.pat e ⟨[], false, 2 * (vars c.pat).length⟩ rfl (Nat.le_refl _)).2.2.2.1 b (first_mem g3).2
              refine hk c (first_mem g3).1 ?_
              rw [← this.2]
              exact List.mem_map.2 ⟨_, List.mem_reverse.1 hx, rfl⟩
            have hj : lookup k j = none := by
              apply lookup_none
              rintro ⟨x, w⟩ hx rfl
              obtain ⟨c', hc', hv⟩ := g4 _ hx
              exact hk c' hc' hv
            rw [hb, hj]; rfl
      · rw [if_neg hn] at g5
        simp only [findMatch, g5] at hr; cases hr

/-! ### With little memory -/

/-- Once a binding has failed for lack of cells, there are none left. -/
def Dry (s : MSt) : Prop := s.gc = true → s.free < 2

theorem matchP_any : ∀ (p e : T) (s : MSt), Dry s →
    Dry (matchP F p e s).2 ∧ (s.gc = true → (matchP F p e s).2.gc = true) ∧ ((matchP F p e s).2.gc = false → (matchP F p e s).1 = (pm F p e).isSome)
  | p, e, s, hd => by
    have leaf : ∀ t : Bool, matchP F p e s = (t, s) → pm F p e = (if t then some [] else none) →
        Dry (matchP F p e s).2 ∧ (s.gc = true → (matchP F p e s).2.gc = true) ∧ ((matchP F p e s).2.gc = false → (matchP F p e s).1 = (pm F p e).isSome) := by
      intro t h1 h2
      rw [h1, h2]
      exact ⟨hd, id, fun _ => by cases t <;> rfl⟩
    cases hb : binderVar p with
    | some v =>
      rw [matchP_binder hb, pm_binder hb, bind]
      by_cases hf : 2 ≤ s.free
      · rw [if_pos hf]
        exact ⟨fun h => by simp at h, fun h => absurd (hd h) (by omega), fun _ => rfl⟩
      · rw [if_neg hf]
        exact ⟨fun _ => by simp, fun _ => rfl, fun h => by simp at h⟩
    | none =>
      cases p with
      | sym k =>
        by_cases hk : k = symDontcare
        · refine leaf true ?_ ?_
          · rw [matchP.eq_def]; simp only [hb, if_pos hk]
          · rw [pm.eq_def]; simp only [hb, if_pos hk]; rfl
        · refine leaf (same F (.sym k) e) ?_ ?_
          · rw [matchP.eq_def]; simp only [hb, if_neg hk]; cases e <;> simp [same]
          · rw [pm.eq_def]; simp only [hb, if_neg hk]
      | cons hp tp =>
        cases e with
        | cons he te =>
          obtain ⟨a1, a2, a3⟩ := matchP_any hp he s hd
          obtain ⟨b1, b2, b3⟩ := matchP_any tp te (matchP F hp he s).2 a1
          rw [matchP_cons hb, pm_cons hb]
          by_cases hr : (matchP F hp he s).1 = true
          · rw [if_pos hr]
            refine ⟨b1, fun h => b2 (a2 h), fun h => ?_⟩
            have hg : (matchP F hp he s).2.gc = false := by
              cases hg : (matchP F hp he s).2.gc with
              | false => rfl
              | true => rw [b2 hg] at h; cases h
            have h1 := a3 hg
            rw [hr] at h1
            rw [b3 h]
            cases hpm : pm F hp he with
            | none => rw [hpm] at h1; cases h1
            | some a => cases pm F tp te <;> rfl
          · rw [if_neg hr]
            refine ⟨a1, a2, fun h => ?_⟩
            rw [a3 h] at hr ⊢
            cases hpm : pm F hp he with
            | none => rfl
            | some a => rw [hpm] at hr; exact absurd rfl hr
        | _ =>
          refine leaf false ?_ ?_
          · rw [matchP.eq_def]; simp only [hb]; rfl
          · rw [pm.eq_def]; simp only [hb]; rfl
      | num t z => exact leaf (same F (.num t z) e) (by rw [matchP.eq_def]; simp only [hb]) (by rw [pm.eq_def]; simp only [hb])
      | bytes l => exact leaf (same F (.bytes l) e) (by rw [matchP.eq_def]; simp only [hb]) (by rw [pm.eq_def]; simp only [hb])
      | arr l => exact leaf (same F (.arr l) e) (by rw [matchP.eq_def]; simp only [hb]) (by rw [pm.eq_def]; simp only [hb])
      | obj n => exact leaf (same F (.obj n) e) (by rw [matchP.eq_def]; simp only [hb]) (by rw [pm.eq_def]; simp only [hb])

theorem tryClauses_any {e : T} : ∀ {cs : List Clause} {s : MSt}, Dry s →
    Dry (tryClauses F e cs s).2 ∧ (s.gc = true → (tryClauses F e cs s).2.gc = true) ∧ ((tryClauses F e cs s).2.gc = false →
      match (tryClauses F e cs s).1 with
      | none => ¬ Accepts F cs e
      | some c => ∃ b, First F e cs c b) := by
  intro cs
  induction cs with
  | nil => intro s hd; exact ⟨hd, id, fun _ => by rintro ⟨c, hc, _⟩; cases hc⟩
  | cons c cs ih =>
    intro s hd
    obtain ⟨a1, a2, a3⟩ := matchP_any (F := F) c.pat e s hd
    obtain ⟨b1, b2, b3⟩ := ih a1
    rw [tryClauses]
    by_cases hr : (matchP F c.pat e s).1 = true
    · rw [if_pos hr]
      refine ⟨a1, a2, fun h => ?_⟩
      have h1 := a3 h
      rw [hr] at h1
      obtain ⟨b, hb⟩ := Option.isSome_iff_exists.1 h1.symm
      exact ⟨b, .here hb⟩
    · rw [if_neg hr]
      refine ⟨b1, fun h => b2 (a2 h), fun h => ?_⟩
      have hg : (matchP F c.pat e s).2.gc = false := by
        cases hg : (matchP F c.pat e s).2.gc with
        | false => rfl
        | true => rw [b2 hg] at h; cases h
      have hp : pm F c.pat e = none := by
        cases hp : pm F c.pat e with
        | none => rfl
        | some b => rw [a3 hg, hp] at hr; exact absurd rfl hr
      have h3 := b3 h
      cases ht : (tryClauses F e cs (matchP F c.pat e s).2).1 with
      | none =>
        rw [ht] at h3
        rintro ⟨d, hd, hs⟩
        rcases List.mem_cons.1 hd with rfl | hd
        · rw [hp] at hs; cases hs
        · exact h3 ⟨d, hd, hs⟩
      | some d =>
        rw [ht] at h3
        obtain ⟨b, hb⟩ := h3
        exact ⟨b, .there hp hb⟩

/-- What a search for a message may give when memory is short: nothing, a request for a collection, or the right answer. -/
def Right (F : Flt) (cs : List Clause) (es : List T) (n : Nat) (r : Found) : Prop :=
  r = .noMatch ∨ r = .needGC ∨ ∃ i e c b, es[i]? = some e ∧ (∀ i' e', i' < i → es[i']? = some e' → ¬ Accepts F cs e') ∧ First F e cs c b ∧
    r = if isNil c.extra then .found (n + i) c.body else .patternError

theorem findLoop_any {cs : List Clause} : ∀ {es : List T} {n : Nat} {s : MSt}, Dry s →
    Right F cs es n (findLoop F cs es n s).1 ∧ (s.gc = true → (findLoop F cs es n s).1 = .noMatch ∨ (findLoop F cs es n s).1 = .needGC) := by
  intro es
  induction es with
  | nil => intro n s _; exact ⟨.inl rfl, fun _ => .inl rfl⟩
  | cons e es ih =>
    intro n s hd
    obtain ⟨a1, a2, a3⟩ := tryClauses_any (F := F) (e := e) (cs := cs) hd
    obtain ⟨b1, b2⟩ := ih (n := n + 1) a1
    rw [findLoop]
    cases hr : (tryClauses F e cs s).1 with
    | some c =>
      simp only
      cases hg : (tryClauses F e cs s).2.gc with
      | true => exact ⟨.inr (.inl rfl), fun _ => .inr rfl⟩
      | false =>
        have h3 := a3 hg
        rw [hr] at h3
        obtain ⟨b, hb⟩ := h3
        refine ⟨.inr (.inr ⟨0, e, c, b, rfl, by intro i' _ h; omega, hb, ?_⟩), fun h => ?_⟩
        · simp only [Bool.false_eq_true, if_false, Nat.add_zero]; split <;> rfl
        · rw [a2 h] at hg; cases hg
    | none =>
      simp only
      refine ⟨?_, fun h => b2 (a2 h)⟩
      cases hg : (tryClauses F e cs s).2.gc with
      | true =>
        rcases b2 hg with h | h
        · exact .inl h
        · exact .inr (.inl h)
      | false =>
        have h3 := a3 hg
        rw [hr] at h3
        rcases b1 with h | h | ⟨i, e', c, b, g1, g2, g3, g5⟩
        · exact .inl h
        · exact .inr (.inl h)
        · refine .inr (.inr ⟨i + 1, e', c, b, g1, ?_, g3, by rw [g5]; congr 2; omega⟩)
          intro i' e'' hi he
          cases i' with
          | zero => cases he; exact h3
          | succ i' => exact g2 i' e'' (by omega) he

/-- **C35 (receiving, any amount of memory).** However few cells are free, if collecting garbage frees enough for the bindings then `recv` never takes a wrong message or clause: it either takes the oldest message that some pattern
matches, with the first such clause, or blocks. (That it may block although a message matches is `C35_low_memory_violated`.) -/
theorem C35_receive_gc {cs : List Clause} {m : Mbox T} (h : m.WF) {env : Env} {free gcFree : Nat} (hfree : m.mail.length * cost cs ≤ gcFree) :
    receive F cs m env free gcFree = some .block ∨
    ∃ i e c b, m.mail[i]? = some e ∧ (∀ i' e', i' < i → m.mail[i']? = some e' → ¬ Accepts F cs e') ∧ First F e cs c b ∧
      if isNil c.extra then ∃ m' env', receive F cs m env free gcFree = some (.body m' c.body env') ∧ m'.WF ∧ m'.size = m.size ∧ m'.mail = m.mail.eraseIdx i
      else receive F cs m env free gcFree = some .patternError := by
  rcases (findLoop_any (F := F) (cs := cs) (es := m.mail) (n := 0) (s := ⟨env, false, free⟩) (fun h => by simp at h)).1 with g | g | ⟨i, e, c, b, g1, g2, g3, g5⟩
  · left
    unfold receive
    split
    · rfl
    · simp only [findMatch, g]
  · have e2 : receive F cs m env free gcFree = receive F cs m env gcFree gcFree := by
      unfold receive
      split
      · rfl
      · simp only [findMatch, g]
        split <;> simp_all
    rw [e2]
    rcases C35_receive (F := F) h (env := env) (gcFree := gcFree) hfree with ⟨_, g⟩ | g
    · exact .inl g
    · exact .inr g
  · right
    refine ⟨i, e, c, b, g1, g2, g3, ?_⟩
    have hi : i < m.num := by
      rw [← mail_length m]
      by_cases hh : i < m.mail.length
      · exact hh
      · rw [List.getElem?_eq_none (by omega)] at g1; cases g1
    unfold receive
    have h0 : ¬ m.num = 0 := by omega
    simp only [h0, if_false]
    by_cases hn : isNil c.extra = true
    · rw [if_pos hn] at g5 ⊢
      obtain ⟨m', e', w, s, l⟩ := remove_spec h hi
      refine ⟨m', (findMatch F cs m.mail env free).2.env, ?_, w, s, l⟩
      simp only [findMatch, g5]
      rw [Nat.zero_add, e']
      rfl
    · rw [if_neg hn] at g5 ⊢
      simp only [findMatch, g5]

/-! ### Where the code does not do what one expects -/

/-- The symbol `x` (any symbol a user can write). -/
def x : T := .sym 0x40000
/-- The pattern `(? v)`. -/
def binder (v : T) : T := .cons (.sym symMatchAny) (.cons v (.sym symNil))
def num (z : Int) : T := .num .i z

/-- **C43 fails.** `(recv ( ((? x) . 9) a ) ( _ x ))` with the message `(1 . 2)` in a scope where `x` is 42: the first pattern binds `x` to 1 and then fails; the body of the second pattern, which binds nothing, sees
`x` as 1. -/
theorem C43_scope_violated (F : Flt) (slot : Nat → T) (a : T) :
    let cs : List Clause := [⟨.cons (binder x) (num 9), a, .sym symNil⟩, ⟨.sym symDontcare, x, .sym symNil⟩]
    let m : Mbox T := ⟨fun i => if i = 0 then .cons (num 1) (num 2) else slot i, 10, 1⟩
    pm F (.sym symDontcare) (.cons (num 1) (num 2)) = some [] ∧
    ∃ m' env', receive F cs m [(x, num 42)] 100 100 = some (.body m' x env') ∧ lookup 0x40000 env' = some (num 1) := by
  refine ⟨by simp [pm, binderVar], ?_⟩
  simp [receive, findMatch, findLoop, Mbox.mail, tryClauses, matchP, binderVar, binder, bind, x, num, symMatchAny, symNil, symDontcare, same, numEq, isNil, remove,
    shift, and_assoc, lookup, List.range_succ]

/-- **C35 fails without memory.** With fewer than two free cells `recv` goes to sleep although there is a message that its pattern `(? x)` matches, and without collecting garbage, however much that would free.
(The message is looked at again only when another one arrives.) -/
theorem C35_low_memory_violated (F : Flt) (m : Mbox T) (h : m.num = 1) (body : T) (env : Env) (free gcFree : Nat) (hf : free < 2) :
    Accepts F [⟨binder x, body, .sym symNil⟩] (m.slot 0) ∧ receive F [⟨binder x, body, .sym symNil⟩] m env free gcFree = some .block := by
  refine ⟨⟨_, List.mem_singleton.2 rfl, by rw [pm_binder (v := x) (by simp [binderVar, binder, x, symMatchAny, symNil])]; rfl⟩, ?_⟩
  have hm : m.mail = [m.slot 0] := by simp [Mbox.mail, h, List.range_succ]
  have hb : binderVar (binder x) = some x := by simp [binderVar, binder, x, symMatchAny, symNil]
  unfold receive
  rw [if_neg (by omega), hm]
  have hmp : matchP F (binder x) (m.slot 0) ⟨env, false, free⟩ = (false, ⟨env, true, 0⟩) := by
    rw [matchP_binder hb, bind, if_neg (by simp only; omega)]
  have hfm : findMatch F [⟨binder x, body, .sym symNil⟩] [m.slot 0] env free = (.noMatch, ⟨env, true, 0⟩) := by
    simp [findMatch, findLoop, tryClauses, hmp]
  simp only [hfm]

/-- **C60 fails.** When a message that matches no pattern wakes `recv-to`, it sleeps again for the timeout's *encoded* word in seconds (modulo the word size) and not for what is left of the timeout, nor for the timeout. -/
theorem C60_timeout_violated (F : Flt) {cs : List Clause} {m : Mbox T} (h : m.WF) {env : Env} {free gcFree w word : Nat} (hfree : m.mail.length * cost cs ≤ free)
    (hno : ∀ e ∈ m.mail, ¬ Accepts F cs e) : retry F cs m env free gcFree false w word = some (.again (word * 1000000 % 2 ^ w)) := by
  unfold retry
  rcases C35_receive (F := F) h (env := env) (gcFree := gcFree) hfree with ⟨_, g⟩ | ⟨i, e, c, b, g1, _, g3, _⟩
  · rw [g]; rfl
  · exact absurd ⟨c, (first_mem g3).1, by rw [(first_mem g3).2]; rfl⟩ (hno e (List.mem_of_getElem? g1))

/-- **C60 (partial).** When it is the timeout that wakes `recv-to`, and memory suffices, it never blocks again: it evaluates the clause of a matching message as `recv` would (C35; the symbol `timeout` is itself delivered as a message),
and returns the symbol `timeout` if nothing matches. (Missing: that it is woken after the stated time; see the violation.) -/
theorem C60_timed_out_partial {cs : List Clause} {m : Mbox T} (h : m.WF) {env : Env} {free gcFree w word : Nat} (hfree : m.mail.length * cost cs ≤ free) :
    ((∀ e ∈ m.mail, ¬ Accepts F cs e) → retry F cs m env free gcFree true w word = some .timedOut) ∧
    ((∃ e ∈ m.mail, Accepts F cs e) → ∃ r, r ≠ .block ∧ receive F cs m env free gcFree = some r ∧ retry F cs m env free gcFree true w word = some (.recv r)) := by
  have hc := C35_receive (F := F) h (cs := cs) (env := env) (gcFree := gcFree) hfree
  constructor
  · intro hno
    rcases hc with ⟨_, g⟩ | ⟨i, e, c, b, g1, _, g3, _⟩
    · unfold retry; rw [g]; rfl
    · exact absurd ⟨c, (first_mem g3).1, by rw [(first_mem g3).2]; rfl⟩ (hno e (List.mem_of_getElem? g1))
  · rintro ⟨e0, he0, ha0⟩
    rcases hc with ⟨g, _⟩ | ⟨i, e, c, b, g1, _, g3, g4⟩
    · exact absurd ha0 (g e0 he0)
    · by_cases hn : isNil c.extra = true
      · rw [if_pos hn] at g4
        obtain ⟨m', env', g5, _⟩ := g4
        exact ⟨_, by simp, g5, by unfold retry; rw [g5]⟩
      · rw [if_neg hn] at g4
        exact ⟨_, by simp, g4, by unfold retry; rw [g4]⟩

/-- Timeouts of 1 s and of 300 s, encoded as integers on a 32-bit platform (`lbm_enc_i`, `include/heap.h`: shift by 4, tag 8): 24 s, and 514 s. -/
example : (1 * 16 + 8) * 1000000 % 2 ^ 32 = 24000000 ∧ (300 * 16 + 8) * 1000000 % 2 ^ 32 = 513032704 := by decide

/-! ### Non-vacuity -/

def exM : Mbox Nat := ⟨fun i => i, 3, 2⟩
example : exM.WF ∧ exM.mail = [0, 1] := ⟨⟨by decide, by decide⟩, rfl⟩
example : (addAll exM [7, 8, 9]).map (·.mail) = some [7, 8, 9] := by decide
example : (changeSize exM 5 (fun _ => 0)).map (·.mail) = some [0, 1] := by decide
example : ((addAll exM [7]).bind fun m => remove m 1).map (·.mail) = some [0, 7] := by decide

/-- Messages 5, (1 . 2), 7 and patterns `((? x) . 2)` and 7: the second message is taken. -/
example (F : Flt) : ∃ m' env', receive F [⟨.cons (binder x) (num 2), x, .sym symNil⟩, ⟨num 7, num 0, .sym symNil⟩]
    ⟨fun i => if i = 0 then num 5 else if i = 1 then .cons (num 1) (num 2) else num 7, 10, 3⟩ [] 100 100 = some (.body m' x env') ∧
    m'.mail = [num 5, num 7] ∧ lookup 0x40000 env' = some (num 1) := by
  simp [receive, findMatch, findLoop, Mbox.mail, List.range_succ, tryClauses, matchP, binderVar, binder, bind, x, num, symMatchAny, symNil, symDontcare, same, numEq, isNil, remove,
    shift, and_assoc, lookup, List.range_succ]

end Verif.Mbox
