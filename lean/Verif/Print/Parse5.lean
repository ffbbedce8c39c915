import Verif.Print.Parse4

/-! # Whatever is in the grammar the reader accepts -/

namespace Verif.Print

open Verif.Tok (Byte ascii Token Stream)
open Verif.Eq (T NTy Val Heap Obj)

/-- The reader gets through an expression. -/
def GoE (D : Dev) (tot : Nat) (ts : List Token) (x : X) : Prop :=
  ∀ s s' tab tab' h n K r, Took s ts s' → Enters tab ts tab' → Sym.Inv tab → ∃ h' n' v,
    To D ⟨h, n, tab, s, tot, .next :: K, r⟩ (.run ⟨h', n', tab', s', tot, K, v⟩) ∧ Read n h tab n' h' tab' v x

/-- The reader gets through an item. -/
def GoI (D : Dev) (tot : Nat) (loose : Bool) (l ts : List Token) (x : X) : Prop :=
  ∀ s s' tab tab' h n K r, Took s ts s' → Enters tab ts tab' → Sym.Inv tab → ∃ h' n' v,
    To D ⟨h, n, tab, s, tot, .next :: K, r⟩ (.run ⟨h', n', tab', s', tot, K, v⟩) ∧ n ≤ n' ∧ Old n h h' ∧ Later tab tab' ∧
    x.Names ∧ x.Known tab' ∧ Built h' n n' v (x.tree tab') ∧
    (isTokSym v = false ∨ loose = true ∧ ∃ k ∈ l, ∃ w, strayOf k = some w ∧ v = .sym w)

/-- The reader gets through a sequence. -/
def GoS (D : Dev) (tot : Nat) (loose : Bool) (ts : List Token) (xs : List X) : Prop :=
  ∀ s s' tab tab' h lo n f l C K r, ListSt h lo n f l C → Took s ts s' → Enters tab ts tab' → Sym.Inv tab → ∃ h' n' f' l' r',
    (∀ res, To D ⟨h', n', tab', s', tot, .next :: .append f' l' :: K, r'⟩ res →
      To D ⟨h, n, tab, s, tot, .next :: .append f l :: K, r⟩ res) ∧ n ≤ n' ∧ Old lo h h' ∧ Later tab tab' ∧
    AllX X.Names xs ∧ AllX (X.Known tab') xs ∧ ListSt h' lo n' f' l' (fun d => C (spine tab' xs d)) ∧
    (l.tag = .cons ∨ xs ≠ [] → l'.tag = .cons) ∧ (loose = false → isTokSym r = false → isTokSym r' = false)

variable {D : Dev} {tot : Nat} {loose : Bool}

theorem enters_syntax {k : Nat} {ts : List Token} {tab tab' : Sym.Tab} : Enters tab (.syntax k :: ts) tab' ↔ Enters tab ts tab' :=
  ⟨fun ⟨t, h1, h2⟩ => by have : t = tab := h1; rw [← this]; exact h2, fun h => ⟨tab, rfl, h⟩⟩

theorem opens_facts {o : Token} {p : List X} (h : opens o = some p) : (o = .syntax 1 ∧ p = []) ∨ (o = .syntax 12 ∧ p = [.sym 0x102]) := by
  unfold opens at h
  split at h
  · cases h; exact .inl ⟨rfl, rfl⟩
  · cases h; exact .inr ⟨rfl, rfl⟩
  · cases h

theorem pair_close {o c : Token} (h : Pair loose o c) : c = .syntax 2 ∨ c = .syntax 13 := by
  rcases h with ⟨_, h⟩ | ⟨_, h⟩ | ⟨_, _, h | h⟩
  · exact .inl h
  · exact .inr h
  · exact .inl h
  · exact .inr h

/-- The opening bracket. -/
theorem open_step {o : Token} {p : List X} (ho : opens o = some p) {s s1 : Stream} (hn : Next s o s1) {h : Heap} {n : Nat} {tab : Sym.Tab}
    {K : List RF} {r : Val} : ∃ h1 n1 f l r1, To D ⟨h, n, tab, s, tot, .next :: K, r⟩
        (.run ⟨h1, n1, tab, s1, tot, .next :: .append f l :: K, r1⟩) ∧ n ≤ n1 ∧ Old n h h1 ∧
      ListSt h1 n n1 f l (fun d => spine tab p d) ∧ (p ≠ [] → l.tag = .cons) := by
  have hto := to_next (D := D) (tot := tot) hn (hp := h) (n := n) (tab := tab) (K := K) (r := r)
  rcases opens_facts ho with ⟨rfl, rfl⟩ | ⟨rfl, rfl⟩
  · exact ⟨h, n, .sym 0, .sym 0, symOpenPar, hto, Nat.le_refl _, fun _ _ _ => rfl, listSt_nil h n, fun h => absurd rfl h⟩
  · obtain ⟨h2, f2, l2, st, hl2, ho2, htag⟩ := append_step (D := D) (tot := tot) (listSt_nil h n) (h1 := h) (n1 := n) (v := .sym 0x102)
      (t := .sym 0x102) (fun _ _ _ => rfl) (Nat.le_refl _) (fun _ _ => .sym) (by decide) (tab := tab) (s := s1) (K := K)
    exact ⟨h2, n + 1, f2, l2, _, .trans hto (.one st), Nat.le_succ n, ho2, hl2, fun _ => htag⟩

theorem to_close {c : Token} (hc : c = .syntax 2 ∨ c = .syntax 13) {s s1 : Stream} (hn : Next s c s1) {h : Heap} {n : Nat} {tab : Sym.Tab}
    {K : List RF} {r : Val} : To D ⟨h, n, tab, s, tot, .next :: K, r⟩ (.run ⟨h, n, tab, s1, tot, K, symClosePar⟩) := by
  have hto := to_next (D := D) (tot := tot) hn (hp := h) (n := n) (tab := tab) (K := K) (r := r)
  rcases hc with rfl | rfl <;> exact hto

theorem opens_all {o : Token} {p xs : List X} (ho : opens o = some p) : (AllX X.Names xs → AllX X.Names (p ++ xs)) ∧
    ∀ {tab : Sym.Tab}, AllX (X.Known tab) xs → AllX (X.Known tab) (p ++ xs) := by
  rcases opens_facts ho with ⟨rfl, rfl⟩ | ⟨rfl, rfl⟩
  · exact ⟨id, id⟩
  · refine ⟨fun h x hx => ?_, fun h x hx => ?_⟩ <;>
    · rcases List.mem_cons.1 hx with rfl | hx
      · trivial
      · exact h x hx

theorem spine_open {o : Token} {p : List X} (ho : opens o = some p) (tab tab' : Sym.Tab) (xs : List X) (d : T) :
    spine tab p (spine tab' xs d) = spine tab' (p ++ xs) d := by
  rcases opens_facts ho with ⟨rfl, rfl⟩ | ⟨rfl, rfl⟩ <;> rfl

theorem goE_leaf {k : Token} {x : X} (hx : leafOf D k = some x) : GoE D tot [k] x := by
  intro s s' tab tab' h n K r htk hen hi
  have hn := Took.one.1 htk
  have hto := to_next (D := D) (tot := tot) hn (hp := h) (n := n) (tab := tab) (K := K) (r := r)
  rcases leaf_step (D := D) (tot := tot) hx (next_name hn) (h := h) (n := n) hi (s := s') (K0 := .next :: K) (K := K) (r := r) with
    ⟨h', n', tab2, v, e, hen2, hrd⟩ | ⟨e, hno⟩
  · have : tab2 = tab' := enters_unique hen2 hen
    subst this
    rw [e] at hto
    exact ⟨h', n', v, hto, hrd⟩
  · exact absurd ⟨tab', hen⟩ hno

theorem goE_list {o c : Token} {ts : List Token} {p xs : List X} (ho : opens o = some p) (hp : Pair loose o c) (hs : GoS D tot loose ts xs) :
    GoE D tot (o :: ts ++ [c]) (listX (p ++ xs) nilX) := by
  intro s s' tab tab' h n K r htk hen hi
  obtain ⟨s1, hn, htk⟩ := htk
  obtain ⟨s2, htk, hc⟩ := Took.split htk
  have hc := Took.one.1 hc
  obtain ⟨h1, n1, f, l, r1, t1, a1, a2, a3, a4⟩ := open_step (D := D) (tot := tot) ho hn (h := h) (n := n) (tab := tab) (K := K) (r := r)
  have hen : Enters tab ts tab' := by
    have h1 : Enters tab (ts ++ [c]) tab' := by
      rcases opens_facts ho with ⟨rfl, _⟩ | ⟨rfl, _⟩ <;> exact enters_syntax.1 hen
    obtain ⟨tt, h2, h3⟩ := Enters.split h1
    have : tt = tab' := by rcases pair_close hp with rfl | rfl <;> exact enters_syntax.1 h3
    rw [← this]; exact h2
  obtain ⟨h2, n2, f2, l2, r2, t2, b1, b2, b3, b4, b5, b6, b7, b8⟩ := hs s1 s2 tab tab' h1 n n1 f l _ K r1 a3 htk hen hi
  obtain ⟨h3, v, st, c1, c2, c3⟩ := close_step (D := D) (tot := tot) b6 (tab := tab') (s := s') (K := K)
  refine ⟨h3, n2, v, t1.trans (t2 _ ((to_close (pair_close hp) hc).trans (.one st))), by omega,
    a2.trans (b2.trans c2 (Nat.le_refl _)) (Nat.le_refl _), b3, listX_names ((opens_all ho).1 b4) trivial,
    listX_known ((opens_all ho).2 b5) trivial, ?_, c3⟩
  rw [listX_tree]
  rw [spine_open ho] at c1
  exact c1

theorem goE_dotted {o c : Token} {ts ts' : List Token} {p xs : List X} {x : X} (ho : opens o = some p) (hp : Pair loose o c)
    (hs : GoS D tot loose ts xs) (hne : p ++ xs ≠ []) (hx : GoI D tot loose [tCloseArray] ts' x) :
    GoE D tot (o :: ts ++ tDot :: ts' ++ [c]) (listX (p ++ xs) x) := by
  intro s s' tab tab' h n K r htk hen hi
  obtain ⟨s1, hn, htk⟩ := htk
  obtain ⟨s3, htk, hc⟩ := Took.split htk
  obtain ⟨s2, htk, s4, hd, htk2⟩ := Took.split htk
  have hc := Took.one.1 hc
  obtain ⟨h1, n1, f, l, r1, t1, a1, a2, a3, a4⟩ := open_step (D := D) (tot := tot) ho hn (h := h) (n := n) (tab := tab) (K := K) (r := r)
  obtain ⟨tab1, hen, hen2⟩ : ∃ tab1, Enters tab ts tab1 ∧ Enters tab1 ts' tab' := by
    have h1 : Enters tab ((ts ++ tDot :: ts') ++ [c]) tab' := by
      rcases opens_facts ho with ⟨rfl, _⟩ | ⟨rfl, _⟩ <;> exact enters_syntax.1 hen
    obtain ⟨tt, h2, h3⟩ := Enters.split h1
    have : tt = tab' := by rcases pair_close hp with rfl | rfl <;> exact enters_syntax.1 h3
    subst this
    obtain ⟨t2, h3, h4⟩ := Enters.split h2
    exact ⟨t2, h3, enters_syntax.1 h4⟩
  obtain ⟨h2, n2, f2, l2, r2, t2, b1, b2, b3, b4, b5, b6, b7, b8⟩ := hs s1 s2 tab tab1 h1 n n1 f l _ K r1 a3 htk hen hi
  have hl2 : l2.tag = .cons := by
    refine b7 ?_
    by_cases hpe : p = []
    · subst hpe; exact .inr hne
    · exact .inl (a4 hpe)
  obtain ⟨h3, n3, v, t3, c1, c2, c3, c4, c5, c6, c7⟩ := hx s4 s3 tab1 tab' h2 n2 (.dotTerm f2 l2 :: K) symDot htk2 hen2 b3.inv
  have hv : v ≠ symClosePar ∧ v ≠ symDot := by
    rcases c7 with c7 | ⟨_, k, hk, w, hw, rfl⟩
    · exact not_close c7
    · rw [List.mem_singleton] at hk
      subst hk
      cases hw
      decide
  obtain ⟨h4, st, d1, d2⟩ := dot_step (D := D) (tot := tot) b6 hl2 c2 c1 c6 hv (tab := tab') (s := s3) (K := K)
  have tdot : To D ⟨h2, n2, tab1, s2, tot, .next :: .append f2 l2 :: K, r2⟩ (.run ⟨h2, n2, tab1, s4, tot, .next :: .dotTerm f2 l2 :: K, symDot⟩) :=
    (to_next (D := D) (tot := tot) hd (hp := h2) (n := n2) (tab := tab1) (K := .append f2 l2 :: K) (r := r2)).trans (.one rfl)
  have tend : To D ⟨h4, n3, tab', s3, tot, .next :: .expectClose f2 :: K, f2⟩ (.run ⟨h4, n3, tab', s', tot, K, f2⟩) :=
    (to_close (pair_close hp) hc).trans (.one rfl)
  refine ⟨h4, n3, f2, t1.trans (t2 _ (tdot.trans (t3.trans (.step st tend)))), by omega,
    a2.trans (b2.trans d2 (Nat.le_refl _)) (Nat.le_refl _), b3.trans c3, listX_names ((opens_all ho).1 b4) c4,
    listX_known ((opens_all ho).2 (allKnown_later b3.inv c3 b4 b5)) c5, ?_, b6.2.1⟩
  rw [listX_tree]
  rw [spine_open ho] at d1
  rw [foldr_later b3.inv c3 ((opens_all ho).1 b4) ((opens_all ho).2 b5)]
  exact d1

theorem goE_quoted {k : Token} {w : Nat} {l ts : List Token} {x : X} (hk : prefixOf k = some w) (hx : GoI D tot loose l ts x) :
    GoE D tot (k :: ts) (listX [.sym w, x] nilX) := by
  intro s s' tab tab' h n K r htk hen hi
  obtain ⟨s1, hn, htk⟩ := htk
  have hto := to_next (D := D) (tot := tot) hn (hp := h) (n := n) (tab := tab) (K := K) (r := r)
  have key : To D ⟨h, n, tab, s, tot, .next :: K, r⟩ (.run ⟨h, n, tab, s1, tot, .next :: .wrap (.sym w) :: K, r⟩) ∧ Enters tab ts tab' := by
    unfold prefixOf at hk
    split at hk <;> cases hk <;> exact ⟨hto, enters_syntax.1 hen⟩
  obtain ⟨h3, n3, v, t3, c1, c2, c3, c4, c5, c6, c7⟩ := hx s1 s' tab tab' h n (.wrap (.sym w) :: K) r htk key.2 hi
  obtain ⟨h2, v2, st, hb, ho, hm⟩ := wrap_step (D := D) (tot := tot) c2 c1 c6 w (tab := tab') (s := s') (K := K)
  exact ⟨h2, n3 + 2, v2, (key.1.trans t3).trans (.one st), by omega, ho, c3, ⟨trivial, c4, trivial⟩, ⟨trivial, c5, trivial⟩, hb, hm⟩

/-- A byte in an array. -/
theorem byteTok_leaf {k : Token} {b : Byte} (h : byteTok D k = some b) : ∃ t z, leafOf D k = some (.num t z) ∧ byteOfT D (.num t z) = some b := by
  unfold byteTok at h
  split at h
  · next t z e => exact ⟨t, z, e, h⟩
  · cases h

theorem arr_rest {i : Nat} {K : List RF} : ∀ (ts : List Token) (bs l : List Byte) (s s' : Stream) (tab tab' : Sym.Tab) (h : Heap) (n : Nat) (r : Val),
    ts.map (byteTok D) = bs.map some → (l ++ bs).length + 2 ≤ D.room → ArrSt h i n l → Took s (ts ++ [tCloseArray]) s' → Enters tab ts tab' →
    Sym.Inv tab → ∃ h' n', To D ⟨h, n, tab, s, tot, .next :: .appendArray (.ptr .array false i) D.room l.length :: K, r⟩
        (.run ⟨h', n', tab', s', tot, K, .ptr .array false i⟩) ∧ n ≤ n' ∧ Old i h h' ∧ Later tab tab' ∧ ArrSt h' i n' (l ++ bs) := by
  intro ts
  induction ts with
  | nil =>
    intro bs l s s' tab tab' h n r hm hr ha htk hen hi
    have : bs = [] := by simpa using hm.symm
    subst this
    cases hen
    have hn := Took.one.1 htk
    have hto := to_next (D := D) (tot := tot) hn (hp := h) (n := n) (tab := tab)
      (K := .appendArray (.ptr .array false i) D.room l.length :: K) (r := r)
    rw [List.append_nil] at hr ⊢
    exact ⟨h, n, hto.trans (.one (array_close ha hr)), Nat.le_refl _, fun _ _ _ => rfl, .refl hi, ha⟩
  | cons k ts ih =>
    intro bs l s s' tab tab' h n r hm hr ha htk hen hi
    cases bs with
    | nil => cases hm
    | cons b bs =>
      simp only [List.map_cons, List.cons.injEq] at hm
      obtain ⟨t, z, hk, hb⟩ := byteTok_leaf hm.1
      obtain ⟨s1, hn, htk⟩ := htk
      obtain ⟨tab1, he1, he2⟩ := Enters.split (a := [k]) hen
      obtain ⟨h1, n1, v, t1, hrd⟩ := goE_leaf (D := D) (tot := tot) hk s s1 tab tab1 h n (.appendArray (.ptr .array false i) D.room l.length :: K)
        r (Took.one.2 hn) he1 hi
      have ha1 : ArrSt h1 i n1 l := ⟨Nat.lt_of_lt_of_le ha.lt hrd.le, (hrd.old false i (.inr ha.lt)).trans ha.cell⟩
      rw [show l ++ b :: bs = (l ++ [b]) ++ bs by simp] at hr ⊢
      obtain ⟨h2, st, ha2, ho2⟩ := array_step (D := D) (tot := tot) ha1 (by simp at hr; omega) (hrd.built h1 fun _ _ _ => rfl) hb
        (tab := tab1) (s := s1) (K := K)
      obtain ⟨h3, n3, t3, c1, c2, c3, c4⟩ := ih bs (l ++ [b]) s1 s' tab1 tab' h2 n1 v hm.2 hr ha2 htk he2 hrd.later.inv
      have := hrd.le
      refine ⟨h3, n3, t1.trans (.step st t3), by omega, ?_, hrd.later.trans c3, c4⟩
      intro kk j hj
      exact (c2 kk j hj).trans ((ho2 kk j hj).trans (hrd.old kk j (hj.imp_right (fun h => Nat.lt_trans h ha.lt))))

theorem goE_array {ts : List Token} {l : List Byte} (hm : ts.map (byteTok D) = l.map some) (hr : l ≠ [] → l.length + 2 ≤ D.room) :
    GoE D tot (tOpenArray :: ts ++ [tCloseArray]) (.bytes l) := by
  intro s s' tab tab' h n K r htk hen hi
  obtain ⟨s1, hn, htk⟩ := htk
  have t0 : To D ⟨h, n, tab, s, tot, .next :: K, r⟩ (.run ⟨h, n, tab, s1, tot, .next :: .startArray :: K, symOpenBrack⟩) :=
    to_next (D := D) (tot := tot) hn (hp := h) (n := n) (tab := tab) (K := K) (r := r)
  have hen : Enters tab ts tab' := by
    have h1 : Enters tab (ts ++ [tCloseArray]) tab' := enters_syntax.1 hen
    obtain ⟨tt, h2, h3⟩ := Enters.split h1
    have : tt = tab' := enters_syntax.1 h3
    rw [← this]; exact h2
  cases ts with
  | nil =>
    have : l = [] := by simpa using hm.symm
    subst this
    cases hen
    have t1 : To D ⟨h, n, tab, s1, tot, .next :: .startArray :: K, symOpenBrack⟩ (.run ⟨h, n, tab, s', tot, .startArray :: K, symCloseBrack⟩) :=
      to_next (D := D) (tot := tot) (Took.one.1 htk) (hp := h) (n := n) (tab := tab) (K := .startArray :: K) (r := symOpenBrack)
    refine ⟨upd h n (.bytes []), n + 1, .ptr .array false n, (t0.trans t1).trans (.one rfl), by omega, old_upd n h n (Nat.le_refl _) _,
      .refl hi, trivial, trivial, fun h' hh => .bytes ?_, rfl⟩
    rw [hh n (by omega) (by omega)]
    exact upd_same _ _ _
  | cons k ts =>
    cases l with
    | nil => cases hm
    | cons b bs =>
      have hr := hr (by simp)
      simp only [List.map_cons, List.cons.injEq] at hm
      obtain ⟨t, z, hk, hb⟩ := byteTok_leaf hm.1
      obtain ⟨s2, hn2, htk⟩ := htk
      obtain ⟨tab1, he1, he2⟩ := Enters.split (a := [k]) hen
      obtain ⟨h1, n1, v, t1, hrd⟩ := goE_leaf (D := D) (tot := tot) hk s1 s2 tab tab1 h n (.startArray :: K) symOpenBrack (Took.one.2 hn2) he1 hi
      have hv : v ≠ symCloseBrack := by rintro rfl; exact absurd hrd.mark (by decide)
      have st : rstep D ⟨h1, n1, tab1, s2, tot, .startArray :: K, v⟩ =
          .run ⟨upd h1 n1 (.bytes []), n1 + 1, tab1, s2, tot, .appendArray (.ptr .array false n1) D.room ([] : List Byte).length :: K, v⟩ := by
        refine (if_neg hv).trans ?_
        simp only [(byteOf_rep (D := D) (hrd.built h1 fun _ _ _ => rfl)).trans hb]
        rfl
      have ha : ArrSt (upd h1 n1 (.bytes [])) n1 (n1 + 1) [] := ⟨by omega, upd_same _ _ _⟩
      have hrep2 : Eq.Rep (upd h1 n1 (.bytes [])) v (.num t z) := hrd.built _ (fun i _ h2 => if_neg (by omega))
      obtain ⟨h2, st2, ha2, ho2⟩ := array_step (D := D) (tot := tot) ha (by simp at hr ⊢; omega) hrep2 hb (tab := tab1) (s := s2) (K := K)
      obtain ⟨h3, n3, t3, c1, c2, c3, c4⟩ := arr_rest (D := D) (tot := tot) (i := n1) (K := K) ts bs ([] ++ [b]) s2 s' tab1 tab' h2 (n1 + 1) v
        hm.2 (by simpa using hr) ha2 htk he2 hrd.later.inv
      have hle := hrd.le
      refine ⟨h3, n3, .ptr .array false n1, (t0.trans t1).trans (.step st (.step st2 t3)), by omega, ?_, hrd.later.trans c3, trivial, trivial,
        fun g hg => .bytes ?_, rfl⟩
      · intro kk j hj
        have hj' : kk = true ∨ j < n1 := hj.imp_right (fun h => by omega)
        exact (c2 kk j hj').trans ((ho2 kk j hj').trans ((old_upd n1 h1 n1 (Nat.le_refl _) _ kk j hj').trans (hrd.old kk j hj)))
      · rw [hg n1 hle (by have := c4.lt; omega)]
        exact c4.cell

theorem goI_expr {l ts : List Token} {x : X} (h : GoE D tot ts x) : GoI D tot loose l ts x := by
  intro s s' tab tab' hp n K r htk hen hi
  obtain ⟨h', n', v, t, hrd⟩ := h s s' tab tab' hp n K r htk hen hi
  exact ⟨h', n', v, t, hrd.le, hrd.old, hrd.later, hrd.names, hrd.known, hrd.built, .inl hrd.mark⟩

theorem goI_stray {l : List Token} {k : Token} {w : Nat} (hlo : loose = true) (hk : k ∈ l) (hw : strayOf k = some w) : GoI D tot loose l [k] (.sym w) := by
  intro s s' tab tab' h n K r htk hen hi
  have hn := Took.one.1 htk
  have hto := to_next (D := D) (tot := tot) hn (hp := h) (n := n) (tab := tab) (K := K) (r := r)
  have key : To D ⟨h, n, tab, s, tot, .next :: K, r⟩ (.run ⟨h, n, tab, s', tot, K, .sym w⟩) ∧ tab = tab' := by
    have hw := hw
    unfold strayOf at hw
    split at hw <;> cases hw <;> exact ⟨hto, enters_syntax.1 hen⟩
  obtain ⟨key, rfl⟩ := key
  exact ⟨h, n, .sym w, key, Nat.le_refl _, fun _ _ _ => rfl, .refl hi, trivial, trivial, fun _ _ => .sym, .inr ⟨hlo, k, hk, w, hw, rfl⟩⟩

theorem goS_nil : GoS D tot loose [] [] := by
  intro s s' tab tab' h lo n f l C K r hl htk hen hi
  cases htk
  cases hen
  exact ⟨h, n, f, l, r, fun _ h => h, Nat.le_refl _, fun _ _ _ => rfl, .refl hi, fun _ h => by simp at h, fun _ h => by simp at h, hl,
    fun h => h.resolve_right (fun h => absurd rfl h), fun _ h => h⟩

theorem goS_cons {ts ts' : List Token} {x : X} {xs : List X} (hx : GoI D tot loose [tCloseArray] ts x) (hs : GoS D tot loose ts' xs) :
    GoS D tot loose (ts ++ ts') (x :: xs) := by
  intro s s' tab tab' h lo n f l C K r hl htk hen hi
  obtain ⟨s1, htk1, htk2⟩ := htk.split
  obtain ⟨tab1, he1, he2⟩ := hen.split
  obtain ⟨h3, n3, v, t3, c1, c2, c3, c4, c5, c6, c7⟩ := hx s s1 tab tab1 h n (.append f l :: K) r htk1 he1 hi
  have hv : v ≠ symClosePar ∧ v ≠ symDot := by
    rcases c7 with c7 | ⟨_, k, hk, w, hw, rfl⟩
    · exact not_close c7
    · rw [List.mem_singleton] at hk
      subst hk
      cases hw
      decide
  obtain ⟨h2, f2, l2, st, hl2, ho2, htag⟩ := append_step (D := D) (tot := tot) hl c2 c1 c6 hv (tab := tab1) (s := s1) (K := K)
  obtain ⟨h4, n4, f4, l4, r4, t4, b1, b2, b3, b4, b5, b6, b7, b8⟩ := hs s1 s' tab1 tab' h2 lo (n3 + 1) f2 l2 _ K v hl2 htk2 he2 c3.inv
  have hkl := known_later c3.inv b3 c4 c5
  refine ⟨h4, n4, f4, l4, r4, fun res h => t3.trans (.step st (t4 res h)), by omega, ho2.trans b2 (Nat.le_refl _), c3.trans b3, ?_, ?_, ?_,
    fun _ => b7 (.inl htag), fun hlo _ => b8 hlo ?_⟩
  · intro y hy
    rcases List.mem_cons.1 hy with rfl | hy
    · exact c4
    · exact b4 y hy
  · intro y hy
    rcases List.mem_cons.1 hy with rfl | hy
    · exact hkl.1
    · exact b5 y hy
  · rw [← hkl.2] at b6; exact b6
  · rcases c7 with c7 | ⟨h, _⟩
    · exact c7
    · rw [hlo] at h; cases h

theorem go_expr {ts : List Token} {x : X} (h : Expr D loose ts x) : GoE D tot ts x :=
  Expr.rec (motive_1 := fun ts x _ => GoE D tot ts x) (motive_2 := fun l ts x _ => GoI D tot loose l ts x)
    (motive_3 := fun ts xs _ => GoS D tot loose ts xs)
    (fun h => goE_leaf h) (fun ho hp _ h => goE_list ho hp h) (fun ho hp _ hne _ hs hx => goE_dotted ho hp hs hne hx)
    (fun hm hr => goE_array hm hr) (fun hk _ hx => goE_quoted hk hx) (fun _ h => goI_expr h) (fun hlo hk hw => goI_stray hlo hk hw)
    goS_nil (fun _ _ hx hs => goS_cons hx hs) h

theorem go_seq {ts : List Token} {xs : List X} (h : Seq D loose ts xs) : GoS D tot loose ts xs :=
  Seq.rec (motive_1 := fun ts x _ => GoE D tot ts x) (motive_2 := fun l ts x _ => GoI D tot loose l ts x)
    (motive_3 := fun ts xs _ => GoS D tot loose ts xs)
    (fun h => goE_leaf h) (fun ho hp _ h => goE_list ho hp h) (fun ho hp _ hne _ hs hx => goE_dotted ho hp hs hne hx)
    (fun hm hr => goE_array hm hr) (fun hk _ hx => goE_quoted hk hx) (fun _ h => goI_expr h) (fun hlo hk hw => goI_stray hlo hk hw)
    goS_nil (fun _ _ hx hs => goS_cons hx hs) h

end Verif.Print
