import Verif.Print.Parse2

/-! # Whatever the reader accepts is in the loose grammar -/

namespace Verif.Print

open Verif.Tok (Byte ascii Token Stream)
open Verif.Eq (T NTy Val Heap Obj)

variable {D : Dev} {tot : Nat}

/-- The elements of a list and its end. -/
def spine (tab : Sym.Tab) (xs : List X) (d : T) : T := xs.foldr (fun x t => T.cons (x.tree tab) t) d

/-- What can happen when an item is to be read. -/
inductive GotItem (D : Dev) (tot : Nat) (s : Stream) (tab : Sym.Tab) (h : Heap) (n : Nat) (K : List RF) (r : Val) : Prop
  | stray {k w s'} : strayOf k = some w → Next s k s' →
      To D ⟨h, n, tab, s, tot, .next :: K, r⟩ (.run ⟨h, n, tab, s', tot, K, .sym w⟩) → GotItem D tot s tab h n K r
  | expr {ts x s' tab' h' n' v} : Expr D true ts x → Took s ts s' → s'.ended = true → s'.avail.length < s.avail.length →
      Read n h tab n' h' tab' v x → To D ⟨h, n, tab, s, tot, .next :: K, r⟩ (.run ⟨h', n', tab', s', tot, K, v⟩) →
      GotItem D tot s tab h n K r
  | eof {s1} : AtEnd s .finished s1 → To D ⟨h, n, tab, s, tot, .next :: K, r⟩ (readFinish ⟨h, n, tab, s1, tot, K, r⟩) →
      GotItem D tot s tab h n K r
  | stops : Stops D ⟨h, n, tab, s, tot, .next :: K, r⟩ → GotItem D tot s tab h n K r

/-- What can happen when a list is read on. -/
inductive GotSeq (D : Dev) (tot : Nat) (s : Stream) (tab : Sym.Tab) (h : Heap) (lo n : Nat) (f l : Val) (C : T → T) (K : List RF)
    (r : Val) : Prop
  | closed {ts xs c s' tab' h' n' v} : Seq D true ts xs → c = tClose ∨ c = tCloseBlock → Took s (ts ++ [c]) s' → s'.ended = true →
      s'.avail.length < s.avail.length → n ≤ n' → Old lo h h' → Later tab tab' → AllX X.Names xs → AllX (X.Known tab') xs →
      Built h' lo n' v (C (spine tab' xs (.sym 0))) → isTokSym v = false →
      To D ⟨h, n, tab, s, tot, .next :: .append f l :: K, r⟩ (.run ⟨h', n', tab', s', tot, K, v⟩) →
      GotSeq D tot s tab h lo n f l C K r
  | dotted {ts xs ts' x c s' tab' h' n' v} : Seq D true ts xs → l.tag = .cons ∨ xs ≠ [] → Item D true [tCloseArray] ts' x →
      c = tClose ∨ c = tCloseBlock → Took s (ts ++ tDot :: ts' ++ [c]) s' → s'.ended = true →
      s'.avail.length < s.avail.length → n ≤ n' → Old lo h h' → Later tab tab' → AllX X.Names xs → AllX (X.Known tab') xs →
      x.Names → x.Known tab' →
      Built h' lo n' v (C (spine tab' xs (x.tree tab'))) → isTokSym v = false →
      To D ⟨h, n, tab, s, tot, .next :: .append f l :: K, r⟩ (.run ⟨h', n', tab', s', tot, K, v⟩) →
      GotSeq D tot s tab h lo n f l C K r
  | eof {ts xs s0 s1 tab' h' n' f' l' r'} : Seq D true ts xs → Took s ts s0 → AtEnd s0 .finished s1 → n ≤ n' → Old lo h h' →
      Later tab tab' → AllX X.Names xs → AllX (X.Known tab') xs → ListSt h' lo n' f' l' (fun d => C (spine tab' xs d)) →
      To D ⟨h, n, tab, s, tot, .next :: .append f l :: K, r⟩ (readFinish ⟨h', n', tab', s1, tot, .append f' l' :: K, r'⟩) →
      GotSeq D tot s tab h lo n f l C K r
  | stops : Stops D ⟨h, n, tab, s, tot, .next :: .append f l :: K, r⟩ → GotSeq D tot s tab h lo n f l C K r

/-- What can happen when an array is read on. -/
inductive GotArr (D : Dev) (tot : Nat) (s : Stream) (tab : Sym.Tab) (h : Heap) (i n : Nat) (l : List Byte) (K : List RF) (r : Val) : Prop
  | closed {ts bs s' tab' h' n'} : ts.map (byteTok D) = bs.map some → Took s (ts ++ [tCloseArray]) s' → s'.ended = true →
      s'.avail.length < s.avail.length → n ≤ n' → Old i h h' → Later tab tab' → ArrSt h' i n' (l ++ bs) → (l ++ bs).length + 2 ≤ D.room →
      To D ⟨h, n, tab, s, tot, .next :: .appendArray (.ptr .array false i) D.room l.length :: K, r⟩
        (.run ⟨h', n', tab', s', tot, K, .ptr .array false i⟩) → GotArr D tot s tab h i n l K r
  | stops : Stops D ⟨h, n, tab, s, tot, .next :: .appendArray (.ptr .array false i) D.room l.length :: K, r⟩ →
      GotArr D tot s tab h i n l K r

/-- The end of a program is not the end of this list. -/
def NotProg (K : List RF) : Prop := ∀ K', K ≠ .done true :: K'

theorem finish_error (ht : tot ≠ 0) {s : Stream} (hs : s.avail = []) {h : Heap} {n : Nat} {tab : Sym.Tab} {K : List RF} {r : Val}
    (hK : ∀ f l K', K ≠ .append f l :: .done true :: K') : readFinish ⟨h, n, tab, s, tot, K, r⟩ = .error := by
  unfold readFinish
  split
  · rfl
  · split
    · next e => exact absurd e (hK _ _ _)
    · simp only [hs, List.length_nil]
      rw [if_neg (Ne.symm ht)]

theorem listX_num {xs : List X} {x : X} {t : NTy} {z : Int} (h : listX xs x = .num t z) : xs = [] ∧ x = .num t z := by
  cases xs with
  | nil => exact ⟨rfl, h⟩
  | cons => cases h

/-- A number is one token. -/
theorem expr_num {loose : Bool} {ts : List Token} {x : X} (h : Expr D loose ts x) {t : NTy} {z : Int} (hx : x = .num t z) :
    ∃ k, ts = [k] ∧ leafOf D k = some (.num t z) := by
  cases h with
  | leaf h => subst hx; exact ⟨_, rfl, h⟩
  | list => have := (listX_num hx).2; cases this
  | dotted _ _ _ h => exact absurd (listX_num hx).1 h
  | array => cases hx
  | quoted => cases hx

theorem byteOfT_num {t : T} {x : Byte} (h : byteOfT D t = some x) : ∃ ty z, t = .num ty z := by
  cases t with
  | num ty z => exact ⟨ty, z, rfl⟩
  | _ => cases h

theorem tree_num {x : X} {tab : Sym.Tab} {ty : NTy} {z : Int} (h : x.tree tab = .num ty z) : x = .num ty z := by
  cases x <;> simp_all [X.tree]

theorem Later.refl {tab : Sym.Tab} (h : Sym.Inv tab) : Later tab tab := ⟨h, .refl _⟩

theorem allKnown_later {tab tab' : Sym.Tab} (hi : Sym.Inv tab) (hl : Later tab tab') {xs : List X} (hn : AllX X.Names xs)
    (hk : AllX (X.Known tab) xs) : AllX (X.Known tab') xs := fun x hx => (known_later hi hl (hn x hx) (hk x hx)).1

variable (ht : tot ≠ 0)
include ht

theorem got_arr (N : Nat)
    (item : ∀ (s : Stream), s.ended = true → s.avail.length ≤ N → ∀ tab h n K r, Sym.Inv tab → NotProg K → GotItem D tot s tab h n K r)
    (more : ∀ (s : Stream), s.ended = true → s.avail.length < N → ∀ tab h i n l K r, Sym.Inv tab → ArrSt h i n l →
      GotArr D tot s tab h i n l K r) :
    ∀ (s : Stream), s.ended = true → s.avail.length ≤ N → ∀ tab h i n l K r, Sym.Inv tab → ArrSt h i n l →
      GotArr D tot s tab h i n l K r := by
  intro s hs hN tab h i n l K r hi ha
  cases item s hs hN tab h n (.appendArray (.ptr .array false i) D.room l.length :: K) r hi (fun _ e => by cases e) with
  | stops h1 => exact .stops h1
  | eof h1 h2 =>
    rw [finish_error ht (atEnd_finished h1) (by intro f l K' e; cases e)] at h2
    exact .stops (.inl h2)
  | @stray k w s' hk hn hto =>
    have hns : ∀ w, byteOf D h (.sym w) = none := fun w => rfl
    by_cases hr : D.room < l.length + 2
    · exact .stops (.trans hto (.inl (.one (array_error ha (.inl hr)))))
    by_cases hw : w = 0x81
    · subst hw
      have hk4 : k = tCloseArray := by
        unfold strayOf at hk
        split at hk <;> first | rfl | cases hk
      subst hk4
      have hf := next_facts hn hs
      exact .closed (ts := []) (bs := []) rfl (Took.one.2 hn) hf.1 hf.2 (Nat.le_refl _) (fun _ _ _ => rfl) (.refl hi)
        (by rw [List.append_nil]; exact ha) (by rw [List.append_nil]; omega) (hto.trans (.one (array_close ha (by omega))))
    · refine .stops (.trans hto (.inl (.one (array_error ha (.inr ⟨rfl, ?_⟩)))))
      intro e
      exact hw (Val.sym.inj e)
  | @expr ts x s' tab' h' n' v hx htk he hlt hrd hto =>
    have ha' : ArrSt h' i n' l := ⟨Nat.lt_of_lt_of_le ha.lt hrd.le, (hrd.old false i (.inr ha.lt)).trans ha.cell⟩
    have hrep := hrd.built h' (fun _ _ _ => rfl)
    by_cases hr : D.room < l.length + 2
    · exact .stops (.trans hto (.inl (.one (array_error ha' (.inl hr)))))
    cases hb : byteOfT D (x.tree tab') with
    | none =>
      refine .stops (.trans hto (.inl (.one (array_error ha' (.inr ⟨(byteOf_rep hrep).trans hb, ?_⟩)))))
      rintro rfl
      exact absurd hrd.mark (by decide)
    | some b =>
      obtain ⟨ty, z, e⟩ := byteOfT_num hb
      obtain ⟨k, rfl, hk⟩ := expr_num hx (tree_num e)
      have hbk : byteTok D k = some b := by rw [byteTok_eq k tab', hk]; simpa [X.tree, ← e] using hb
      obtain ⟨h2, st, ha2, ho2⟩ := array_step (tot := tot) ha' (by omega) hrep hb (tab := tab') (s := s') (K := K)
      have hto2 := hto.trans (.one st)
      cases more s' he (by omega) tab' h2 i n' (l ++ [b]) K v hrd.later.inv ha2 with
      | stops h3 => exact .stops (.trans hto2 h3)
      | @closed ts bs s'' tab'' h'' n'' c1 c2 c3 c4 c5 c6 c7 c8 c9 c10 =>
        rw [List.append_assoc, List.singleton_append] at c8 c9
        refine .closed (ts := k :: ts) (bs := b :: bs) (by simp [hbk, c1]) (htk.append c2) c3 (by omega) (Nat.le_trans hrd.le c5) ?_
          (hrd.later.trans c7) c8 c9 (hto2.trans c10)
        intro kk j hj
        exact (c6 kk j hj).trans ((ho2 kk j hj).trans (hrd.old kk j (hj.imp_right (fun h => Nat.lt_trans h ha.lt))))

theorem stray_expr {k : Token} {w : Nat} (h : strayOf k = some w) :
    (w = 0x71 ∧ (k = tClose ∨ k = tCloseBlock)) ∨ (w = 0x81 ∧ k = tCloseArray) ∨ (w = 0x76 ∧ k = tDot) := by
  unfold strayOf at h
  split at h
  · cases h; exact .inl ⟨rfl, .inl rfl⟩
  · cases h; exact .inl ⟨rfl, .inr rfl⟩
  · cases h; exact .inr (.inl ⟨rfl, rfl⟩)
  · cases h; exact .inr (.inr ⟨rfl, rfl⟩)
  · cases h

/-- After the dot. -/
theorem got_dot (N : Nat)
    (item : ∀ (s : Stream), s.ended = true → s.avail.length ≤ N → ∀ tab h n K r, Sym.Inv tab → NotProg K → GotItem D tot s tab h n K r)
    {s s0 : Stream} (hs : s.ended = true) (hN : s.avail.length ≤ N) (hlt : s.avail.length < s0.avail.length) (hdot : Next s0 tDot s)
    {tab : Sym.Tab} {h : Heap} {lo n : Nat} {f l : Val} {C : T → T} {K : List RF}
    {r : Val} (hi : Sym.Inv tab) (hl : ListSt h lo n f l C)
    (hto : To D ⟨h, n, tab, s0, tot, .next :: .append f l :: K, r⟩ (.run ⟨h, n, tab, s, tot, .next :: .dotTerm f l :: K, symDot⟩)) :
    GotSeq D tot s0 tab h lo n f l C K r := by
  have close : ∀ {s1 : Stream} {tab1 : Sym.Tab} {h1 : Heap} {n1 : Nat} {v : Val} {x : X} {ts : List Token}, s1.ended = true →
      s1.avail.length ≤ N → s1.avail.length < s.avail.length →
      Took s ts s1 → Item D true [tCloseArray] ts x → n ≤ n1 → Old n h h1 → Later tab tab1 → x.Names → x.Known tab1 →
      Built h1 n n1 v (x.tree tab1) → v ≠ symClosePar ∧ v ≠ symDot →
      To D ⟨h, n, tab, s0, tot, .next :: .append f l :: K, r⟩ (.run ⟨h1, n1, tab1, s1, tot, .dotTerm f l :: K, v⟩) →
      GotSeq D tot s0 tab h lo n f l C K r := by
    intro s1 tab1 h1 n1 v x ts he hN1 hlt1 htk hitem hle hold hlater hnm hkn hbt hv hto1
    by_cases hlc : l.tag = .cons
    · obtain ⟨h2, st, hb2, ho2⟩ := dot_step (D := D) (tot := tot) hl hlc hold hle hbt hv (tab := tab1) (s := s1) (K := K)
      have hto2 := hto1.trans (.one st)
      cases item s1 he hN1 tab1 h2 n1 (.expectClose f :: K) f hlater.inv (fun _ e => by cases e) with
      | stops h3 => exact .stops (.trans hto2 h3)
      | eof h3 h4 =>
        rw [finish_error ht (atEnd_finished h3) (by intro f l K' e; cases e)] at h4
        exact .stops (.trans hto2 (.inl h4))
      | @expr ts2 x2 s2 tab2 h3 n3 v2 _ _ _ _ hrd hto3 =>
        refine .stops (.trans (hto2.trans hto3) (.inl (.one (if_neg ?_))))
        rintro rfl
        exact absurd hrd.mark (by decide)
      | @stray k w s2 hk hn hto3 =>
        rcases stray_expr ht hk with ⟨rfl, hc⟩ | ⟨rfl, _⟩ | ⟨rfl, _⟩
        · have hf := next_facts hn he
          refine .dotted (ts := []) (xs := []) (ts' := ts) (c := k) .nil (.inl hlc) hitem hc ?_ hf.1 (by omega) hle ho2 hlater
            (fun _ h => by simp at h) (fun _ h => by simp at h) hnm hkn (v := f) hb2 hl.2.1 ((hto2.trans hto3).trans (.one ?_))
          · exact ⟨s, hdot, htk.append (Took.one.2 hn)⟩
          · rfl
        · exact .stops (.trans (hto2.trans hto3) (.inl (.one rfl)))
        · exact .stops (.trans (hto2.trans hto3) (.inl (.one rfl)))
    · refine .stops (.trans hto1 (.inl (.one ((if_neg (not_or.2 hv)).trans ?_))))
      split
      · next e => exact absurd e hlc
      · rfl
  cases item s hs hN tab h n (.dotTerm f l :: K) symDot hi (fun _ e => by cases e) with
  | stops h1 => exact .stops (.trans hto h1)
  | eof h1 h2 => exact .stops (.trans hto (.inl h2))
  | @stray k w s' hk hn hto2 =>
    rcases stray_expr ht hk with ⟨rfl, _⟩ | ⟨rfl, rfl⟩ | ⟨rfl, _⟩
    · exact .stops (.trans (hto.trans hto2) (.inl (.one rfl)))
    · have hf := next_facts hn hs
      exact close hf.1 (by omega) hf.2 (Took.one.2 hn) (.stray rfl (by simp) rfl) (Nat.le_refl _) (fun _ _ _ => rfl) (.refl hi) trivial trivial
        (fun _ _ => .sym) (by decide) (hto.trans hto2)
    · exact .stops (.trans (hto.trans hto2) (.inl (.one rfl)))
  | @expr ts x s' tab' h' n' v hx htk he hlt2 hrd hto2 =>
    exact close he (by omega) hlt2 htk (.expr hx) hrd.le hrd.old hrd.later hrd.names hrd.known hrd.built (not_close hrd.mark) (hto.trans hto2)

theorem got_seq (N : Nat)
    (item : ∀ (s : Stream), s.ended = true → s.avail.length ≤ N → ∀ tab h n K r, Sym.Inv tab → NotProg K → GotItem D tot s tab h n K r)
    (more : ∀ (s : Stream), s.ended = true → s.avail.length < N → ∀ tab h lo n f l C K r, Sym.Inv tab → ListSt h lo n f l C →
      GotSeq D tot s tab h lo n f l C K r) :
    ∀ (s : Stream), s.ended = true → s.avail.length ≤ N → ∀ tab h lo n f l C K r, Sym.Inv tab → ListSt h lo n f l C →
      GotSeq D tot s tab h lo n f l C K r := by
  intro s hs hN tab h lo n f l C K r hi hl
  have elem : ∀ {s1 : Stream} {tab1 : Sym.Tab} {h1 : Heap} {n1 : Nat} {v : Val} {x : X} {ts : List Token}, s1.ended = true →
      s1.avail.length < s.avail.length →
      Took s ts s1 → Item D true [tCloseArray] ts x → n ≤ n1 → Old n h h1 → Later tab tab1 → x.Names → x.Known tab1 →
      Built h1 n n1 v (x.tree tab1) → v ≠ symClosePar ∧ v ≠ symDot →
      To D ⟨h, n, tab, s, tot, .next :: .append f l :: K, r⟩ (.run ⟨h1, n1, tab1, s1, tot, .append f l :: K, v⟩) →
      GotSeq D tot s tab h lo n f l C K r := by
    intro s1 tab1 h1 n1 v x ts he hlt1 htk hitem hle hold hlater hnm hkn hbt hv hto1
    obtain ⟨h2, f2, l2, st, hl2, ho2, htag⟩ := append_step (D := D) (tot := tot) hl hold hle hbt hv (tab := tab1) (s := s1) (K := K)
    have hto2 := hto1.trans (.one st)
    have consN : ∀ {xs : List X}, AllX X.Names xs → AllX X.Names (x :: xs) := fun h y hy => by
      rcases List.mem_cons.1 hy with rfl | hy
      · exact hnm
      · exact h y hy
    have consK : ∀ {xs : List X} {tab2 : Sym.Tab}, Later tab1 tab2 → AllX (X.Known tab2) xs → AllX (X.Known tab2) (x :: xs) := fun hl h y hy => by
      rcases List.mem_cons.1 hy with rfl | hy
      · exact (known_later hlater.inv hl hnm hkn).1
      · exact h y hy
    have tr : ∀ {tab2 : Sym.Tab}, Later tab1 tab2 → x.tree tab1 = x.tree tab2 := fun hl => (known_later hlater.inv hl hnm hkn).2.symm
    cases more s1 he (by omega) tab1 h2 lo (n1 + 1) f2 l2 _ K v hlater.inv hl2 with
    | stops h3 => exact .stops (.trans hto2 h3)
    | @closed ts' xs c s' tab' h' n' v' c1 c2 c3 c4 c5 c6 c7 c8 c9 c10 c11 c12 c13 =>
      refine .closed (.cons hitem c1) c2 ?_ c4 (by omega) (by omega) (ho2.trans c7 (Nat.le_refl _)) (hlater.trans c8) (consN c9)
        (consK c8 c10) ?_ c12 (hto2.trans c13)
      · rw [List.append_assoc]; exact htk.append c3
      · rw [tr c8] at c11; exact c11
    | @dotted ts' xs ts2 x2 c s' tab' h' n' v' c1 c2 c3 c4 c5 c6 c7 c8 c9 c10 c11 c12 c13 c14 c15 c16 c17 =>
      refine .dotted (.cons hitem c1) (.inr (by simp)) c3 c4 ?_ c6 (by omega) (by omega) (ho2.trans c9 (Nat.le_refl _)) (hlater.trans c10)
        (consN c11) (consK c10 c12) c13 c14 ?_ c16 (hto2.trans c17)
      · rw [List.append_assoc, List.append_assoc, ← List.append_assoc ts']; exact htk.append c5
      · rw [tr c10] at c15; exact c15
    | @eof ts' xs s0 s2 tab' h' n' f' l' r' c1 c2 c3 c4 c5 c6 c7 c8 c9 c10 =>
      refine .eof (.cons hitem c1) (htk.append c2) c3 (by omega) (ho2.trans c5 (Nat.le_refl _)) (hlater.trans c6) (consN c7) (consK c6 c8) ?_
        (hto2.trans c10)
      rw [tr c6] at c9; exact c9
  cases item s hs hN tab h n (.append f l :: K) r hi (fun _ e => by cases e) with
  | stops h1 => exact .stops h1
  | eof h1 h2 =>
    exact .eof (ts := []) (xs := []) .nil rfl h1 (Nat.le_refl _) (fun _ _ _ => rfl) (.refl hi) (fun _ h => by simp at h)
      (fun _ h => by simp at h) hl h2
  | @stray k w s' hk hn hto =>
    have hf := next_facts hn hs
    rcases stray_expr ht hk with ⟨rfl, hc⟩ | ⟨rfl, rfl⟩ | ⟨rfl, rfl⟩
    · obtain ⟨h2, v, st, hb2, ho2, hm⟩ := close_step (D := D) (tot := tot) hl (tab := tab) (s := s') (K := K)
      exact .closed (ts := []) (xs := []) .nil hc (Took.one.2 hn) hf.1 hf.2 (Nat.le_refl _) ho2 (.refl hi) (fun _ h => by simp at h)
        (fun _ h => by simp at h) hb2 hm (hto.trans (.one st))
    · exact elem hf.1 hf.2 (Took.one.2 hn) (.stray rfl (by simp) rfl) (Nat.le_refl _) (fun _ _ _ => rfl) (.refl hi) trivial trivial
        (fun _ _ => .sym) (by decide) hto
    · exact got_dot ht N item hf.1 (by omega) hf.2 hn hi hl (hto.trans (.one rfl))
  | @expr ts x s' tab' h' n' v hx htk he hlt2 hrd hto2 =>
    exact elem he hlt2 htk (.expr hx) hrd.le hrd.old hrd.later hrd.names hrd.known hrd.built (not_close hrd.mark) hto2

end Verif.Print
