import Verif.Print.Parse3

/-! # Whatever the reader accepts is in the loose grammar: expressions -/

namespace Verif.Print

open Verif.Tok (Byte ascii Token Stream)
open Verif.Eq (T NTy Val Heap Obj)

variable {D : Dev} {tot : Nat} (ht : tot ≠ 0)
include ht

/-- A list, from what happens after its opening bracket. -/
theorem list_item {s s1 : Stream} {o : Token} {p : List X} (hp : opens o = some p) (hn : Next s o s1)
    (hlt : s1.avail.length < s.avail.length) {tab : Sym.Tab} {h h1 : Heap}
    {n n1 : Nat} {K : List RF} {r r1 f l : Val} {C : T → T} (hle : n ≤ n1) (hold : Old n h h1)
    (hC : ∀ tab xs d, C (spine tab xs d) = spine tab (p ++ xs) d) (hl : l.tag = .cons → p ≠ [])
    (hpn : AllX X.Names p) (hpk : ∀ tab, AllX (X.Known tab) p) (hK : NotProg K)
    (hto : To D ⟨h, n, tab, s, tot, .next :: K, r⟩ (.run ⟨h1, n1, tab, s1, tot, .next :: .append f l :: K, r1⟩))
    (hg : GotSeq D tot s1 tab h1 n n1 f l C K r1) : GotItem D tot s tab h n K r := by
  have hoc : ∀ c, c = tClose ∨ c = tCloseBlock → Pair true o c := by
    intro c hc
    refine .inr (.inr ⟨rfl, ?_, hc⟩)
    unfold opens at hp
    split at hp
    · exact .inl rfl
    · exact .inr rfl
    · cases hp
  have allN : ∀ {xs}, AllX X.Names xs → AllX X.Names (p ++ xs) := fun h x hx => (List.mem_append.1 hx).elim (hpn x) (h x)
  have allK : ∀ {tab xs}, AllX (X.Known tab) xs → AllX (X.Known tab) (p ++ xs) := fun h x hx => (List.mem_append.1 hx).elim (hpk _ x) (h x)
  cases hg with
  | stops h1 => exact .stops (.trans hto h1)
  | eof _ _ c3 _ _ _ _ _ _ c10 =>
    rw [finish_error ht (atEnd_finished c3) (by intro f l K' e; cases e; exact hK _ rfl)] at c10
    exact .stops (.trans hto (.inl c10))
  | @closed ts xs c s' tab' h' n' v' c1 c2 c3 c4 c5 c6 c7 c8 c9 c10 c11 c12 c13 =>
    refine .expr (.list hp (hoc c c2) c1) (s' := s') ⟨s1, hn, c3⟩ c4 (by omega) ⟨by omega, hold.trans c7 (Nat.le_refl _), c8,
      listX_names (allN c9) trivial, listX_known (allK c10) trivial, ?_, c12⟩ (hto.trans c13)
    rw [listX_tree]
    rw [hC] at c11
    exact c11
  | @dotted ts xs ts2 x2 c s' tab' h' n' v' c1 c2 c3 c4 c5 c6 c7 c8 c9 c10 c11 c12 c13 c14 c15 c16 c17 =>
    refine .expr (.dotted hp (hoc c c4) c1 ?_ c3) (s' := s') ?_ c6 (by omega) ⟨by omega, hold.trans c9 (Nat.le_refl _), c10,
      listX_names (allN c11) c13, listX_known (allK c12) c14, ?_, c16⟩ (hto.trans c17)
    · rcases c2 with c2 | c2
      · simp [hl c2]
      · simp [c2]
    · exact ⟨s1, hn, c5⟩
    · rw [listX_tree]
      rw [hC] at c15
      exact c15

theorem got_item (N : Nat)
    (item : ∀ (s : Stream), s.ended = true → s.avail.length < N → ∀ tab h n K r, Sym.Inv tab → NotProg K → GotItem D tot s tab h n K r)
    (seq : ∀ (s : Stream), s.ended = true → s.avail.length < N → ∀ tab h lo n f l C K r, Sym.Inv tab → ListSt h lo n f l C →
      GotSeq D tot s tab h lo n f l C K r)
    (arr : ∀ (s : Stream), s.ended = true → s.avail.length < N → ∀ tab h i n l K r, Sym.Inv tab → ArrSt h i n l →
      GotArr D tot s tab h i n l K r) :
    ∀ (s : Stream), s.ended = true → s.avail.length ≤ N → ∀ tab h n K r, Sym.Inv tab → NotProg K → GotItem D tot s tab h n K r := by
  intro s hs hN tab h n K r hi hK
  rcases next_or_end _ s hs (Nat.le_refl _) with ⟨k, s1, hn⟩ | ⟨s1, h1⟩
  rotate_left
  · rcases h1 with h1 | h1 | h1
    · exact .eof h1 ((to_end h1).1 rfl)
    · exact .stops (.inl ((to_end h1).2.1 rfl))
    · exact .stops (.inr (.inl ((to_end h1).2.2 rfl)))
  have hf := next_facts hn hs
  have hto := to_next (D := D) (tot := tot) hn (hp := h) (n := n) (tab := tab) (K := K) (r := r)
  have leaf : ∀ x, leafOf D k = some x → GotItem D tot s tab h n K r := by
    intro x hx
    rcases leaf_step (D := D) (tot := tot) hx (next_name hn) (h := h) (n := n) hi (s := s1) (K0 := .next :: K) (K := K) (r := r) with
      ⟨h', n', tab', v, e, _, hrd⟩ | ⟨e, _⟩
    · rw [e] at hto
      exact .expr (.leaf hx) (Took.one.2 hn) hf.1 hf.2 hrd hto
    · rw [e] at hto
      exact .stops (.inl hto)
  have stray : ∀ w, strayOf k = some w → tokStep D ⟨h, n, tab, s1, tot, .next :: K, r⟩ K k = .run ⟨h, n, tab, s1, tot, K, .sym w⟩ →
      GotItem D tot s tab h n K r := by
    intro w hw e
    rw [e] at hto
    exact .stray hw hn hto
  have quote : ∀ w, prefixOf k = some w →
      tokStep D ⟨h, n, tab, s1, tot, .next :: K, r⟩ K k = .run ⟨h, n, tab, s1, tot, .next :: .wrap (.sym w) :: K, r⟩ →
      GotItem D tot s tab h n K r := by
    intro w hw e
    rw [e] at hto
    cases item s1 hf.1 (by omega) tab h n (.wrap (.sym w) :: K) r hi (fun _ e => by cases e) with
    | stops h1 => exact .stops (.trans hto h1)
    | eof h1 h2 =>
      rw [finish_error ht (atEnd_finished h1) (by intro f l K' e; cases e)] at h2
      exact .stops (.trans hto (.inl h2))
    | @stray k2 w2 s' hk2 hn2 hto2 =>
      have hf2 := next_facts hn2 hf.1
      obtain ⟨h2, v2, st, hb, ho, hm⟩ := wrap_step (D := D) (tot := tot) (h := h) (n := n) (n1 := n) (h1 := h) (v := .sym w2) (t := .sym w2)
        (fun _ _ _ => rfl) (Nat.le_refl _) (fun _ _ => .sym) w (tab := tab) (s := s') (K := K)
      refine .expr (.quoted hw (.stray rfl ?_ hk2)) ⟨s1, hn, Took.one.2 hn2⟩ hf2.1 (by omega)
        ⟨by omega, ho, .refl hi, ⟨trivial, trivial, trivial⟩, ⟨trivial, trivial, trivial⟩, hb, hm⟩ ((hto.trans hto2).trans (.one st))
      rcases stray_expr ht hk2 with ⟨_, rfl | rfl⟩ | ⟨_, rfl⟩ | ⟨_, rfl⟩ <;> simp
    | @expr ts x s' tab' h' n' v hx htk he hlt2 hrd hto2 =>
      obtain ⟨h2, v2, st, hb, ho, hm⟩ := wrap_step (D := D) (tot := tot) hrd.old hrd.le hrd.built w (tab := tab') (s := s') (K := K)
      have := hrd.le
      exact .expr (.quoted hw (.expr hx)) ⟨s1, hn, htk⟩ he (by omega)
        ⟨by omega, ho, hrd.later, ⟨trivial, hrd.names, trivial⟩, ⟨trivial, hrd.known, trivial⟩, hb, hm⟩ ((hto.trans hto2).trans (.one st))
  have err : tokStep D ⟨h, n, tab, s1, tot, .next :: K, r⟩ K k = .error → GotItem D tot s tab h n K r := by
    intro e; rw [e] at hto; exact .stops (.inl hto)
  cases k with
  | string y => exact leaf _ rfl
  | float ty y => exact leaf _ rfl
  | symbol y => exact leaf _ rfl
  | char y => exact leaf _ rfl
  | int ty neg y =>
    cases hty : tokNTy ty with
    | none => exact err (by simp only [tokStep, hty])
    | some t => exact leaf (.num t (intVal D.b neg y t)) (by simp only [leafOf, hty, Option.map_some])
  | «syntax» k =>
    match k with
    | 1 =>
      exact list_item ht (p := []) rfl hn hf.2 (Nat.le_refl _) (fun _ _ _ => rfl) (C := id) (fun _ _ _ => rfl) (fun e => by cases e)
        (fun _ h => by simp at h) (fun _ _ h => by simp at h) hK hto
        (seq s1 hf.1 (by omega) tab h n n (.sym 0) (.sym 0) id K symOpenPar hi (listSt_nil h n))
    | 12 =>
      obtain ⟨h2, f2, l2, st, hl2, ho2, htag⟩ := append_step (D := D) (tot := tot) (listSt_nil h n) (h1 := h) (n1 := n) (v := .sym 0x102)
        (t := .sym 0x102) (fun _ _ _ => rfl) (Nat.le_refl _) (fun _ _ => .sym) (by decide) (tab := tab) (s := s1) (K := K)
      exact list_item ht (p := [.sym 0x102]) rfl hn hf.2 (Nat.le_succ n) ho2 (C := fun d => id (.cons (.sym 0x102) d)) (fun _ _ _ => rfl)
        (fun _ => by simp) (fun x h => by simp at h; subst h; trivial) (fun _ x h => by simp at h; subst h; trivial) hK
        (.trans hto (.one st)) (seq s1 hf.1 (by omega) tab h2 n (n + 1) f2 l2 _ K (.sym 0x102) hi hl2)
    | 2 => exact stray _ rfl rfl
    | 13 => exact stray _ rfl rfl
    | 4 => exact stray _ rfl rfl
    | 5 => exact stray _ rfl rfl
    | 6 => exact leaf _ rfl
    | 11 => exact leaf _ rfl
    | 7 => exact quote _ rfl rfl
    | 9 => exact quote _ rfl rfl
    | 10 => exact quote _ rfl rfl
    | 8 => exact .stops (.inr (.inr hto))
    | 3 =>
      have hto : To D ⟨h, n, tab, s, tot, .next :: K, r⟩ (.run ⟨h, n, tab, s1, tot, .next :: .startArray :: K, symOpenBrack⟩) := hto
      cases item s1 hf.1 (by omega) tab h n (.startArray :: K) symOpenBrack hi (fun _ e => by cases e) with
      | stops h1 => exact .stops (.trans hto h1)
      | eof h1 h2 => exact .stops (.trans hto (.inl h2))
      | @stray k2 w2 s' hk2 hn2 hto2 =>
        have hf2 := next_facts hn2 hf.1
        rcases stray_expr ht hk2 with ⟨rfl, _⟩ | ⟨rfl, rfl⟩ | ⟨rfl, _⟩
        · exact .stops (.trans (hto.trans hto2) (.inl (.one rfl)))
        · refine .expr (.array (ts := []) (l := []) rfl (fun h => absurd rfl h)) (s' := s') (h' := upd h n (.bytes [])) (n' := n + 1)
            (tab' := tab) (v := .ptr .array false n) ⟨s1, hn, Took.one.2 hn2⟩ hf2.1
            (by omega) ⟨by omega, old_upd n h n (Nat.le_refl _) _, .refl hi, trivial, trivial, fun h' hh => .bytes ?_, rfl⟩
            ((hto.trans hto2).trans (.one rfl))
          rw [hh n (by omega) (by omega)]
          exact upd_same _ _ _
        · exact .stops (.trans (hto.trans hto2) (.inl (.one rfl)))
      | @expr ts x s' tab' h' n' v hx htk he hlt2 hrd hto2 =>
        have hrep := hrd.built h' (fun _ _ _ => rfl)
        have hv : v ≠ symCloseBrack := by rintro rfl; exact absurd hrd.mark (by decide)
        cases hb : byteOfT D (x.tree tab') with
        | none =>
          refine .stops (.trans (hto.trans hto2) (.inl (.one ((if_neg hv).trans ?_))))
          simp only [(byteOf_rep (D := D) hrep).trans hb]
        | some b =>
          obtain ⟨ty, z, e⟩ := byteOfT_num hb
          obtain ⟨k, rfl, hk⟩ := expr_num hx (tree_num e)
          have hbk : byteTok D k = some b := by rw [byteTok_eq k tab', hk]; simpa [X.tree, ← e] using hb
          have st : rstep D ⟨h', n', tab', s', tot, .startArray :: K, v⟩ =
              .run ⟨upd h' n' (.bytes []), n' + 1, tab', s', tot, .appendArray (.ptr .array false n') D.room ([] : List Byte).length :: K, v⟩ := by
            refine (if_neg hv).trans ?_
            simp only [(byteOf_rep (D := D) hrep).trans hb]
            rfl
          have ha : ArrSt (upd h' n' (.bytes [])) n' (n' + 1) [] := ⟨by omega, upd_same _ _ _⟩
          have hto3 := (hto.trans hto2).trans (.one st)
          have hrep2 : Eq.Rep (upd h' n' (.bytes [])) v (x.tree tab') :=
            hrd.built _ (fun i _ h2 => if_neg (by omega))
          by_cases hr : D.room < 2
          · exact .stops (.trans hto3 (.inl (.one (array_error ha (.inl (by simpa using hr))))))
          obtain ⟨h2, st2, ha2, ho2⟩ := array_step (tot := tot) ha (by simpa using hr) hrep2 hb (tab := tab') (s := s') (K := K)
          have hto4 := hto3.trans (.one st2)
          cases arr s' he (by omega) tab' h2 n' (n' + 1) ([] ++ [b]) K v hrd.later.inv ha2 with
          | stops h3 => exact .stops (.trans hto4 h3)
          | @closed ts bs s'' tab'' h'' n'' c1 c2 c3 c4 c5 c6 c7 c8 c9 c10 =>
            have hle := hrd.le
            refine .expr (.array (ts := k :: ts) (l := b :: bs) (by simp [hbk, c1]) (fun _ => by simpa using c9))
              (s' := s'') (h' := h'') (n' := n'') (tab' := tab'') (v := .ptr .array false n') ⟨s1, hn, ?_⟩ c3 (by omega)
              ⟨by omega, ?_, hrd.later.trans c7, trivial, trivial, fun g hg => .bytes ?_, rfl⟩ (hto4.trans c10)
            · exact Took.append (a := [k]) htk c2
            · intro kk j hj
              have hj' : kk = true ∨ j < n' := hj.imp_right (fun h => by omega)
              exact (c6 kk j hj').trans ((ho2 kk j hj').trans ((old_upd n' h' n' (Nat.le_refl _) _ kk j hj').trans (hrd.old kk j hj)))
            · rw [hg n' hle (by have := c8.lt; omega)]
              exact c8.cell
    | 0 => exact err rfl
    | 14 =>
      exfalso
      exact next_not_mark hn rfl
    | 15 =>
      exfalso
      exact next_not_mark hn rfl
    | k + 16 => exact err rfl

theorem got_all (N : Nat) :
    (∀ (s : Stream), s.ended = true → s.avail.length ≤ N → ∀ tab h n K r, Sym.Inv tab → NotProg K → GotItem D tot s tab h n K r) ∧
    (∀ (s : Stream), s.ended = true → s.avail.length ≤ N → ∀ tab h lo n f l C K r, Sym.Inv tab → ListSt h lo n f l C →
      GotSeq D tot s tab h lo n f l C K r) ∧
    (∀ (s : Stream), s.ended = true → s.avail.length ≤ N → ∀ tab h i n l K r, Sym.Inv tab → ArrSt h i n l →
      GotArr D tot s tab h i n l K r) := by
  induction N using Nat.strongRecOn with
  | ind N ih =>
    have h1 := got_item (D := D) ht N
      (fun s hs hl => (ih _ hl).1 s hs (Nat.le_refl _)) (fun s hs hl => (ih _ hl).2.1 s hs (Nat.le_refl _))
      (fun s hs hl => (ih _ hl).2.2 s hs (Nat.le_refl _))
    exact ⟨h1, got_seq ht N h1 (fun s hs hl => (ih _ hl).2.1 s hs (Nat.le_refl _)),
      got_arr ht N h1 (fun s hs hl => (ih _ hl).2.2 s hs (Nat.le_refl _))⟩

end Verif.Print
