import Verif.Print.Parse5
import Verif.Print.Props

/-! # The grammar is unambiguous; names can be entered -/

namespace Verif.Print

open Verif.Tok (Byte ascii Token Stream)
open Verif.Eq (T NTy Val Heap Obj)

variable {D : Dev} {loose : Bool}

/-- Tokens that no element of a list begins with. -/
def Ender (k : Token) : Prop := k = tClose ∨ k = tCloseBlock ∨ k = tDot

theorem leaf_kind {k : Token} {x : X} (h : leafOf D k = some x) : opens k = none ∧ k ≠ tOpenArray ∧ prefixOf k = none ∧ ¬ Ender k ∧ strayOf k = none := by
  cases k with
  | «syntax» n =>
    have : n = 6 ∨ n = 11 := by
      unfold leafOf at h
      split at h <;> simp_all
    rcases this with rfl | rfl <;> refine ⟨rfl, by decide, rfl, ?_, rfl⟩ <;> simp [Ender, tClose, tCloseBlock, tDot]
  | _ => refine ⟨rfl, by simp [tOpenArray], rfl, ?_, rfl⟩; simp [Ender, tClose, tCloseBlock, tDot]

theorem open_kind {k : Token} {p : List X} (h : opens k = some p) : k ≠ tOpenArray ∧ prefixOf k = none ∧ ¬ Ender k ∧ strayOf k = none := by
  rcases opens_facts h with ⟨rfl, _⟩ | ⟨rfl, _⟩ <;> refine ⟨by decide, rfl, ?_, rfl⟩ <;> simp [Ender, tClose, tCloseBlock, tDot]

theorem prefix_kind {k : Token} {w : Nat} (h : prefixOf k = some w) : k ≠ tOpenArray ∧ ¬ Ender k ∧ strayOf k = none := by
  unfold prefixOf at h
  split at h <;> first | (cases h; done) | (refine ⟨by decide, ?_, rfl⟩; simp [Ender, tClose, tCloseBlock, tDot])

theorem pair_ender {o c : Token} (h : Pair loose o c) : c = tClose ∨ c = tCloseBlock := pair_close h

/-- What the tokens of an expression begin with. -/
theorem expr_head {ts : List Token} {x : X} (h : Expr D loose ts x) : ∃ k ts', ts = k :: ts' ∧ ¬ Ender k ∧ strayOf k = none := by
  cases h with
  | leaf h => exact ⟨_, [], rfl, (leaf_kind h).2.2.2⟩
  | list h => exact ⟨_, _, rfl, (open_kind h).2.2⟩
  | dotted h => exact ⟨_, _, rfl, (open_kind h).2.2⟩
  | array => exact ⟨_, _, rfl, by simp [Ender, tClose, tCloseBlock, tDot, tOpenArray], rfl⟩
  | quoted h => exact ⟨_, _, rfl, (prefix_kind h).2⟩

theorem item_head {ts : List Token} {x : X} (h : Item D loose [tCloseArray] ts x) : ∃ k ts', ts = k :: ts' ∧ ¬ Ender k := by
  cases h with
  | expr h => obtain ⟨k, t, h1, h2, _⟩ := expr_head h; exact ⟨k, t, h1, h2⟩
  | stray _ h _ =>
    rw [List.mem_singleton] at h
    subst h
    exact ⟨_, [], rfl, by simp [Ender, tClose, tCloseBlock, tDot, tCloseArray]⟩

theorem map_unique {ts ts' : List Token} {l l' : List Byte} : ∀ {r r' : List Token}, ts.map (byteTok D) = l.map some → ts'.map (byteTok D) = l'.map some →
    ts ++ tCloseArray :: r = ts' ++ tCloseArray :: r' → ts = ts' ∧ l = l' ∧ r = r' := by
  have hc : byteTok D tCloseArray = none := rfl
  induction ts generalizing ts' l l' with
  | nil =>
    intro r r' h1 h2 e
    have : l = [] := by simpa using h1.symm
    subst this
    cases ts' with
    | nil =>
      have : l' = [] := by simpa using h2.symm
      subst this
      exact ⟨rfl, rfl, by simpa using e⟩
    | cons k ts' =>
      simp only [List.nil_append, List.cons_append, List.cons.injEq] at e
      rw [← e.1] at h2
      cases l' with
      | nil => cases h2
      | cons => simp [hc] at h2
  | cons k ts ih =>
    intro r r' h1 h2 e
    cases l with
    | nil => cases h1
    | cons b l =>
    simp only [List.map_cons, List.cons.injEq] at h1
    cases ts' with
    | nil =>
      simp only [List.nil_append, List.cons_append, List.cons.injEq] at e
      rw [e.1, hc] at h1
      cases h1.1
    | cons k' ts' =>
      cases l' with
      | nil => cases h2
      | cons b' l' =>
      simp only [List.map_cons, List.cons.injEq] at h2
      simp only [List.cons_append, List.cons.injEq] at e
      obtain ⟨rfl, rfl, rfl⟩ := ih h1.2 h2.2 e.2
      obtain ⟨rfl, _⟩ := e
      rw [h1.1] at h2
      cases h2.1
      exact ⟨rfl, rfl, rfl⟩

def UnE (D : Dev) (loose : Bool) (ts : List Token) (x : X) : Prop :=
  ∀ ts' x' r r', Expr D loose ts' x' → ts ++ r = ts' ++ r' → ts = ts' ∧ x = x' ∧ r = r'
def UnI (D : Dev) (loose : Bool) (l ts : List Token) (x : X) : Prop :=
  ∀ ts' x' r r', Item D loose l ts' x' → ts ++ r = ts' ++ r' → ts = ts' ∧ x = x' ∧ r = r'
def UnS (D : Dev) (loose : Bool) (ts : List Token) (xs : List X) : Prop :=
  ∀ ts' xs' c r c' r', Seq D loose ts' xs' → Ender c → Ender c' → ts ++ c :: r = ts' ++ c' :: r' → ts = ts' ∧ xs = xs' ∧ c = c' ∧ r = r'

theorem un_list {o c : Token} {ts : List Token} {p xs : List X} (ho : opens o = some p) (hp : Pair loose o c) (hs : UnS D loose ts xs) :
    UnE D loose (o :: ts ++ [c]) (listX (p ++ xs) nilX) := by
  intro ts' x' r r' h e
  have hce : Ender c := (pair_ender hp).imp_right .inl
  cases h with
  | leaf h =>
    simp only [List.cons_append, List.cons.injEq] at e
    rw [e.1, (leaf_kind h).1] at ho; cases ho
  | list ho' hp' hs' =>
    simp only [List.cons_append, List.cons.injEq, List.append_assoc, List.nil_append] at e
    obtain ⟨rfl, e⟩ := e
    rw [ho] at ho'; cases ho'
    obtain ⟨rfl, rfl, rfl, rfl⟩ := hs _ _ _ _ _ _ hs' hce ((pair_ender hp').imp_right .inl) e
    exact ⟨rfl, rfl, rfl⟩
  | dotted ho' hp' hs' =>
    simp only [List.cons_append, List.cons.injEq, List.append_assoc, List.nil_append] at e
    obtain ⟨rfl, e⟩ := e
    obtain ⟨_, _, e, _⟩ := hs _ _ _ _ _ _ hs' hce (.inr (.inr rfl)) e
    subst e
    rcases pair_ender hp with h | h <;> cases h
  | array =>
    simp only [List.cons_append, List.cons.injEq] at e
    exact absurd e.1 (open_kind ho).1
  | quoted h =>
    simp only [List.cons_append, List.cons.injEq] at e
    rw [← e.1, (open_kind ho).2.1] at h; cases h

theorem un_dotted {o c : Token} {ts ts2 : List Token} {p xs : List X} {x : X} (ho : opens o = some p) (hp : Pair loose o c)
    (hs : UnS D loose ts xs) (hx : UnI D loose [tCloseArray] ts2 x) :
    UnE D loose (o :: ts ++ tDot :: ts2 ++ [c]) (listX (p ++ xs) x) := by
  intro ts' x' r r' h e
  cases h with
  | leaf h =>
    simp only [List.cons_append, List.cons.injEq] at e
    rw [e.1, (leaf_kind h).1] at ho; cases ho
  | list ho' hp' hs' =>
    simp only [List.cons_append, List.cons.injEq, List.append_assoc, List.nil_append] at e
    obtain ⟨rfl, e⟩ := e
    obtain ⟨_, _, e, _⟩ := hs _ _ _ _ _ _ hs' (.inr (.inr rfl)) ((pair_ender hp').imp_right .inl) e
    subst e
    rcases pair_ender hp' with h | h <;> cases h
  | dotted ho' hp' hs' _ hx' =>
    simp only [List.cons_append, List.cons.injEq, List.append_assoc, List.nil_append] at e
    obtain ⟨rfl, e⟩ := e
    rw [ho] at ho'; cases ho'
    obtain ⟨rfl, rfl, _, e⟩ := hs _ _ _ _ _ _ hs' (.inr (.inr rfl)) (.inr (.inr rfl)) e
    obtain ⟨rfl, rfl, e⟩ := hx _ _ _ _ hx' e
    cases e
    exact ⟨rfl, rfl, rfl⟩
  | array =>
    simp only [List.cons_append, List.cons.injEq] at e
    exact absurd e.1 (open_kind ho).1
  | quoted h =>
    simp only [List.cons_append, List.cons.injEq] at e
    rw [← e.1, (open_kind ho).2.1] at h; cases h

theorem un_leaf {k : Token} {x : X} (hk : leafOf D k = some x) : UnE D loose [k] x := by
  intro ts' x' r r' h e
  have hkk := leaf_kind hk
  cases h with
  | leaf h =>
    simp only [List.cons_append, List.nil_append, List.cons.injEq] at e
    obtain ⟨rfl, rfl⟩ := e
    rw [hk] at h; cases h
    exact ⟨rfl, rfl, rfl⟩
  | list h =>
    simp only [List.cons_append, List.cons.injEq] at e
    rw [← e.1, hkk.1] at h; cases h
  | dotted h =>
    simp only [List.cons_append, List.cons.injEq] at e
    rw [← e.1, hkk.1] at h; cases h
  | array =>
    simp only [List.cons_append, List.cons.injEq] at e
    exact absurd e.1 hkk.2.1
  | quoted h =>
    simp only [List.cons_append, List.cons.injEq] at e
    rw [← e.1, hkk.2.2.1] at h; cases h

theorem un_array {ts : List Token} {l : List Byte} (hm : ts.map (byteTok D) = l.map some) : UnE D loose (tOpenArray :: ts ++ [tCloseArray]) (.bytes l) := by
  intro ts' x' r r' h e
  cases h with
  | leaf h =>
    simp only [List.cons_append, List.cons.injEq] at e
    exact absurd e.1.symm (leaf_kind h).2.1
  | list h =>
    simp only [List.cons_append, List.cons.injEq] at e
    exact absurd e.1.symm (open_kind h).1
  | dotted h =>
    simp only [List.cons_append, List.cons.injEq] at e
    exact absurd e.1.symm (open_kind h).1
  | array hm' =>
    simp only [List.cons_append, List.cons.injEq, List.append_assoc, List.nil_append] at e
    obtain ⟨rfl, rfl, rfl⟩ := map_unique hm hm' e.2
    exact ⟨rfl, rfl, rfl⟩
  | quoted h =>
    simp only [List.cons_append, List.cons.injEq] at e
    exact absurd e.1.symm (prefix_kind h).1

theorem un_quoted {k : Token} {w : Nat} {ts : List Token} {x : X} (hk : prefixOf k = some w)
    (hx : UnI D loose [tClose, tCloseBlock, tCloseArray, tDot] ts x) : UnE D loose (k :: ts) (listX [.sym w, x] nilX) := by
  intro ts' x' r r' h e
  cases h with
  | leaf h =>
    simp only [List.cons_append, List.cons.injEq] at e
    rw [e.1, (leaf_kind h).2.2.1] at hk; cases hk
  | list h =>
    simp only [List.cons_append, List.cons.injEq] at e
    rw [e.1, (open_kind h).2.1] at hk; cases hk
  | dotted h =>
    simp only [List.cons_append, List.cons.injEq] at e
    rw [e.1, (open_kind h).2.1] at hk; cases hk
  | array =>
    simp only [List.cons_append, List.cons.injEq] at e
    exact absurd e.1 (prefix_kind hk).1
  | quoted h h' =>
    simp only [List.cons_append, List.cons.injEq] at e
    obtain ⟨rfl, e⟩ := e
    rw [hk] at h; cases h
    obtain ⟨rfl, rfl, rfl⟩ := hx _ _ _ _ h' e
    exact ⟨rfl, rfl, rfl⟩

theorem un_item {l ts : List Token} {x : X} (he : Expr D loose ts x) (h : UnE D loose ts x) : UnI D loose l ts x := by
  intro ts' x' r r' hi e
  cases hi with
  | expr h' => exact h _ _ _ _ h' e
  | stray _ _ hw =>
    obtain ⟨k, t, rfl, _, h2⟩ := expr_head he
    simp only [List.cons_append, List.cons.injEq] at e
    rw [e.1, hw] at h2; cases h2

theorem un_stray {l : List Token} {k : Token} {w : Nat} (hw : strayOf k = some w) : UnI D loose l [k] (.sym w) := by
  intro ts' x' r r' hi e
  cases hi with
  | expr h' =>
    obtain ⟨k, t, rfl, _, h2⟩ := expr_head h'
    simp only [List.cons_append, List.cons.injEq] at e
    rw [← e.1, hw] at h2; cases h2
  | stray _ _ hw' =>
    simp only [List.cons_append, List.nil_append, List.cons.injEq] at e
    obtain ⟨rfl, rfl⟩ := e
    rw [hw] at hw'; cases hw'
    exact ⟨rfl, rfl, rfl⟩

theorem un_nil : UnS D loose [] [] := by
  intro ts' xs' c r c' r' h hc hc' e
  cases h with
  | nil => cases e; exact ⟨rfl, rfl, rfl, rfl⟩
  | cons hx =>
    obtain ⟨k, t, rfl, h2⟩ := item_head hx
    simp only [List.nil_append, List.cons_append, List.cons.injEq] at e
    rw [← e.1] at h2
    exact absurd hc h2

theorem un_cons {ts ts2 : List Token} {x : X} {xs : List X} (hi : Item D loose [tCloseArray] ts x) (hx : UnI D loose [tCloseArray] ts x)
    (hs : UnS D loose ts2 xs) : UnS D loose (ts ++ ts2) (x :: xs) := by
  intro ts' xs' c r c' r' h hc hc' e
  cases h with
  | nil =>
    obtain ⟨k, t, rfl, h2⟩ := item_head hi
    simp only [List.nil_append, List.cons_append, List.cons.injEq] at e
    rw [e.1] at h2
    exact absurd hc' h2
  | cons hx' hs' =>
    simp only [List.append_assoc] at e
    obtain ⟨rfl, rfl, e⟩ := hx _ _ _ _ hx' e
    obtain ⟨rfl, rfl, rfl, rfl⟩ := hs _ _ _ _ _ _ hs' hc hc' e
    exact ⟨rfl, rfl, rfl, rfl⟩

theorem un_expr {ts : List Token} {x : X} (h : Expr D loose ts x) : UnE D loose ts x :=
  Expr.rec (motive_1 := fun ts x _ => UnE D loose ts x) (motive_2 := fun l ts x _ => UnI D loose l ts x)
    (motive_3 := fun ts xs _ => UnS D loose ts xs)
    (fun h => un_leaf h) (fun ho hp _ h => un_list ho hp h) (fun ho hp _ _ _ hs hx => un_dotted ho hp hs hx)
    (fun hm _ => un_array hm) (fun hk _ hx => un_quoted hk hx) (fun he h => un_item he h) (fun _ _ hw => un_stray hw)
    un_nil (fun hi _ hx hs => un_cons hi hx hs) h

theorem un_seq {ts : List Token} {xs : List X} (h : Seq D loose ts xs) : UnS D loose ts xs :=
  Seq.rec (motive_1 := fun ts x _ => UnE D loose ts x) (motive_2 := fun l ts x _ => UnI D loose l ts x)
    (motive_3 := fun ts xs _ => UnS D loose ts xs)
    (fun h => un_leaf h) (fun ho hp _ h => un_list ho hp h) (fun ho hp _ _ _ hs hx => un_dotted ho hp hs hx)
    (fun hm _ => un_array hm) (fun hk _ hx => un_quoted hk hx) (fun he h => un_item he h) (fun _ _ hw => un_stray hw)
    un_nil (fun hi _ hx hs => un_cons hi hx hs) h

/-- What is in the strict grammar is in the loose one. -/
theorem expr_loosen {ts : List Token} {x : X} (h : Expr D false ts x) : Expr D true ts x :=
  have hp : ∀ {o c}, Pair false o c → Pair true o c := by
    rintro o c (h | h | ⟨h, _⟩)
    · exact .inl h
    · exact .inr (.inl h)
    · cases h
  Expr.rec (motive_1 := fun ts x _ => Expr D true ts x) (motive_2 := fun l ts x _ => Item D true l ts x)
    (motive_3 := fun ts xs _ => Seq D true ts xs)
    (fun h => .leaf h) (fun ho hpp _ h => .list ho (hp hpp) h) (fun ho hpp _ hne _ hs hx => .dotted ho (hp hpp) hs hne hx)
    (fun hm hr => .array hm hr) (fun hk _ hx => .quoted hk hx) (fun _ h => .expr h) (fun h => by cases h)
    .nil (fun _ _ hx hs => .cons hx hs) h

/-! ## Names -/

/-- The names that the reader can enter into the symbol table: all but unknown names of extensions. -/
def NamesFit (tab : Sym.Tab) (ts : List Token) : Prop :=
  ∀ x, Token.symbol x ∈ ts → x.take 4 = ascii "ext-" → (Sym.getByName tab (x.map BitVec.toNat)).isSome

theorem took_names {ts : List Token} {y : List Byte} : ∀ {s s' : Stream}, Took s ts s' → Token.symbol y ∈ ts → TokName y := by
  induction ts with
  | nil => intro s s' _ hy; cases hy
  | cons k ts ih =>
    rintro s s' ⟨s1, h1, h2⟩ hy
    rcases List.mem_cons.1 hy with rfl | hy
    · exact next_name h1 y rfl
    · exact ih h2 hy

theorem enters_of_fit {ts : List Token} : ∀ {tab : Sym.Tab} {s s' : Stream}, Sym.Inv tab → Took s ts s' → NamesFit tab ts → ∃ tab', Enters tab ts tab' := by
  induction ts with
  | nil => intro tab s s' _ _ _; exact ⟨tab, rfl⟩
  | cons k ts ih =>
    intro tab s s' hi htk hf
    obtain ⟨s1, hn, htk⟩ := htk
    have nosym : (∀ x, k ≠ .symbol x) → ∃ tab', Enters tab (k :: ts) tab' := by
      intro hk
      obtain ⟨tab', h⟩ := ih hi htk (fun x hx => hf x (.tail _ hx))
      refine ⟨tab', tab, ?_, h⟩
      cases k with
      | symbol x => exact absurd rfl (hk x)
      | _ => rfl
    cases k with
    | symbol x =>
      have hx := next_name hn x rfl
      have hc := name_cstr hx
      have hsp := Sym.readSymbol_spec hi hc false true true
      have hsome : (Sym.readSymbol tab (x.map BitVec.toNat) false true true).2.isSome := by
        unfold Sym.readSymbol
        split
        · rfl
        · next hnone =>
          split
          · next he =>
            have := hf x (.head _) (by
              have h1 : (x.map BitVec.toNat).take 4 = (ascii "ext-").map BitVec.toNat := he.2
              rw [← List.map_take] at h1
              exact (List.map_inj_right (fun a b h => BitVec.eq_of_toNat_eq h)).1 h1)
            rw [hnone] at this
            cases this
          · simp only [Bool.false_eq_true, if_false]
            have : ∀ t, ((Sym.addBaseRam t (x.map BitVec.toNat) true).2).isSome := by
              intro t
              unfold Sym.addBaseRam
              rw [if_pos]
              · rfl
              · have h1 := List.length_pos_iff.2 hx.1
                have h2 := hx.2.1
                rw [List.length_map]
                exact ⟨by omega, by omega, rfl⟩
            split
            · rfl
            · exact this _
      obtain ⟨id, hid⟩ := Option.isSome_iff_exists.1 hsome
      obtain ⟨tab', h⟩ := ih hsp.1 htk (by
        intro y hy he
        obtain ⟨j, hj⟩ := Option.isSome_iff_exists.1 (hf y (.tail _ hy) he)
        have hyn : TokName y := took_names htk hy
        exact Option.isSome_iff_exists.2 ⟨j, (Sym.getByName_iff hsp.1 (name_cstr hyn)).2
          (hsp.2.has _ _ (Sym.getByName_some hi (name_cstr hyn) hj))⟩)
      exact ⟨tab', _, ⟨id, Prod.ext rfl hid⟩, h⟩
    | _ => exact nosym (fun _ h => by cases h)

end Verif.Print
