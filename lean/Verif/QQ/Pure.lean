import Verif.QQ.Spec

/-!
# The expansion as a function on trees, and its meaning
-/

namespace Verif.QQ

open Verif.Eval (V)

/-- `(quote t)`, or `t` for symbols that evaluate to themselves. -/
def tQuoteIt : T → T
  | .leaf (.sym n) => if n < 0xFFFF then .leaf (.sym n) else T.ofList [.quote, .leaf (.sym n)]
  | t => T.ofList [.quote, t]

def tQuoted : T → Option (T × T × T)
  | .cons (.leaf (.sym 0x100)) (.cons (.cons a d) r) => some (a, d, r)
  | _ => none

/-- The first list with the second one in place of its end. -/
def tJoin : T → T → T
  | .cons a (.cons b d), y => .cons a (tJoin (.cons b d) y)
  | .cons a (.leaf _), y => .cons a y
  | .leaf _, y => y

def tCadr : T → Option T
  | .cons _ (.cons b _) => some b
  | .cons _ (.leaf (.sym 0)) => some .nil
  | .leaf (.sym 0) => some .nil
  | _ => none

def tAppend (f b : T) : Option T :=
  if f = .nil then some b
  else if b = .nil then some f
  else
    match tQuoted f, tQuoted b with
    | some (a, d, _), some (a', d', _) => some (T.ofList [.quote, tJoin (.cons a d) (.cons a' d')])
    | _, _ =>
      match b with
      | .cons (.leaf (.sym 0x20015)) x =>
        match x with
        | .cons q r =>
          match tQuoted q, tQuoted f with
          | some (a', d', r'), some (a, d, _) => some (.cons .append (.cons (.cons .quote (.cons (tJoin (.cons a d) (.cons a' d')) r')) r))
          | _, _ => some (.cons .append (.cons f x))
        | .leaf (.sym 0) => some (.cons .append (.cons f x))
        | _ => none
      | _ => some (T.ofList [.append, f, b])

def tCar : T → Option T
  | .cons a _ => some a
  | .leaf (.sym 0) => some .nil
  | _ => none

mutual
/-- The code for a template. -/
def qq : T → Option T
  | .cons a d =>
    if a = .comma then tCar d
    else if a = .commaAt then none
    else
      match qqL a, qq d with
      | some x, some y => tAppend x y
      | _, _ => none
  | .leaf v => some (tQuoteIt (.leaf v))
/-- The code for an element of a template. -/
def qqL : T → Option T
  | .cons a d =>
    if a = .comma then (tCar d).map fun e => T.ofList [.list, e]
    else if a = .commaAt then tCar d
    else
      match qqL a, qq d with
      | some x, some y => (tAppend x y).map fun e => T.ofList [.list, e]
      | _, _ => none
  | .leaf v => some (T.ofList [.quote, T.ofList [.leaf v]])
end

section
variable {σ : Type} {J : σ → T → σ → T → Prop}

theorem onto_append (xs ys : List T) (t : T) : T.onto (xs ++ ys) t = T.onto xs (T.onto ys t) := by
  induction xs with
  | nil => rfl
  | cons x xs ih => simp [T.onto, ih]

theorem tJoin_onto {xs : List T} {a d y : T} {e : V} (h : T.onto xs (.leaf e) = .cons a d) : tJoin (.cons a d) y = T.onto xs y := by
  induction xs generalizing a d with
  | nil => cases h
  | cons x xs ih =>
    cases h
    cases xs with
    | nil => rfl
    | cons x' xs => exact congrArg (T.cons x) (ih rfl)

theorem quoted_eq {f a d r : T} (h : tQuoted f = some (a, d, r)) : f = .cons .quote (.cons (.cons a d) r) := by
  unfold tQuoted at h
  split at h
  · cases h; rfl
  · cases h

theorem ofList_inj {xs ys : List T} (h : T.ofList xs = T.ofList ys) : xs = ys := by
  induction xs generalizing ys with
  | nil => cases ys with
    | nil => rfl
    | cons => cases h
  | cons x xs ih =>
    cases ys with
    | nil => cases h
    | cons y ys =>
      simp only [T.ofList, T.onto, T.cons.injEq] at h
      rw [h.1, ih h.2]

theorem onto_inj {xs ys : List T} {e e' : V} (h : T.onto xs (.leaf e) = T.onto ys (.leaf e')) : xs = ys := by
  induction xs generalizing ys with
  | nil => cases ys with
    | nil => rfl
    | cons => cases h
  | cons x xs ih =>
    cases ys with
    | nil => cases h
    | cons y ys =>
      simp only [T.onto, T.cons.injEq] at h
      rw [h.1, ih h.2]

theorem elems_ofList (xs : List T) : Elems (T.ofList xs) xs := by
  cases xs with
  | nil => exact .inl ⟨rfl, rfl⟩
  | cons x xs => exact .inr ⟨by simp, .nil, rfl⟩

theorem elems_cons (a d : T) : ∃ xs e, xs ≠ [] ∧ T.cons a d = T.onto xs (.leaf e) := by
  induction d generalizing a with
  | leaf v => exact ⟨[a], v, by simp, rfl⟩
  | cons b d _ ih =>
    obtain ⟨xs, e, _, h⟩ := ih b
    exact ⟨a :: xs, e, by simp, by rw [T.onto, ← h]⟩

/-- If the front evaluates to a list and the back to any value, what `append` makes of them evaluates to the list in front of the value. -/
theorem append_eval (L : Laws J) {s s1 s2 : σ} {f b v : T} {xs : List T} (hf : J s f s1 (T.ofList xs)) (hb : J s1 b s2 v) (hv : (T.onto xs v).fine) :
    ∃ c, tAppend f b = some c ∧ J s c s2 (T.onto xs v) := by
  unfold tAppend
  split
  · rename_i h; subst h
    obtain ⟨rfl, h2⟩ := (L.self (n := 0) (by decide)).1 hf
    have : xs = [] := ofList_inj (ys := []) h2
    subst this
    exact ⟨b, rfl, hb⟩
  split
  · rename_i h; subst h
    obtain ⟨rfl, rfl⟩ := (L.self (n := 0) (by decide)).1 hb
    exact ⟨f, rfl, hf⟩
  split
  · rename_i a d r a' d' r' h1 h2
    have e1 := quoted_eq h1
    have e2 := quoted_eq h2
    subst e1 e2
    obtain ⟨rfl, h3⟩ := L.quote.1 hf
    obtain ⟨rfl, rfl⟩ := L.quote.1 hb
    refine ⟨_, rfl, L.quote.2 ⟨rfl, ?_⟩⟩
    rw [tJoin_onto (xs := xs) (e := .nil) h3]
  · rename_i hq
    split
    · rename_i x _
      obtain ⟨es, vs, rfl, h2, h3, _⟩ := L.append.1 hb
      have gen : J s (.cons .append (.cons f (T.ofList es))) s2 (T.onto xs v) := by
        refine L.append.2 ⟨f :: es, T.ofList xs :: vs, rfl, .cons hf h2, ?_, hv⟩
        rcases h3 with ⟨rfl, rfl⟩ | ⟨ys, rfl, h⟩ | ⟨h4, h5⟩
        · exact .inr (.inl ⟨xs, rfl, elems_ofList xs⟩)
        · exact .inr (.inr ⟨by simp, .more (elems_ofList xs) .last⟩)
        · refine .inr (.inr ⟨by simp; omega, ?_⟩)
          cases vs with
          | nil => simp at h4
          | cons y ys => exact .more (elems_ofList xs) h5
      cases es with
      | nil => exact ⟨_, rfl, gen⟩
      | cons q es =>
        simp only [T.ofList, T.onto] at gen ⊢
        split
        · rename_i a' d' r' a d r h4 h5
          refine ⟨_, rfl, ?_⟩
          have e1 := quoted_eq h5
          have e2 := quoted_eq h4
          subst e1 e2
          obtain ⟨rfl, h6⟩ := L.quote.1 hf
          cases h2 with
          | cons h7 h8 =>
            obtain ⟨rfl, rfl⟩ := L.quote.1 h7
            rename_i vs
            have e3 := tJoin_onto (xs := xs) (e := .nil) (y := .cons a' d') h6
            have hxs : xs ≠ [] := by rintro rfl; cases h6
            obtain ⟨ys, e, hys, e4⟩ := elems_cons a' d'
            have el : Elems (T.onto xs (.cons a' d')) (xs ++ ys) :=
              .inr ⟨by simp [hxs], e, by rw [e4, onto_append]⟩
            refine L.append.2 ⟨_ :: es, T.onto xs (.cons a' d') :: vs, rfl, .cons (L.quote.2 ⟨rfl, e3.symm⟩) h8, ?_, hv⟩
            rcases h3 with ⟨h, _⟩ | ⟨zs, h, h9⟩ | ⟨h9, h10⟩
            · cases h
            · cases h
              exact .inr (.inl ⟨_, rfl, el⟩)
            · cases h10 with
              | last => simp at h9
              | @more _ zs y ys' w h11 h12 =>
                refine .inr (.inr ⟨by simp, ?_⟩)
                have : zs = ys := by
                  rcases h11 with ⟨_, h⟩ | ⟨h, e', h'⟩
                  · cases h
                  · rw [e4] at h'
                    exact (onto_inj h').symm
                subst this
                rw [← onto_append]
                exact .more el h12
        · exact ⟨_, rfl, gen⟩
    · refine ⟨_, rfl, L.append.2 ⟨[f, b], [T.ofList xs, v], rfl, .cons hf (.cons hb .nil), .inr (.inr ⟨by simp, .more (elems_ofList xs) .last⟩), hv⟩⟩

theorem quoteIt_eval (L : Laws J) (s : σ) (v : V) : J s (tQuoteIt (.leaf v)) s (.leaf v) := by
  unfold tQuoteIt
  split
  · rename_i n h
    cases h
    split
    · rename_i h; exact (L.self h).2 ⟨rfl, rfl⟩
    · exact L.quote.2 ⟨rfl, rfl⟩
  · exact L.quote.2 ⟨rfl, rfl⟩

theorem qq_eval (L : Laws J) (t : T) : (∀ {s s' v}, Build J s t s' v → ∃ c, qq t = some c ∧ J s c s' v) ∧
    (∀ {s s' xs}, Elem J s t s' xs → ∃ c, qqL t = some c ∧ J s c s' (T.ofList xs)) := by
  induction t with
  | leaf v =>
    constructor
    · intro s s' w h
      cases h
      exact ⟨_, by rw [qq], quoteIt_eval L s v⟩
    · intro s s' xs h
      cases h
      exact ⟨_, qqL.eq_2 v, L.quote.2 ⟨rfl, rfl⟩⟩
  | cons a d iha ihd =>
    have hne : T.comma ≠ T.commaAt := by decide
    have main : a ≠ .comma → a ≠ .commaAt → ∀ {s s1 s2 xs v}, Elem J s a s1 xs → Build J s1 d s2 v → (T.onto xs v).fine →
        ∃ x y c, qqL a = some x ∧ qq d = some y ∧ tAppend x y = some c ∧ J s c s2 (T.onto xs v) := by
      intro _ _ s s1 s2 xs v h1 h2 hv
      obtain ⟨x, hx, jx⟩ := iha.2 h1
      obtain ⟨y, hy, jy⟩ := ihd.1 h2
      obtain ⟨c, hc, jc⟩ := append_eval L jx jy hv
      exact ⟨x, y, c, hx, hy, hc, jc⟩
    have hbuild : a ≠ .comma → a ≠ .commaAt → ∀ {s s' v}, Build J s (.cons a d) s' v →
        ∃ x y c, qqL a = some x ∧ qq d = some y ∧ tAppend x y = some c ∧ J s c s' v := by
      intro n1 n2 s s' v h
      generalize ht : T.cons a d = t at h
      cases h with
      | unquote h => cases ht; exact absurd rfl n1
      | atom => cases ht
      | pair _ _ h1 h2 hv =>
        cases ht
        exact main n1 n2 h1 h2 hv
      | @last _ e _ _ h =>
        cases ht
        refine ⟨e, .nil, e, ?_, ?_, ?_, h⟩
        · simp [T.splice, T.ofList, T.onto, qqL, tCar]
        · simp [qq, tQuoteIt]
        · unfold tAppend
          split
          · rename_i h; rw [h]
          · simp
    constructor
    · intro s s' v h
      by_cases n1 : a = .comma
      · generalize ht : T.cons a d = t at h
        cases h with
        | @unquote _ e _ _ h =>
          cases ht
          exact ⟨e, by simp [qq, tCar, T.onto, T.unquote, T.splice, T.ofList], h⟩
        | atom => cases ht
        | pair h => cases ht; exact absurd n1 h
        | last => cases ht; cases n1
      by_cases n2 : a = .commaAt
      · generalize ht : T.cons a d = t at h
        cases h with
        | unquote => cases ht; exact absurd rfl n1
        | atom => cases ht
        | pair _ h => cases ht; exact absurd n2 h
        | last => cases ht; cases n2
      obtain ⟨x, y, c, h1, h2, h3, h4⟩ := hbuild n1 n2 h
      exact ⟨c, by simp [qq, n1, n2, h1, h2, h3], h4⟩
    · intro s s' xs h
      generalize ht : T.cons a d = t at h
      cases h with
      | @unquote _ e _ v h =>
        cases ht
        exact ⟨_, by simp [qqL, tCar, T.onto, T.unquote, T.splice, T.ofList], L.list (es := [e]) (vs := [v]) (.cons h .nil)⟩
      | @splice _ e _ _ h =>
        cases ht
        exact ⟨e, by simp [qqL, tCar, T.onto, T.unquote, T.splice, T.ofList], h⟩
      | atom => cases ht
      | pair n1 n2 h =>
        cases ht
        obtain ⟨x, y, c, h1, h2, h3, h4⟩ := hbuild n1 n2 h
        exact ⟨_, by simp [qqL, n1, n2, h1, h2, h3]; rfl, L.list (.cons h4 .nil)⟩

end

end Verif.QQ
