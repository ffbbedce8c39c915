import Verif.QQ.Model
import Verif.QQ.Pure

/-!
# The expansion in the store computes the expansion on trees
-/

namespace Verif.QQ

open Verif.Eval (V W St)

theorem rep_cons {s : St} {v : V} {t1 t2 : T} {F : List Nat} : Rep s v (.cons t1 t2) F ↔
    ∃ a F1 F2, v = .cons a ∧ F = a :: (F1 ++ F2) ∧ Rep s (s.car a) t1 F1 ∧ Rep s (s.cdr a) t2 F2 := by
  constructor
  · intro h; cases h with
    | cons h1 h2 => exact ⟨_, _, _, rfl, rfl, h1, h2⟩
  · rintro ⟨a, F1, F2, rfl, rfl, h1, h2⟩; exact .cons h1 h2

theorem rep_leaf {s : St} {v w : V} {F : List Nat} : Rep s v (.leaf w) F ↔ v = w ∧ F = [] ∧ ∀ a, v ≠ .cons a := by
  constructor
  · intro h; cases h with
    | leaf h => exact ⟨rfl, rfl, h⟩
  · rintro ⟨rfl, rfl, h⟩; exact .leaf h

/-- The same contents in the cells of `F`. -/
def Same (s s' : St) (F : List Nat) : Prop := ∀ i, i ∈ F → s'.car i = s.car i ∧ s'.cdr i = s.cdr i

theorem Rep.same {s s' : St} {v : V} {t : T} {F : List Nat} (h : Rep s v t F) (hs : Same s s' F) : Rep s' v t F := by
  induction h with
  | leaf h => exact .leaf h
  | @cons a t1 t2 F1 F2 _ _ ih1 ih2 =>
    have ha := hs a (by simp)
    refine .cons ?_ ?_
    · rw [ha.1]; exact ih1 fun i hi => hs i (by simp [hi])
    · rw [ha.2]; exact ih2 fun i hi => hs i (by simp [hi])

/-- The value is the tree, no cell is used twice, all cells are allocated. -/
def Own (s : St) (v : V) (t : T) (F : List Nat) : Prop := Rep s v t F ∧ F.Nodup ∧ ∀ i, i ∈ F → i < s.next

def Disj (F G : List Nat) : Prop := ∀ i, i ∈ F → i ∉ G

/-- Cells outside of `F` are unchanged. -/
def Frame (s s' : St) (F : List Nat) : Prop := s.next ≤ s'.next ∧ ∀ i, i < s.next → i ∉ F → s'.car i = s.car i ∧ s'.cdr i = s.cdr i

/-- The cells of `F'` are in `F` or new. -/
def New (s : St) (F F' : List Nat) : Prop := ∀ i, i ∈ F' → i ∈ F ∨ s.next ≤ i

theorem Own.frame {s s' : St} {v : V} {t : T} {F G : List Nat} (h : Own s v t F) (hf : Frame s s' G) (hd : Disj F G) : Own s' v t F :=
  ⟨h.1.same fun i hi => hf.2 i (h.2.2 i hi) (hd i hi), h.2.1, fun i hi => Nat.lt_of_lt_of_le (h.2.2 i hi) hf.1⟩

theorem own_leaf {s : St} {v : V} (h : ∀ a, v ≠ .cons a) : Own s v (.leaf v) [] := ⟨.leaf h, .nil, fun _ h => by cases h⟩

theorem frame_cons (s : St) (a d : V) (F : List Nat) : Frame s (s.cons a d).1 F := by
  refine ⟨by simp [St.cons], fun i hi _ => ?_⟩
  simp [St.cons, Nat.ne_of_lt hi]

theorem own_cons {s : St} {a d : V} {t1 t2 : T} {F1 F2 : List Nat} (h1 : Own s a t1 F1) (h2 : Own s d t2 F2) (hd : Disj F1 F2) :
    Own (s.cons a d).1 (s.cons a d).2 (.cons t1 t2) (s.next :: (F1 ++ F2)) := by
  have k1 := h1.frame (frame_cons s a d []) (fun _ _ h => by cases h)
  have k2 := h2.frame (frame_cons s a d []) (fun _ _ h => by cases h)
  refine ⟨.cons ?_ ?_, ?_, ?_⟩
  · simpa [St.cons] using k1.1
  · simpa [St.cons] using k2.1
  · have := h1.2; have := h2.2
    simp only [List.nodup_cons, List.mem_append, List.nodup_append]
    simp only [Disj] at hd
    grind
  · intro i hi
    have := h1.2; have := h2.2
    simp only [St.cons]
    grind

theorem nodup_len {F : List Nat} {n : Nat} (h : F.Nodup) (hn : ∀ i, i ∈ F → i < n) : F.length ≤ n := by
  have := List.Nodup.length_le_of_subset h (l₂ := List.range n) (fun i hi => List.mem_range.2 (hn i hi))
  simpa using this

theorem lastCell_rep {s : St} {l : V} {t y : T} {F G : List Nat} {l2 : V} (h : Rep s l t F) (hy : Rep s l2 y G) (hn : F.Nodup) (hg : G.Nodup) (hd : Disj F G) :
    ∀ a, l = .cons a → ∀ f, F.length < f → ∃ c F', lastCell s f a = some c ∧ c ∈ F ∧ Rep (s.setCdr (.cons c) l2) l (tJoin t y) F' ∧ F'.Nodup ∧ ∀ i, i ∈ F' → i ∈ F ∨ i ∈ G := by
  induction h with
  | leaf hl => intro a ha; exact absurd ha (hl a)
  | @cons a t1 t2 F1 F2 h1 h2 ih1 ih2 =>
    intro b hb f hf
    cases hb
    obtain ⟨f, rfl⟩ : ∃ g, f = g + 1 := ⟨f - 1, by omega⟩
    simp only [List.nodup_cons, List.nodup_append, List.mem_append, not_or] at hn
    obtain ⟨⟨hn1, hn2⟩, hn3, hn4, hn5⟩ := hn
    cases hc : s.cdr a with
    | cons b =>
      rw [hc] at ih2
      obtain ⟨c, F', g1, g2, g3, g4, g5⟩ := ih2 hn4 (fun i hi => hd i (by simp [hi])) b rfl f (by simp at hf; omega)
      refine ⟨c, a :: (F1 ++ F'), by simp only [lastCell, hc, g1], by simp [g2], ?_, ?_, ?_⟩
      · have hca : a ≠ c := fun e => hn2 (e ▸ g2)
        rw [hc] at h2
        obtain ⟨_, _, _, _, _, _, _⟩ : ∃ t3 t4 F3 F4, t2 = .cons t3 t4 ∧ F2 = b :: (F3 ++ F4) ∧ True := by
          cases h2 with
          | leaf h => exact absurd rfl (h b)
          | cons => exact ⟨_, _, _, _, rfl, rfl, trivial⟩
        rename_i e1 e2 _
        subst e1
        simp only [tJoin]
        refine .cons ?_ ?_
        · refine h1.same fun i hi => ?_
          have : i ≠ c := fun e => hn5 i hi c g2 e
          simp [St.setCdr, this]
        · simpa [St.setCdr, hca, hc] using g3
      · simp only [List.nodup_cons, List.nodup_append, List.mem_append, not_or]
        simp only [Disj] at hd
        grind
      · grind
    | _ =>
      refine ⟨a, a :: (F1 ++ G), by simp only [lastCell, hc], by simp, ?_, ?_, ?_⟩
      · rw [hc] at h2
        cases h2
        simp only [tJoin]
        refine .cons ?_ ?_
        · refine h1.same fun i hi => ?_
          have : i ≠ a := fun e => hn1 (e ▸ hi)
          simp [St.setCdr, this]
        · simp only [St.setCdr, if_true]
          refine hy.same fun i hi => ?_
          have : i ≠ a := fun e => hd a (by simp) (e ▸ hi)
          simp [St.setCdr, this]
      · simp only [List.nodup_cons, List.nodup_append, List.mem_append, not_or]
        simp only [Disj] at hd
        grind
      · grind

theorem rep_quoted {s : St} {v : V} {t : T} {F : List Nat} (h : Rep s v t F) : isQuotedList s v = (tQuoted t).isSome := by
  cases h with
  | leaf hl => cases v <;> first | rfl | exact absurd rfl (hl _)
  | @cons a t1 t2 F1 F2 h1 h2 =>
    cases t1 with
    | cons =>
      obtain ⟨b, _, _, e, _⟩ := rep_cons.1 h1
      simp [isQuotedList, e, tQuoted]
    | leaf w =>
      obtain ⟨e, _, _⟩ := rep_leaf.1 h1
      by_cases hw : w = .quote
      · subst hw
        cases t2 with
        | leaf u =>
          obtain ⟨e2, _, e3⟩ := rep_leaf.1 h2
          simp only [isQuotedList, e, decide_true, Bool.true_and, tQuoted, Option.isSome_none]
        | cons t3 t4 =>
          obtain ⟨b, _, _, e2, _, e4, _⟩ := rep_cons.1 h2
          simp only [isQuotedList, e, decide_true, Bool.true_and, e2]
          cases t3 with
          | leaf u =>
            obtain ⟨e5, _, e6⟩ := rep_leaf.1 e4
            rw [e5] at e6 ⊢
            cases u <;> first | rfl | exact absurd rfl (e6 _)
          | cons t5 t6 =>
            obtain ⟨c, _, _, e5, _⟩ := rep_cons.1 e4
            rw [e5]; rfl
      · simp only [isQuotedList, e, hw, decide_false, Bool.false_and]
        symm
        rw [Option.isSome_eq_false_iff, Option.isNone_iff_eq_none]
        unfold tQuoted
        split
        · rename_i h; simp only [T.cons.injEq, T.leaf.injEq] at h; exact absurd h.1 hw
        · rfl

theorem rep_append {s : St} {v : V} {t : T} {F : List Nat} (h : Rep s v t F) : isAppend s v = true ↔ ∃ x, t = .cons .append x := by
  cases h with
  | leaf hl =>
    constructor
    · intro h
      cases v <;> first | (cases h; done) | exact absurd rfl (hl _)
    · rintro ⟨x, hx⟩; cases hx
  | @cons a t1 t2 F1 F2 h1 h2 =>
    simp only [isAppend, decide_eq_true_eq]
    constructor
    · intro h
      rw [h] at h1
      cases h1
      exact ⟨t2, rfl⟩
    · rintro ⟨x, hx⟩
      cases hx
      exact (rep_leaf.1 h1).1

/-- The cells of a quoted list. -/
theorem quoted_cells {s : St} {v : V} {t a d r : T} {F : List Nat} (h : Rep s v t F) (ht : tQuoted t = some (a, d, r)) :
    ∃ x y z Fz Fr, v = .cons x ∧ s.car x = .quote ∧ s.cdr x = .cons y ∧ s.car y = .cons z ∧ F = x :: y :: (Fz ++ Fr) ∧ Rep s (.cons z) (.cons a d) Fz ∧
      Rep s (s.cdr y) r Fr := by
  have := quoted_eq ht
  subst this
  obtain ⟨x, F1, F2, rfl, rfl, h1, h2⟩ := rep_cons.1 h
  obtain ⟨y, Fz, Fr, h3, rfl, h4, h5⟩ := rep_cons.1 h2
  obtain ⟨z, _, _, h6, _⟩ := rep_cons.1 h4
  obtain ⟨h7, rfl, _⟩ := rep_leaf.1 h1
  exact ⟨x, y, z, Fz, Fr, rfl, h7, h3, h6, rfl, h6 ▸ h4, h5⟩

theorem not_nil {s : St} {v : V} {t : T} {F : List Nat} (h : Rep s v t F) : v = .nil ↔ t = .nil := by
  cases h with
  | leaf => simp
  | cons => simp

theorem listAppend_own {s : St} {z z' : Nat} {t t' : T} {F F' : List Nat} (h : Own s (.cons z) t F) (h' : Own s (.cons z') t' F') (hd : Disj F F') :
    ∃ c G, listAppend s (.cons z) (.cons z') = some (s.setCdr (.cons c) (.cons z'), .cons z) ∧ c ∈ F ∧
      Own (s.setCdr (.cons c) (.cons z')) (.cons z) (tJoin t t') G ∧ ∀ i, i ∈ G → i ∈ F ∨ i ∈ F' := by
  obtain ⟨c, G, h1, h2, h3, h4, h5⟩ := lastCell_rep h.1 h'.1 h.2.1 h'.2.1 hd z rfl (s.next + 1) (by have := nodup_len h.2.1 h.2.2; omega)
  refine ⟨c, G, by simp [listAppend, V.isCons, h1], h2, ⟨h3, h4, fun i hi => ?_⟩, h5⟩
  rcases h5 i hi with h | h'
  · exact ‹Own s (.cons z) t F›.2.2 i h
  · exact ‹Own s (.cons z') t' F'›.2.2 i h'

theorem frame_setCdr {s : St} {c : Nat} {v : V} {F : List Nat} (h : c ∈ F) : Frame s (s.setCdr (.cons c) v) F := by
  refine ⟨Nat.le_refl _, fun i _ hi => ?_⟩
  have : i ≠ c := fun e => hi (e ▸ h)
  simp [St.setCdr, this]

theorem frame_setCar {s : St} {c : Nat} {v : V} {F : List Nat} (h : c ∈ F) : Frame s (s.setCar (.cons c) v) F := by
  refine ⟨Nat.le_refl _, fun i _ hi => ?_⟩
  have : i ≠ c := fun e => hi (e ▸ h)
  simp [St.setCar, this]

theorem Frame.trans {s s1 s2 : St} {F G : List Nat} (h1 : Frame s s1 F) (h2 : Frame s1 s2 G) (hg : New s F G) : Frame s s2 F := by
  refine ⟨Nat.le_trans h1.1 h2.1, fun i hi hf => ?_⟩
  have e1 := h1.2 i hi hf
  have e2 := h2.2 i (Nat.lt_of_lt_of_le hi h1.1) (fun h => by rcases hg i h with h | h; exact hf h; omega)
  exact ⟨e2.1.trans e1.1, e2.2.trans e1.2⟩

theorem append_sim {s : St} {f b : V} {tf tb c : T} {Ff Fb : List Nat} (hf : Own s f tf Ff) (hb : Own s b tb Fb) (hd : Disj Ff Fb) (hc : tAppend tf tb = some c) :
    ∃ s' r F', append s f b = .ok s' r ∧ Own s' r c F' ∧ New s (Ff ++ Fb) F' ∧ Frame s s' (Ff ++ Fb) := by
  unfold tAppend at hc
  unfold append
  simp only [not_nil hf.1, not_nil hb.1]
  split at hc
  · rename_i h
    cases hc
    rw [if_pos h]
    exact ⟨s, b, Fb, rfl, hb, fun i hi => .inl (by simp [hi]), Nat.le_refl _, fun _ _ _ => ⟨rfl, rfl⟩⟩
  rename_i hn1
  rw [if_neg hn1]
  split at hc
  · rename_i h
    cases hc
    rw [if_pos h]
    exact ⟨s, f, Ff, rfl, hf, fun i hi => .inl (by simp [hi]), Nat.le_refl _, fun _ _ _ => ⟨rfl, rfl⟩⟩
  rename_i hn2
  rw [if_neg hn2]
  rw [rep_quoted hf.1, rep_quoted hb.1]
  split at hc
  · rename_i a d r a' d' r' h1 h2
    cases hc
    simp only [h1, h2, Option.isSome_some, Bool.and_self, if_true]
    obtain ⟨x, y, z, Fz, Fr, rfl, e1, e2, e3, rfl, e4, e5⟩ := quoted_cells hf.1 h1
    obtain ⟨x', y', z', Fz', Fr', rfl, e1', e2', e3', rfl, e4', e5'⟩ := quoted_cells hb.1 h2
    have o1 : Own s (.cons z) (.cons a d) Fz := ⟨e4, by have := hf.2.1; grind, fun i hi => hf.2.2 i (by simp [hi])⟩
    have o2 : Own s (.cons z') (.cons a' d') Fz' := ⟨e4', by have := hb.2.1; grind, fun i hi => hb.2.2 i (by simp [hi])⟩
    obtain ⟨c, G, g1, g2, g3, g4⟩ := listAppend_own o1 o2 (fun i hi hi' => hd i (by simp [hi]) (by simp [hi']))
    simp only [St.gcadr, e2, e3, e2', e3', g1]
    generalize hs1 : s.setCdr (.cons c) (.cons z') = s1 at *
    have fr : Frame s s1 ((x :: y :: (Fz ++ Fr)) ++ (x' :: y' :: (Fz' ++ Fr'))) := by rw [← hs1]; exact frame_setCdr (by simp [g2])
    have hnext : s1.next = s.next := by rw [← hs1]; rfl
    have o3 := own_cons g3 (own_leaf (s := s1) (v := .nil) (fun _ h => by cases h)) (fun _ _ h => by cases h)
    have o4 := own_cons (own_leaf (s := (s1.cons (.cons z) .nil).1) (v := .quote) (fun _ h => by cases h)) o3 (fun _ h => by cases h)
    refine ⟨_, _, _, rfl, o4, ?_, ?_⟩
    · intro i hi
      simp only [List.mem_cons, List.nil_append, List.append_nil, List.mem_append, St.cons] at hi ⊢
      rcases hi with rfl | rfl | hi
      · right; omega
      · right; omega
      · rcases g4 i hi with h | h <;> simp [h]
    · exact (fr.trans (frame_cons ..) (G := []) (fun _ h => by cases h)).trans (frame_cons ..) (G := []) (fun _ h => by cases h)
  rename_i hnq
  have hnq' : ¬ ((tQuoted tf).isSome && (tQuoted tb).isSome) = true := by
    intro h
    rw [Bool.and_eq_true, Option.isSome_iff_exists, Option.isSome_iff_exists] at h
    obtain ⟨⟨⟨a, d, r⟩, h1⟩, ⟨⟨a', d', r'⟩, h2⟩⟩ := h
    exact hnq _ _ _ _ _ _ h1 h2
  rw [if_neg hnq']
  split at hc
  · rename_i x
    have ha : isAppend s b = true := (rep_append hb.1).2 ⟨x, rfl⟩
    rw [if_pos ha]
    obtain ⟨w, F1, Fx, rfl, rfl, b1, b2⟩ := rep_cons.1 hb.1
    obtain ⟨b3, rfl, _⟩ := rep_leaf.1 b1
    simp only [List.nil_append] at *
    have ox : Own s (s.cdr w) x Fx := ⟨b2, by have := hb.2.1; grind, fun i hi => hb.2.2 i (by simp [hi])⟩
    have gen : ∃ s' r F', AOut.ok ((s.cons f (s.cdr w)).1.cons .append (s.cons f (s.cdr w)).2).1 ((s.cons f (s.cdr w)).1.cons .append (s.cons f (s.cdr w)).2).2 = .ok s' r ∧
        Own s' r (.cons .append (.cons tf x)) F' ∧ New s (Ff ++ w :: Fx) F' ∧ Frame s s' (Ff ++ w :: Fx) := by
      have o1 := own_cons hf ox (fun i hi h => hd i hi (by simp [h]))
      have o2 := own_cons (own_leaf (s := (s.cons f (s.cdr w)).1) (v := .append) (fun _ h => by cases h)) o1 (fun _ h => by cases h)
      refine ⟨_, _, _, rfl, o2, ?_, ?_⟩
      · intro i hi
        simp only [List.mem_cons, List.nil_append, List.mem_append, St.cons] at hi ⊢
        rcases hi with rfl | rfl | hi | hi
        · right; omega
        · right; omega
        · simp [hi]
        · simp [hi]
      · exact (frame_cons ..).trans (frame_cons ..) (G := []) (fun _ h => by cases h)
    cases x with
    | leaf u =>
      obtain ⟨c1, _, _⟩ := rep_leaf.1 b2
      split at hc
      · rename_i h; cases h
      · rename_i h
        cases h
        cases hc
        have hq : isQuotedList s .nil = false := rfl
        simp only [St.gcadr, c1, hq, Bool.false_and, Bool.false_eq_true, if_false, St.gcdr]
        rw [c1] at gen
        exact gen
      · cases hc
    | cons q r =>
      obtain ⟨w2, Fq, Fr, c1, rfl, c2, c3⟩ := rep_cons.1 b2
      simp only at hc
      simp only [St.gcadr, St.gcdr, c1, rep_quoted c2]
      rw [c1] at gen
      split at hc
      · rename_i a' d' r' a d r0 h1 h2
        cases hc
        simp only [h1, h2, Option.isSome_some, Bool.and_self, if_true]
        obtain ⟨x, y, z, Fz, Fr0, rfl, e1, e2, e3, rfl, e4, e5⟩ := quoted_cells hf.1 h2
        obtain ⟨x', y', z', Fz', Fr', e0', e1', e2', e3', rfl, e4', e5'⟩ := quoted_cells c2 h1
        have o1 : Own s (.cons z) (.cons a d) Fz := ⟨e4, by have := hf.2.1; grind, fun i hi => hf.2.2 i (by simp [hi])⟩
        have o2 : Own s (.cons z') (.cons a' d') Fz' := ⟨e4', by have := hb.2.1; grind, fun i hi => hb.2.2 i (by simp [hi])⟩
        obtain ⟨c, G, g1, g2, g3, g4⟩ := listAppend_own o1 o2 (fun i hi hi' => hd i (by simp [hi]) (by simp [hi']))
        simp only [e2, e3, e0', e2', e3', g1]
        have cw : ∀ i, i ∈ w :: w2 :: x' :: y' :: (Fz' ++ Fr') ++ Fr → i ≠ c := fun i hi e => hd c (by simp [g2]) (by rw [← e]; simpa using hi)
        have n1 := hb.2.1
        simp only [List.nodup_cons, List.mem_cons, List.nodup_append, List.mem_append, List.cons_append, not_or] at n1
        have hx : (s.setCdr (.cons c) (.cons z')).cdr x' = .cons y' := by simp [St.setCdr, cw x' (by simp), e2']
        refine ⟨_, _, w :: (([] : List Nat) ++ w2 :: ((x' :: ([] ++ y' :: (G ++ Fr'))) ++ Fr)), by simp only [hx]; rfl, ⟨?_, ?_, ?_⟩, ?_, ?_⟩
        · have sm : ∀ i, i ∈ w :: w2 :: x' :: y' :: (Fz' ++ Fr') ++ Fr → i ≠ y' → ((s.setCdr (.cons c) (.cons z')).setCar (.cons y') (.cons z)).car i = s.car i ∧
              ((s.setCdr (.cons c) (.cons z')).setCar (.cons y') (.cons z)).cdr i = s.cdr i := by
            intro i hi hy
            simp [St.setCar, St.setCdr, hy, cw i hi]
          have sy : ((s.setCdr (.cons c) (.cons z')).setCar (.cons y') (.cons z)).car y' = .cons z ∧
              ((s.setCdr (.cons c) (.cons z')).setCar (.cons y') (.cons z)).cdr y' = s.cdr y' := by
            simp [St.setCar, St.setCdr, cw y' (by simp)]
          have hgy : y' ∉ G := by
            intro h
            rcases g4 _ h with h | h
            · exact hd y' (by simp [h]) (by simp)
            · grind
          refine .cons ?_ (?_)
          · rw [(sm w (by simp) (by grind)).1, b3]; exact .leaf (fun _ h => by cases h)
          · rw [(sm w (by simp) (by grind)).2, c1]
            refine .cons ?_ ?_
            · rw [(sm w2 (by simp) (by grind)).1, e0']
              refine .cons ?_ ?_
              · rw [(sm x' (by simp) (by grind)).1, e1']; exact .leaf (fun _ h => by cases h)
              · rw [(sm x' (by simp) (by grind)).2, e2']
                refine .cons ?_ ?_
                · rw [sy.1]
                  exact g3.1.same fun i hi => by
                    have : i ≠ y' := fun e => hgy (e ▸ hi)
                    simp [St.setCar, this]
                · rw [sy.2]
                  exact e5'.same fun i hi => sm i (by simp [hi]) (by grind)
            · rw [(sm w2 (by simp) (by grind)).2]
              exact c3.same fun i hi => sm i (by simp [hi]) (by grind)
        · have n2 := g3.2.1
          simp only [List.nodup_cons, List.mem_cons, List.nodup_append, List.mem_append, List.cons_append, not_or, List.nil_append]
          simp only [Disj, List.mem_cons, List.mem_append, List.cons_append] at hd
          grind
        · intro i hi
          have l1 := hb.2.2 i
          have l2 := g3.2.2 i
          show i < s.next
          have l2 : i ∈ G → i < s.next := l2
          simp only [List.mem_cons, List.mem_append, List.cons_append, List.nil_append] at hi l1
          grind
        · intro i hi
          simp only [List.mem_cons, List.mem_append, List.cons_append, List.nil_append] at hi ⊢
          grind
        · refine Frame.trans (F := (x :: y :: (Fz ++ Fr0)) ++ w :: w2 :: (x' :: y' :: (Fz' ++ Fr') ++ Fr)) (frame_setCdr (c := c) (by simp [g2])) (frame_setCar (c := y') (F := [y']) (by simp)) ?_
          intro i hi
          simp only [List.mem_singleton] at hi
          subst hi
          left; simp
      · rename_i hnq2
        cases hc
        have : ¬ ((tQuoted q).isSome && (tQuoted tf).isSome) = true := by
          intro h
          rw [Bool.and_eq_true, Option.isSome_iff_exists, Option.isSome_iff_exists] at h
          obtain ⟨⟨⟨a, d, r⟩, h1⟩, ⟨⟨a', d', r'⟩, h2⟩⟩ := h
          exact hnq2 _ _ _ _ _ _ h1 h2
        rw [if_neg this]
        exact gen
  · rename_i hna
    have ha : ¬ isAppend s b = true := fun h => by
      obtain ⟨x, hx⟩ := (rep_append hb.1).1 h
      exact hna x hx
    rw [if_neg ha]
    cases hc
    have o1 := own_cons hb (own_leaf (s := s) (v := .nil) (fun _ h => by cases h)) (fun _ _ h => by cases h)
    have o2 := own_cons (hf.frame (frame_cons s b .nil []) (fun _ _ h => by cases h)) o1 (by
      intro i hi h
      simp only [List.append_nil, List.mem_cons] at h
      rcases h with rfl | h
      · exact absurd (hf.2.2 _ hi) (by omega)
      · exact hd i hi h)
    have o3 := own_cons (own_leaf (s := ((s.cons b .nil).1.cons f (s.cons b .nil).2).1) (v := .append) (fun _ h => by cases h)) o2 (fun _ h => by cases h)
    refine ⟨_, _, _, rfl, o3, ?_, ?_⟩
    · intro i hi
      simp only [List.mem_cons, List.nil_append, List.append_nil, List.mem_append, St.cons] at hi ⊢
      rcases hi with rfl | rfl | hi | rfl | hi
      · right; omega
      · right; omega
      · simp [hi]
      · right; omega
      · simp [hi]
    · exact ((frame_cons ..).trans (frame_cons ..) (G := []) (fun _ h => by cases h)).trans (frame_cons ..) (G := []) (fun _ h => by cases h)

theorem steps_add (a b : Nat) (o : Out) : steps (a + b) o = steps b (steps a o) := by
  induction a generalizing o with
  | zero => rw [Nat.zero_add]; rfl
  | succ a ih =>
    rw [Nat.add_right_comm]
    cases o with
    | next m => exact ih (step m)
    | err => cases b <;> rfl
    | ub => cases b <;> rfl

theorem quoteIt_own {s : St} {v : V} (hv : ∀ a, v ≠ .cons a) : ∃ F, Own (quoteIt s v).1 (quoteIt s v).2 (tQuoteIt (.leaf v)) F ∧ New s [] F ∧ Frame s (quoteIt s v).1 [] := by
  have gen : ∃ F, Own ((s.cons v .nil).1.cons .quote (s.cons v .nil).2).1 ((s.cons v .nil).1.cons .quote (s.cons v .nil).2).2 (T.ofList [.quote, .leaf v]) F ∧ New s [] F ∧
      Frame s ((s.cons v .nil).1.cons .quote (s.cons v .nil).2).1 [] := by
    have o1 := own_cons (own_leaf (s := s) hv) (own_leaf (s := s) (v := .nil) (fun _ h => by cases h)) (fun _ h => by cases h)
    have o2 := own_cons (own_leaf (s := (s.cons v .nil).1) (v := .quote) (fun _ h => by cases h)) o1 (fun _ h => by cases h)
    refine ⟨_, o2, ?_, (frame_cons ..).trans (frame_cons ..) (G := []) (fun _ h => by cases h)⟩
    intro i hi
    simp only [St.cons, List.nil_append, List.mem_cons, List.not_mem_nil, or_false] at hi
    right; omega
  cases v with
  | sym n =>
    simp only [quoteIt, tQuoteIt]
    by_cases h : n < 0xFFFF
    · simp only [h, if_true]
      exact ⟨[], own_leaf (fun _ h => by cases h), (fun _ h => by cases h), Nat.le_refl _, fun _ _ _ => ⟨rfl, rfl⟩⟩
    · simp only [h, if_false]; exact gen
  | cons a => exact absurd rfl (hv a)
  | _ => exact gen

theorem tCar_rep {s : St} {v : V} {t e : T} {F : List Nat} (h : Rep s v t F) (he : tCar t = some e) :
    ∃ w G, s.gcar v = some w ∧ Rep s w e G ∧ G.Sublist F := by
  cases h with
  | leaf hl =>
    unfold tCar at he
    split at he
    · rename_i h; cases h
    · rename_i h; cases h; cases he
      exact ⟨.nil, [], rfl, .leaf hl, .refl _⟩
    · cases he
  | @cons a t1 t2 F1 F2 h1 h2 =>
    cases he
    exact ⟨_, _, rfl, h1, (List.sublist_append_left ..).cons _⟩

/-- What the theorem for the expansion of a template and of an element have in common. -/
def Expands (s : St) (F : List Nat) (m : M) (K : List W) (c : T) : Prop :=
  ∃ n s' r F', steps n (.next m) = .next ⟨K, r, s'⟩ ∧ Own s' r c F' ∧ New s F F' ∧ Frame s s' F

theorem Own.sub {s : St} {v : V} {t : T} {F : List Nat} (h : Own s v t F) {w : V} {e : T} {G : List Nat} (hr : Rep s w e G) (hs : G.Sublist F) : Own s w e G :=
  ⟨hr, h.2.1.sublist hs, fun i hi => h.2.2 i (hs.subset hi)⟩

theorem New.mono {s : St} {F F1 F' : List Nat} (h : New s F F') (hs : ∀ i, i ∈ F → i ∈ F1) : New s F1 F' := fun i hi => (h i hi).imp (hs i) id
theorem Frame.mono {s s' : St} {F F1 : List Nat} (h : Frame s s' F) (hs : ∀ i, i ∈ F → i ∈ F1) : Frame s s' F1 :=
  ⟨h.1, fun i hi hn => h.2 i hi (fun hf => hn (hs i hf))⟩

theorem New.trans {s s1 : St} {F G F' : List Nat} (h1 : New s F G) (h2 : New s1 G F') (hn : s.next ≤ s1.next) : New s F F' := fun i hi => by
  rcases h2 i hi with h | h
  · exact h1 i h
  · right; omega

theorem expand_sim (t : T) :
    (∀ {c}, qq t = some c → ∀ {s x F K h th Fh c'}, Own s x t F → Own s h th Fh → Disj Fh F → tAppend th c = some c' →
      Expands s (Fh ++ F) ⟨.k 33 :: .v x :: K, h, s⟩ K c') ∧
    (∀ {c}, qqL t = some c → ∀ {s x F K}, Own s x t F → Expands s F ⟨.k 35 :: .v x :: K, .nil, s⟩ K c) := by
  induction t with
  | leaf v =>
    constructor
    · intro c hc s x F K h th Fh c' ox oh hd ha
      obtain ⟨rfl, rfl, hv⟩ := rep_leaf.1 ox.1
      rw [qq] at hc
      cases hc
      obtain ⟨Fq, q1, q2, q3⟩ := quoteIt_own (s := s) hv
      have hne : Disj Fh Fq := fun i hi hq => by
        rcases q2 i hq with h | h
        · cases h
        · exact absurd (oh.2.2 i hi) (by omega)
      obtain ⟨s', r, F', g1, g2, g3, g4⟩ := append_sim (oh.frame q3 (fun _ _ h => by cases h)) q1 hne ha
      refine ⟨1, s', r, F', ?_, g2, ?_, ?_⟩
      · simp only [steps, step, expand]
        cases x with
        | cons a => exact absurd rfl (hv a)
        | _ => simp only [g1, AOut.go]
      · refine New.trans (G := Fh ++ Fq) ?_ g3 q3.1
        intro i hi
        rcases List.mem_append.1 hi with hi | hi
        · left; simp [hi]
        · exact .inr ((q2 i hi).resolve_left (fun h => by cases h))
      · refine (q3.mono (F1 := Fh ++ []) (fun _ h => by cases h)).trans g4 ?_
        intro i hi
        rcases List.mem_append.1 hi with hi | hi
        · left; simp [hi]
        · exact .inr ((q2 i hi).resolve_left (fun h => by cases h))
    · intro c hc s x F K ox
      obtain ⟨rfl, rfl, hv⟩ := rep_leaf.1 ox.1
      rw [qqL] at hc
      cases hc
      have o1 := own_cons (own_leaf (s := s) hv) (own_leaf (s := s) (v := .nil) (fun _ h => by cases h)) (fun _ h => by cases h)
      have o2 := own_cons o1 (own_leaf (v := .nil) (fun _ h => by cases h)) (fun _ _ h => by cases h)
      have o3 := own_cons (own_leaf (v := .quote) (fun _ h => by cases h)) o2 (fun _ h => by cases h)
      refine ⟨1, _, _, _, ?_, o3, ?_, ?_⟩
      · simp only [steps, step, expandList]
        cases x with
        | cons a => exact absurd rfl (hv a)
        | _ => simp [append, AOut.go]
      · intro i hi
        simp only [St.cons, List.nil_append, List.append_nil, List.mem_cons, List.not_mem_nil, or_false] at hi
        right; omega
      · exact ((frame_cons ..).trans (frame_cons ..) (G := []) (fun _ h => by cases h)).trans (frame_cons ..) (G := []) (fun _ h => by cases h)
  | cons a d iha ihd =>
    -- the common part: the elements of a list
    have body : a ≠ .comma → a ≠ .commaAt → ∀ {x y c}, qqL a = some x → qq d = some y → tAppend x y = some c → ∀ {s p F K}, Own s (.cons p) (.cons a d) F →
        Expands s F ⟨.k 35 :: .v (s.car p) :: .k 33 :: .v (s.cdr p) :: K, .nil, s⟩ K c := by
      intro _ _ x y c hx hy hc s p F K ox
      obtain ⟨p', F1, F2, e, rfl, r1, r2⟩ := rep_cons.1 ox.1
      cases e
      have n1 := ox.2.1
      have oa := ox.sub r1 ((List.sublist_append_left F1 F2).cons p)
      have od := ox.sub r2 ((List.sublist_append_right F1 F2).cons p)
      obtain ⟨n, s1, h1, Fh, g1, g2, g3, g4⟩ := iha.2 hx (K := .k 33 :: .v (s.cdr p) :: K) oa
      have dj : Disj F2 F1 := by
        simp only [List.nodup_cons, List.nodup_append] at n1
        intro i hi h; exact n1.2.2.2 i h i hi rfl
      have dh : Disj Fh F2 := fun i hi h => by
        rcases g3 i hi with hf | hf
        · exact dj i h hf
        · exact absurd (od.2.2 i h) (by omega)
      obtain ⟨n', s2, r, F', k1, k2, k3, k4⟩ := ihd.1 hy (K := K) (od.frame g4 dj) g2 dh hc
      have hnew : New s (p :: (F1 ++ F2)) (Fh ++ F2) := by
        intro i hi
        rcases List.mem_append.1 hi with hi | hi
        · rcases g3 i hi with h | h
          · left; simp [h]
          · exact .inr h
        · left; simp [hi]
      refine ⟨n + n', s2, r, F', ?_, k2, hnew.trans k3 g4.1, (g4.mono (fun i hi => by simp [hi])).trans k4 hnew⟩
      rw [steps_add, g1, k1]
    constructor
    · intro c hc s x F K h th Fh c' ox oh hd ha
      obtain ⟨p, F1, F2, rfl, rfl, r1, r2⟩ := rep_cons.1 ox.1
      rw [qq] at hc
      split at hc
      · rename_i hcm
        subst hcm
        obtain ⟨w, G, g1, g2, g3⟩ := tCar_rep r2 hc
        have hsub : G.Sublist (p :: (F1 ++ F2)) := (g3.trans (List.sublist_append_right F1 F2)).cons p
        obtain ⟨s', r, F', k1, k2, k3, k4⟩ := append_sim oh (ox.sub g2 hsub) (fun i hi h => hd i hi (hsub.subset h)) ha
        have hs : ∀ i, i ∈ Fh ++ G → i ∈ Fh ++ p :: (F1 ++ F2) := fun i hi => by
          rcases List.mem_append.1 hi with hi | hi
          · simp [hi]
          · exact List.mem_append.2 (.inr (hsub.subset hi))
        refine ⟨1, s', r, F', ?_, k2, k3.mono hs, k4.mono hs⟩
        simp only [steps, step, expand, (rep_leaf.1 r1).1, if_true, g1, k1, AOut.go]
      · split at hc
        · cases hc
        · rename_i n1 n2
          have c1 : s.car p ≠ .comma := fun e => by rw [e] at r1; cases r1; exact n1 rfl
          have c2 : s.car p ≠ .commaAt := fun e => by rw [e] at r1; cases r1; exact n2 rfl
          split at hc
          · rename_i x y hx hy
            obtain ⟨n, s1, r, F', g1, g2, g3, g4⟩ := body n1 n2 hx hy hc (K := .k 34 :: .v h :: K) ox
            have dj : Disj Fh F' := fun i hi hf => by
              rcases g3 i hf with hf | hf
              · exact hd i hi hf
              · exact absurd (oh.2.2 i hi) (by omega)
            obtain ⟨s2, r2, F2', k1, k2, k3, k4⟩ := append_sim (oh.frame g4 hd) g2 dj ha
            have hnew : New s (Fh ++ p :: (F1 ++ F2)) (Fh ++ F') := by
              intro i hi
              rcases List.mem_append.1 hi with hi | hi
              · left; simp [hi]
              · rcases g3 i hi with h | h
                · left; exact List.mem_append.2 (.inr h)
                · exact .inr h
            refine ⟨1 + (n + 1), s2, r2, F2', ?_, k2, hnew.trans k3 g4.1, (g4.mono (fun i hi => List.mem_append.2 (.inr hi))).trans k4 hnew⟩
            rw [steps_add, steps_add]
            simp only [steps, step, expand, c1, c2, if_false]
            rw [g1]
            simp only [steps, step, qqAppend, k1, AOut.go]
          · cases hc
    · intro c hc s x F K ox
      obtain ⟨p, F1, F2, rfl, rfl, r1, r2⟩ := rep_cons.1 ox.1
      rw [qqL] at hc
      split at hc
      · rename_i hcm
        subst hcm
        cases he : tCar d with
        | none => rw [he] at hc; cases hc
        | some e =>
          rw [he] at hc
          cases hc
          obtain ⟨w, G, g1, g2, g3⟩ := tCar_rep r2 he
          have hsub : G.Sublist (p :: (F1 ++ F2)) := (g3.trans (List.sublist_append_right F1 F2)).cons p
          have o1 := own_cons (ox.sub g2 hsub) (own_leaf (v := .nil) (fun _ h => by cases h)) (fun _ _ h => by cases h)
          have o2 := own_cons (own_leaf (v := .list) (fun _ h => by cases h)) o1 (fun _ h => by cases h)
          refine ⟨1, _, _, _, ?_, o2, ?_, ?_⟩
          · simp only [steps, step, expandList, (rep_leaf.1 r1).1, if_true, g1, append, AOut.go]
          · intro i hi
            simp only [St.cons, List.nil_append, List.append_nil, List.mem_cons] at hi
            rcases hi with rfl | rfl | hi
            · right; omega
            · right; omega
            · left; exact hsub.subset hi
          · exact (frame_cons ..).trans (frame_cons ..) (G := []) (fun _ h => by cases h)
      · split at hc
        · rename_i n1 hcm
          subst hcm
          obtain ⟨w, G, g1, g2, g3⟩ := tCar_rep r2 hc
          have hsub : G.Sublist (p :: (F1 ++ F2)) := (g3.trans (List.sublist_append_right F1 F2)).cons p
          refine ⟨1, s, w, G, ?_, ox.sub g2 hsub, fun i hi => .inl (hsub.subset hi), Nat.le_refl _, fun _ _ _ => ⟨rfl, rfl⟩⟩
          have : (V.commaAt : V) ≠ .comma := by decide
          simp only [steps, step, expandList, (rep_leaf.1 r1).1, if_true, g1, this, if_false]
        · rename_i n1 n2
          have c1 : s.car p ≠ .comma := fun e => by rw [e] at r1; cases r1; exact n1 rfl
          have c2 : s.car p ≠ .commaAt := fun e => by rw [e] at r1; cases r1; exact n2 rfl
          split at hc
          · rename_i x y hx hy
            cases hap : tAppend x y with
            | none => rw [hap] at hc; cases hc
            | some e =>
              rw [hap] at hc
              cases hc
              obtain ⟨n, s1, r, F', g1, g2, g3, g4⟩ := body n1 n2 hx hy hap (K := .k 34 :: .v .nil :: .k 36 :: K) ox
              have o1 := own_cons g2 (own_leaf (v := .nil) (fun _ h => by cases h)) (fun _ _ h => by cases h)
              have o2 := own_cons (own_leaf (v := .list) (fun _ h => by cases h)) o1 (fun _ h => by cases h)
              refine ⟨1 + (n + 2), _, _, _, ?_, o2, ?_, ?_⟩
              · rw [steps_add, steps_add]
                simp only [steps, step, expandList, c1, c2, if_false]
                rw [g1]
                simp only [steps, step, qqAppend, append, if_true, AOut.go, qqList]
              · intro i hi
                have := g4.1
                simp only [St.cons, List.nil_append, List.append_nil, List.mem_cons] at hi
                rcases hi with rfl | rfl | hi
                · right; omega
                · right; omega
                · exact g3 i hi
              · exact (g4.trans (frame_cons ..) (G := []) (fun _ h => by cases h)).trans (frame_cons ..) (G := []) (fun _ h => by cases h)
          · cases hc

end Verif.QQ
