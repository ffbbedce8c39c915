import Verif.Set.Spec
import Verif.Lists.Props
import Verif.Eq.Props

namespace Verif.Set
open Verif.Heap Verif.Env Verif.Lists

/-! ## Values in growing heaps -/

/-- `H'` has everything that `H` has. -/
def Ext (H H' : Eq.Heap) : Prop := ∀ k ix, H k ix ≠ .other → H' k ix = H k ix

mutual
theorem rep_ext {H H' : Eq.Heap} (e : Ext H H') {v : Eq.Val} : ∀ {t : Eq.T}, Eq.Rep H v t → Eq.Rep H' v t
  | _, .sym => .sym
  | _, .imm => .imm
  | _, .boxed h => .boxed ((e _ _ (by rw [h]; simp)).trans h)
  | _, .cons h h1 h2 => .cons ((e _ _ (by rw [h]; simp)).trans h) (rep_ext e h1) (rep_ext e h2)
  | _, .bytes h => .bytes ((e _ _ (by rw [h]; simp)).trans h)
  | _, .arr h h1 => .arr ((e _ _ (by rw [h]; simp)).trans h) (reps_ext e h1)
  | _, .obj => .obj
theorem reps_ext {H H' : Eq.Heap} (e : Ext H H') {v : List Eq.Val} : ∀ {t : List Eq.T}, Eq.Reps H v t → Eq.Reps H' v t
  | _, .nil => .nil
  | _, .cons h1 h2 => .cons (rep_ext e h1) (reps_ext e h2)
end

theorem numOf_ext {H H' : Eq.Heap} (e : Ext H H') {v : Eq.Val} {z : Int} (h : Eq.numOf H v = some z) : Eq.numOf H' v = some z := by
  cases v with
  | ptr t k ix =>
    simp only [Eq.numOf] at h ⊢
    cases hc : H k ix <;> simp only [hc, reduceCtorEq] at h
    rw [e k ix (by rw [hc]; simp), hc]; exact h
  | _ => exact h

theorem pairOf_ext {H H' : Eq.Heap} (e : Ext H H') {v : Eq.Val} {z : Eq.Val × Eq.Val} (h : Eq.pairOf H v = some z) : Eq.pairOf H' v = some z := by
  cases v with
  | ptr t k ix =>
    simp only [Eq.pairOf] at h ⊢
    cases hc : H k ix <;> simp only [hc, reduceCtorEq] at h
    rw [e k ix (by rw [hc]; simp), hc]; exact h
  | _ => exact h

theorem bytesOf_ext {H H' : Eq.Heap} (e : Ext H H') {v : Eq.Val} {z : List (BitVec 8)} (h : Eq.bytesOf H v = some z) : Eq.bytesOf H' v = some z := by
  cases v with
  | ptr t k ix =>
    simp only [Eq.bytesOf] at h ⊢
    cases hc : H k ix <;> simp only [hc, reduceCtorEq] at h
    rw [e k ix (by rw [hc]; simp), hc]; exact h
  | _ => exact h

theorem elemsOf_ext {H H' : Eq.Heap} (e : Ext H H') {v : Eq.Val} {z : List Eq.Val} (h : Eq.elemsOf H v = some z) : Eq.elemsOf H' v = some z := by
  cases v with
  | ptr t k ix =>
    simp only [Eq.elemsOf] at h ⊢
    cases hc : H k ix <;> simp only [hc, reduceCtorEq] at h
    rw [e k ix (by rw [hc]; simp), hc]; exact h
  | _ => exact h

theorem structEq_ext {F : Eq.Flt} {H H' : Eq.Heap} (e : Ext H H') : ∀ (f : Nat) {a c : Eq.Val} {r : Bool}, Eq.structEq F H f a c = some r → Eq.structEq F H' f a c = some r := by
  intro f
  induction f with
  | zero => intro a c r h; cases h
  | succ f ih =>
    intro a c r h
    unfold Eq.structEq at h ⊢
    split at h
    · rename_i htag
      rw [if_pos htag]
      split at h
      · simp only [*]
      · split at h
        · rename_i h1 h2
          simp only [numOf_ext e h1, numOf_ext e h2]; exact h
        · cases h
      · split at h
        · rename_i h1 h2
          simp only [pairOf_ext e h1, pairOf_ext e h2]
          split at h
          · rename_i h3
            simp only [ih h3]; exact ih h
          · rename_i h3
            rw [ih h]
            cases r with
            | true => exact absurd h (by simpa using h3)
            | false => rfl
        · cases h
      · split at h
        · rename_i h1 h2
          simp only [bytesOf_ext e h1, bytesOf_ext e h2]; exact h
        · cases h
      · split at h
        · rename_i h1 h2
          simp only [elemsOf_ext e h1, elemsOf_ext e h2]
          split at h
          · rename_i hl
            rw [if_pos hl]
            exact Eq.arrLoop_mono (fun _ _ _ h => ih h) _ _ h
          · rename_i hl
            rw [if_neg hl]; exact h
        · cases h
      · exact h
    · rename_i htag
      rw [if_neg htag]; exact h

theorem used_ext (M : Mem) (h : Heap) (fl : List Nat) : Ext (used M h fl) (view M h) := by
  intro k ix hn
  unfold used at hn ⊢
  split at hn
  · exact absurd rfl hn
  · rename_i hc; rw [if_neg hc]

theorem took_ext {M : Mem} {h h' : Heap} {fl : List Nat} {j : Nat} (t : Took h h' fl j) : Ext (used M h fl) (used M h' (fl.drop j)) := by
  intro k ix hn
  unfold used at hn ⊢
  split at hn
  · exact absurd rfl hn
  · rename_i hc
    rw [if_neg hc]
    cases k with
    | true => simp only [Bool.true_eq_false, false_and, if_false, view, if_true, t.consts]
    | false =>
      have hni : ix ∉ fl := fun hm => hc ⟨rfl, hm⟩
      rw [if_neg (fun hm => hni (List.mem_of_mem_drop hm.2))]
      simp only [view, Bool.false_eq_true, if_false]
      rw [t.same ix (fun hm => hni (List.mem_of_mem_take hm))]

theorem Shows.took {M : Mem} {h h' : Heap} {fl : List Nat} {j : Nat} {v : Val} {t : Eq.T} (s : Shows M h fl v t) (k : Took h h' fl j) : Shows M h' (fl.drop j) v t := rep_ext (took_ext k) s

theorem keeps_took {M : Mem} {h h' : Heap} {fl : List Nat} {j : Nat} (k : Took h h' fl j) : Keeps M h fl h' (fl.drop j) :=
  ⟨fun _ _ s => s.took k, fun _ _ ⟨l, hl, hs, e⟩ => ⟨l, hl.took k, fun p hp => (hs p hp).took k, e⟩⟩

/-- The comparison of two values of the heap, in this heap and in all that grow from it. -/
theorem equal_ok {F : Eq.Flt} {M : Mem} {h : Heap} {fl : List Nat} {v w : Val} {t s : Eq.T} (hv : Shows M h fl v t) (hw : Shows M h fl w s) :
    ∃ n, ∀ g ≥ n, ∀ h' j, Took h h' fl j → equal F M g h' v w = some (Eq.same F t s) := by
  obtain ⟨n, hn⟩ := Eq.C29_decides (F := F) hv hw
  refine ⟨n, fun g hg h' j k => ?_⟩
  have e : Ext (used M h fl) (view M h') := by
    intro k' ix hne
    have e1 := took_ext (M := M) k k' ix hne
    rw [← e1]
    exact used_ext M h' (fl.drop j) k' ix (by rw [e1]; exact hne)
  exact structEq_ext e g (hn g hg)

/-- The comparisons of the values in `l` give the right results as long as the heap grows. -/
def Good (F : Eq.Flt) (M : Mem) (g : Nat) (h : Heap) (fl : List Nat) (l : List (Val × Eq.T)) : Prop :=
  ∀ h' j, Took h h' fl j → ∀ p ∈ l, ∀ q ∈ l, equal F M g h' p.1 q.1 = some (Eq.same F p.2 q.2)

theorem Good.took {F : Eq.Flt} {M : Mem} {g : Nat} {h h1 : Heap} {fl : List Nat} {l : List (Val × Eq.T)} {j : Nat} (hg : Good F M g h fl l) (k : Took h h1 fl j) : Good F M g h1 (fl.drop j) l :=
  fun h' i k' => hg h' (j + i) (k.trans k')

theorem equal_one {F : Eq.Flt} {M : Mem} {h : Heap} {fl : List Nat} {w : Val} {s : Eq.T} (hw : Shows M h fl w s) (l : List (Val × Eq.T)) (hl : ∀ p ∈ l, Shows M h fl p.1 p.2) :
    ∃ n, ∀ g ≥ n, ∀ h' j, Took h h' fl j → ∀ p ∈ l, equal F M g h' w p.1 = some (Eq.same F s p.2) := by
  induction l with
  | nil => exact ⟨0, fun _ _ _ _ _ _ hp => by simp at hp⟩
  | cons q l ih =>
    obtain ⟨n, hn⟩ := equal_ok (F := F) hw (hl q (by simp))
    obtain ⟨m, hm⟩ := ih fun p hp => hl p (by simp [hp])
    refine ⟨n + m, fun g hg h' j k p hp => ?_⟩
    rcases List.mem_cons.1 hp with rfl | hp
    · exact hn g (by omega) h' j k
    · exact hm g (by omega) h' j k p hp

theorem good_ok (F : Eq.Flt) {M : Mem} {h : Heap} {fl : List Nat} (l : List (Val × Eq.T)) (hl : ∀ p ∈ l, Shows M h fl p.1 p.2) : ∃ n, ∀ g ≥ n, Good F M g h fl l := by
  have key : ∀ l' : List (Val × Eq.T), (∀ p ∈ l', Shows M h fl p.1 p.2) → ∃ n, ∀ g ≥ n, ∀ h' j, Took h h' fl j → ∀ p ∈ l', ∀ q ∈ l, equal F M g h' p.1 q.1 = some (Eq.same F p.2 q.2) := by
    intro l'
    induction l' with
    | nil => exact fun _ => ⟨0, fun _ _ _ _ _ _ hp => by simp at hp⟩
    | cons a l' ih =>
      intro hl'
      obtain ⟨n, hn⟩ := equal_one (F := F) (hl' a (by simp)) l hl
      obtain ⟨m, hm⟩ := ih fun p hp => hl' p (by simp [hp])
      refine ⟨n + m, fun g hg h' j k p hp => ?_⟩
      rcases List.mem_cons.1 hp with rfl | hp
      · exact hn g (by omega) h' j k
      · exact hm g (by omega) h' j k p hp
  exact key l hl

/-! ## member -/

theorem chain_cons {h : Heap} {v x : Val} {xs : List Val} {is : List Nat} (hc : Chain h nil v is (x :: xs)) : isCons v = true ∧ car h v = x ∧ ∃ js, Chain h nil (cdr h v) js xs ∧ ∀ j ∈ js, j ∈ is := by
  cases hc with
  | ram e hc => exact ⟨rfl, car_pair e, _, by rw [cdr_pair e]; exact hc, fun j hj => by simp [hj]⟩
  | rom e hc => exact ⟨rfl, car_rom e, _, by rw [cdr_rom e]; exact hc, fun j hj => hj⟩

theorem has_nil {F : Eq.Flt} {s : Eq.T} : ¬ Has F [] s := fun ⟨_, h, _⟩ => by simp at h

theorem has_cons {F : Eq.Flt} {t s : Eq.T} {ts : List Eq.T} (hs : Eq.same F t s = false) : Has F (t :: ts) s ↔ Has F ts s := by
  constructor
  · rintro ⟨u, hu, hus⟩
    rcases List.mem_cons.1 hu with rfl | hu
    · rw [hs] at hus; cases hus
    · exact ⟨u, hu, hus⟩
  · rintro ⟨u, hu, hus⟩; exact ⟨u, by simp [hu], hus⟩

theorem memberLoop_spec {F : Eq.Flt} {M : Mem} {h : Heap} {g : Nat} {set val : Val} {s : Eq.T} {l : List (Val × Eq.T)} (he : ∀ p ∈ l, equal F M g h p.1 val = some (Eq.same F p.2 s)) :
    ∀ {f : Nat} {curr : Val}, IsList h curr (l.map (·.1)) → l.length < f → ∃ r, memberLoop F M g h set val f curr = some r ∧ (Has F (l.map (·.2)) s → r = set) ∧ (¬ Has F (l.map (·.2)) s → r = nil) := by
  induction l with
  | nil =>
    intro f curr ⟨is, hc⟩ hf
    obtain ⟨f, rfl⟩ := Nat.exists_eq_succ_of_ne_zero (by omega : f ≠ 0)
    cases hc
    exact ⟨nil, by simp [memberLoop, isCons, nil], fun h => absurd h has_nil, fun _ => rfl⟩
  | cons p l ih =>
    intro f curr ⟨is, hc⟩ hf
    obtain ⟨f, rfl⟩ := Nat.exists_eq_succ_of_ne_zero (by omega : f ≠ 0)
    obtain ⟨c1, c2, js, c3, _⟩ := chain_cons hc
    rw [memberLoop, if_pos c1, c2, he p (by simp), Option.bind_some]
    cases hs : Eq.same F p.2 s with
    | true => exact ⟨set, rfl, fun _ => rfl, fun hn => absurd ⟨p.2, by simp, hs⟩ hn⟩
    | false =>
      obtain ⟨r, e, r1, r2⟩ := ih (fun q hq => he q (by simp [hq])) ⟨js, c3⟩ (by simpa using hf)
      rw [List.map_cons, has_cons hs]
      exact ⟨r, e, r1, r2⟩

theorem isList_of {h : Heap} {v : Val} {xs : List Val} (hl : IsList h v xs) : isList v = true := by
  obtain ⟨is, hc⟩ := hl
  cases hc <;> rfl

theorem LiveList.isList' {h : Heap} {fl : List Nat} {v : Val} {xs : List Val} (hl : LiveList h fl v xs) : IsList h v xs := by
  obtain ⟨is, hc, _⟩ := hl; exact ⟨is, hc⟩

/-- **C85**: `member` finds exactly the elements: it returns the set, which is not nil, if the value is one, and nil if not. -/
theorem member_spec {F : Eq.Flt} {M : Mem} {h : Heap} {fl : List Nat} (hf : FreeOK h fl) {set val : Val} {ts : List Eq.T} {s : Eq.T} (hs : Holds M h fl set ts) (hv : Shows M h fl val s) :
    ∃ n, ∀ f ≥ n, ∃ r, member F M f f h set val = some r ∧ (Has F ts s → r = set ∧ r ≠ nil) ∧ (¬ Has F ts s → r = nil) := by
  obtain ⟨l, hl, hx, rfl⟩ := hs
  obtain ⟨n, hn⟩ := good_ok F ((val, s) :: l) (fun p hp => by
    rcases List.mem_cons.1 hp with rfl | hp
    · exact hv
    · exact hx p hp)
  refine ⟨n + l.length + 1, fun f hfn => ?_⟩
  obtain ⟨r, e, r1, r2⟩ := memberLoop_spec (set := set) (s := s) (val := val) (fun p hp => hn f (by omega) h 0 (Took.refl hf) p (by simp [hp]) (val, s) (by simp)) (LiveList.isList' hl) (f := f) (by omega)
  refine ⟨r, by rw [member, if_pos (isList_of (LiveList.isList' hl))]; exact e, fun hh => ⟨r1 hh, ?_⟩, r2⟩
  rw [r1 hh]
  rintro rfl
  cases l with
  | nil => exact has_nil hh
  | cons p l =>
    obtain ⟨is, hc, _⟩ := hl
    cases hc

/-! ## Copying while looking for the element -/

/-- The copy so far: `ys`, in the first cells of the free list. -/
def Copy (h : Heap) (cells : List Nat) (ys : List Val) (start last : Val) : Prop :=
  (ys = [] ∧ cells = [] ∧ start = nil ∧ last = nil) ∨
    ∃ is i zs y, ys = zs ++ [y] ∧ cells = is ++ [i] ∧ last = .ptr .cons false i ∧ Chain h last start is zs ∧ (h.cells i).content = .pair y nil

theorem Copy.list {h : Heap} {cells : List Nat} {ys : List Val} {start last : Val} (c : Copy h cells ys start last) : Chain h nil start cells ys := by
  rcases c with ⟨rfl, rfl, rfl, rfl⟩ | ⟨is, i, zs, y, rfl, rfl, rfl, hc, hi⟩
  · exact .nil
  · exact chain_append hc (.ram hi .nil)

theorem addCell_full {h : Heap} (hf : FreeOK h []) (start last x : Val) : addCell h start last x = (h, none) := by
  simp [addCell, cons_full hf]

theorem addCell_ok {h0 h : Heap} {fl : List Nat} (h0f : FreeOK h0 fl) {j c : Nat} {rest : List Nat} {ys : List Val} {start last : Val} (k : Took h0 h fl j) (hd : fl.drop j = c :: rest) (cp : Copy h (fl.take j) ys start last) (x : Val) :
    ∃ h' s l, addCell h start last x = (h', some (s, l)) ∧ Took h0 h' fl (j + 1) ∧ Copy h' (fl.take (j + 1)) (ys ++ [x]) s l := by
  have hf : FreeOK h (c :: rest) := by rw [← hd]; exact k.free
  obtain ⟨e1, e2, t⟩ := cons_took hf x nil
  have hj : j < fl.length := by
    rcases Nat.lt_or_ge j fl.length with h | h
    · exact h
    · rw [List.drop_eq_nil_of_le h] at hd; cases hd
  have htk : fl.take (j + 1) = fl.take j ++ [c] := by
    rw [List.take_add, hd]; rfl
  have k1 : Took h0 (cons h x nil).1 fl (j + 1) := k.trans (by rw [hd]; exact t)
  have hnd : fl.Nodup := h0f.2.1
  have hc_ni : c ∉ fl.take j := by
    have := nodup_take_drop hnd j c
    intro hm
    exact this hm (by rw [hd]; simp)
  have hne : (cons h x nil).2 ≠ merror := by rw [e1]; intro hh; cases hh
  rw [htk]
  rcases cp with ⟨rfl, hc0, rfl, rfl⟩ | ⟨is, i, zs, y, rfl, hci, rfl, hch, hi⟩
  · refine ⟨_, _, _, (by simp only [addCell, hne, if_false, if_true]; rfl), k1, ?_⟩
    exact .inr ⟨[], c, [], x, rfl, by rw [hc0], e1, .nil, e2⟩
  · have hic : i ∈ fl.take j := by rw [hci]; simp
    have hi' : ((cons h x nil).1.cells i).content = .pair y nil := by
      rw [t.same i (by simp only [List.take_succ_cons, List.take_zero, List.mem_singleton]; rintro rfl; exact hc_ni hic)]; exact hi
    have p := setCdr_poke (v := (cons h x nil).2) hi'
    refine ⟨_, _, _, by simp only [addCell, hne, if_false]; rw [if_neg (by intro hh; cases hh)], k1.wrote hnd (.poke p (by rw [htk]; simp [hic])), ?_⟩
    refine .inr ⟨is ++ [i], c, zs ++ [y], x, rfl, by rw [hci], e1, ?_, ?_⟩
    · refine chain_append (mid := .ptr .cons false i) (js := [i]) (ys := [y]) (chain_congr (fun m hm => ?_) ?_ hch) (.ram p.at_ .nil)
      · have hm' : m ∈ fl.take j := by rw [hci]; simp [hm]
        have hmi : m ≠ i := by
          rintro rfl
          have : (fl.take j ++ fl.drop j).Nodup := by rw [List.take_append_drop]; exact hnd
          rw [List.nodup_append] at this
          have h3 := this.1
          rw [hci, List.nodup_append] at h3
          exact h3.2.2 m hm m (by simp) rfl
        rw [p.other m hmi, t.same m (by simp only [List.take_succ_cons, List.take_zero, List.mem_singleton]; rintro rfl; exact hc_ni hm')]
      · rw [p.consts, t.consts]
    · rw [p.other c (by rintro rfl; exact hc_ni hic)]; exact e2

theorem insertLoop_spec {F : Eq.Flt} {M : Mem} {h0 : Heap} {fl : List Nat} (h0f : FreeOK h0 fl) {g : Nat} {set val : Val} {s : Eq.T} {l : List (Val × Eq.T)}
    (he : ∀ h' j, Took h0 h' fl j → ∀ p ∈ l, equal F M g h' p.1 val = some (Eq.same F p.2 s)) :
    ∀ {f : Nat} {h : Heap} {j : Nat} {ys : List Val} {curr start last : Val}, Took h0 h fl j → Copy h (fl.take j) ys start last → j = ys.length → LiveList h0 fl curr (l.map (·.1)) → l.length < f →
      ∃ h' r k, insertLoop F M g set val f h curr start last = some (h', r) ∧ Took h0 h' fl k ∧ k ≤ ys.length + l.length + 1 ∧
        ((r = merror ∧ fl.length < ys.length + l.length + 1) ∨ (Has F (l.map (·.2)) s ∧ r = set) ∨ (¬ Has F (l.map (·.2)) s ∧ Chain h' nil r (fl.take k) (ys ++ l.map (·.1) ++ [val]))) := by
  induction l with
  | nil =>
    intro f h j ys curr start last k cp hj hl hf
    obtain ⟨f, rfl⟩ := Nat.exists_eq_succ_of_ne_zero (by omega : f ≠ 0)
    obtain ⟨is, hc, _⟩ := hl
    cases hc
    rw [insertLoop, if_neg (by simp [isCons, nil])]
    cases hd : fl.drop j with
    | nil =>
      have hf0 : FreeOK h [] := by rw [← hd]; exact k.free
      have : fl.length ≤ j := List.drop_eq_nil_iff.1 hd
      rw [addCell_full hf0]
      exact ⟨h, merror, j, rfl, k, by simp; omega, .inl ⟨rfl, by simp; omega⟩⟩
    | cons c rest =>
      obtain ⟨h', s', l', e, k', cp'⟩ := addCell_ok h0f k hd cp val
      rw [e]
      refine ⟨h', s', j + 1, rfl, k', by simp; omega, .inr (.inr ⟨has_nil, ?_⟩)⟩
      rw [List.map_nil, List.append_nil]
      exact cp'.list
  | cons p l ih =>
    intro f h j ys curr start last k cp hj hl hf
    obtain ⟨f, rfl⟩ := Nat.exists_eq_succ_of_ne_zero (by omega : f ≠ 0)
    obtain ⟨is, hc, hni⟩ := hl
    have hlive : LiveList h (fl.drop j) curr ((p :: l).map (·.1)) := LiveList.took k ⟨is, hc, hni⟩
    obtain ⟨is', hc', hni'⟩ := hlive
    obtain ⟨c1, c2, -⟩ := chain_cons hc'
    rw [insertLoop, if_pos c1, c2, he h j k p (by simp), Option.bind_some]
    cases hs : Eq.same F p.2 s with
    | true =>
      exact ⟨h, set, j, rfl, k, by simp; omega, .inr (.inl ⟨⟨p.2, by simp, hs⟩, rfl⟩)⟩
    | false =>
      rw [if_neg (by decide), List.map_cons, List.map_cons, has_cons hs]
      cases hd : fl.drop j with
      | nil =>
        have hf0 : FreeOK h [] := by rw [← hd]; exact k.free
        have : fl.length ≤ j := List.drop_eq_nil_iff.1 hd
        rw [addCell_full hf0]
        exact ⟨h, merror, j, rfl, k, by simp; omega, .inl ⟨rfl, by simp; omega⟩⟩
      | cons c rest =>
        obtain ⟨h', s', l', e, k', cp'⟩ := addCell_ok h0f k hd cp p.1
        rw [e]
        simp only
        obtain ⟨-, b2, js0, b3, b4⟩ := chain_cons hc
        have hcd : cdr h' curr = cdr h0 curr := by
          cases hc with
          | ram e0 _ =>
            rw [cdr_pair e0]
            rename_i i _ _ _
            have : (h'.cells i).content = (h0.cells i).content := by rw [k'.same i (fun hm => hni i (by simp) (List.mem_of_mem_take hm))]
            exact cdr_pair (this.trans e0)
          | rom e0 _ =>
            rw [cdr_rom e0]
            exact cdr_rom (by rw [k'.consts]; exact e0)
        obtain ⟨h'', r, m, e', km, hm, hr⟩ := ih (fun h' j k q hq => he h' j k q (by simp [hq])) (f := f) k' cp' (by simp [hj]) (curr := cdr h' curr) (by rw [hcd]; exact ⟨js0, b3, fun i hi => hni i (b4 i hi)⟩) (by simpa using hf)
        refine ⟨h'', r, m, e', km, by simp at hm ⊢; omega, ?_⟩
        rcases hr with ⟨r1, r2⟩ | ⟨r1, r2⟩ | ⟨r1, r3⟩
        · exact .inl ⟨r1, by simp at r2 ⊢; omega⟩
        · exact .inr (.inl ⟨r1, r2⟩)
        · exact .inr (.inr ⟨r1, by simpa using r3⟩)

theorem not_merror {h : Heap} {v : Val} {is : List Nat} {xs : List Val} (hc : Chain h nil v is xs) : v ≠ merror := by
  cases hc <;> simp [nil, merror]

theorem setInsert_took {F : Eq.Flt} {M : Mem} {h : Heap} {fl : List Nat} (hf : FreeOK h fl) {g : Nat} {set : Val} {l : List (Val × Eq.T)} {p : Val × Eq.T} (hl : LiveList h fl set (l.map (·.1)))
    {pool : List (Val × Eq.T)} (hg : Good F M g h fl pool) (hp : p ∈ pool) (hpl : ∀ q ∈ l, q ∈ pool) {f : Nat} (hff : l.length < f) :
    ∃ h' r k, setInsert F M g f h set p.1 = some (h', r) ∧ Took h h' fl k ∧ k ≤ l.length + 1 ∧
      ((r = merror ∧ fl.length < l.length + 1) ∨ (Has F (l.map (·.2)) p.2 ∧ r = set ∧ r ≠ merror) ∨ (¬ Has F (l.map (·.2)) p.2 ∧ r ≠ merror ∧ LiveList h' (fl.drop k) r ((l ++ [p]).map (·.1)))) := by
  obtain ⟨h', r, k, e, t, hk, hr⟩ := insertLoop_spec hf (set := set) (val := p.1) (s := p.2) (fun h' j k q hq => hg h' j k q (hpl q hq) p hp) (f := f) (Took.refl hf) (ys := []) (start := nil) (last := nil) (.inl ⟨rfl, by simp, rfl, rfl⟩) rfl hl hff
  simp only [List.length_nil, Nat.zero_add, List.nil_append] at hk hr
  refine ⟨h', r, k, e, t, by omega, ?_⟩
  rcases hr with ⟨r1, r2⟩ | ⟨r1, r2⟩ | ⟨r1, r3⟩
  · exact .inl ⟨r1, by omega⟩
  · refine .inr (.inl ⟨r1, r2, ?_⟩)
    rw [r2]
    obtain ⟨is, hc, _⟩ := hl
    exact not_merror hc
  · exact .inr (.inr ⟨r1, not_merror r3, _, by simpa using r3, nodup_take_drop hf.2.1 k⟩)

/-- **C85**: `set-insert` returns the set itself if the value is an element, and a new list with the value at its end if it is not; all values of the program stay as they are. It fails only if there are fewer free cells than the result has, and then nothing has changed either. -/
theorem insert_spec {F : Eq.Flt} {M : Mem} {h : Heap} {fl : List Nat} (hf : FreeOK h fl) {set val : Val} {ts : List Eq.T} {s : Eq.T} (hs : Holds M h fl set ts) (hv : Shows M h fl val s) :
    ∃ n, ∀ f ≥ n, ∃ h' r fl', extInsert F M f f h set val = some (h', r) ∧ FreeOK h' fl' ∧ Keeps M h fl h' fl' ∧
      ((r = merror ∧ fl.length < ts.length + 1) ∨ (Has F ts s ∧ r = set) ∨ (¬ Has F ts s ∧ Holds M h' fl' r (ts ++ [s]))) := by
  obtain ⟨l, hl, hx, rfl⟩ := hs
  have hpool : ∀ p ∈ (val, s) :: l, Shows M h fl p.1 p.2 := fun p hp => by
    rcases List.mem_cons.1 hp with rfl | hp
    · exact hv
    · exact hx p hp
  obtain ⟨n, hn⟩ := good_ok F ((val, s) :: l) hpool
  refine ⟨n + l.length + 1, fun f hfn => ?_⟩
  obtain ⟨h', r, k, e, t, hk, hr⟩ := setInsert_took hf (p := (val, s)) hl (hn f (by omega)) (by simp) (fun q hq => by simp [hq]) (f := f) (by omega)
  refine ⟨h', r, fl.drop k, by rw [extInsert, if_pos (isList_of (LiveList.isList' hl))]; exact e, t.free, keeps_took t, ?_⟩
  rcases hr with ⟨r1, r2⟩ | ⟨r1, r2, -⟩ | ⟨r1, -, r3⟩
  · exact .inl ⟨r1, by simpa using r2⟩
  · exact .inr (.inl ⟨r1, r2⟩)
  · exact .inr (.inr ⟨r1, l ++ [(val, s)], r3, fun p hp => (hpool p (by simpa [or_comm] using hp)).took t, by simp⟩)

/-! ## Union -/

/-- One element more, if it is a new one. -/
def Grown (F : Eq.Flt) (ts : List Eq.T) (s : Eq.T) (ts' : List Eq.T) : Prop := (Has F ts s ∧ ts' = ts) ∨ (¬ Has F ts s ∧ ts' = ts ++ [s])

theorem Grown.has {F : Eq.Flt} (hF : F.Lawful) {ts ts' : List Eq.T} {s : Eq.T} (g : Grown F ts s ts') (u : Eq.T) : Has F ts' u ↔ Has F ts u ∨ Eq.same F s u = true := by
  rcases g with ⟨⟨a, ha, has⟩, rfl⟩ | ⟨-, rfl⟩
  · exact ⟨.inl, fun h => h.elim id fun h => ⟨a, ha, Eq.same_trans hF has h⟩⟩
  · constructor
    · rintro ⟨a, ha, h⟩
      rcases List.mem_append.1 ha with ha | ha
      · exact .inl ⟨a, ha, h⟩
      · rw [List.mem_singleton] at ha; subst ha; exact .inr h
    · rintro (⟨a, ha, h⟩ | h)
      · exact ⟨a, by simp [ha], h⟩
      · exact ⟨s, by simp, h⟩

theorem Grown.distinct {F : Eq.Flt} {ts ts' : List Eq.T} {s : Eq.T} (g : Grown F ts s ts') (hd : Distinct F ts) : Distinct F ts' := by
  rcases g with ⟨-, rfl⟩ | ⟨hn, rfl⟩
  · exact hd
  · refine List.pairwise_append.2 ⟨hd, by simp, fun a ha b hb => ?_⟩
    rw [List.mem_singleton] at hb; subst hb
    cases e : Eq.same F a b with
    | false => rfl
    | true => exact absurd ⟨a, ha, e⟩ hn

theorem unionLoop_spec {F : Eq.Flt} (hF : F.Lawful) {M : Mem} {g : Nat} {pool : List (Val × Eq.T)} (as : List (Val × Eq.T)) : ∀ {h : Heap} {fl : List Nat} {curr set : Val} {bs : List (Val × Eq.T)} {f : Nat}, FreeOK h fl → Good F M g h fl pool → (∀ p ∈ as, p ∈ pool) → (∀ p ∈ bs, p ∈ pool) →
    LiveList h fl curr (as.map (·.1)) → LiveList h fl set (bs.map (·.1)) → as.length + as.length + bs.length < f →
    ∃ h' r k, unionLoop F M g f h curr set = some (h', r) ∧ Took h h' fl k ∧
      ((r = merror ∧ fl.length < as.length * (as.length + bs.length)) ∨
        ∃ cs, LiveList h' (fl.drop k) r (cs.map (·.1)) ∧ (∀ p ∈ cs, p ∈ pool) ∧ (∀ u, Has F (cs.map (·.2)) u ↔ Has F (as.map (·.2)) u ∨ Has F (bs.map (·.2)) u) ∧ (Distinct F (bs.map (·.2)) → Distinct F (cs.map (·.2))) ∧ bs <+: cs) := by
  induction as with
  | nil =>
    intro h fl curr set bs f hf hg ha hb hl hs hff
    obtain ⟨is, hc, _⟩ := hl
    cases hc
    obtain ⟨f, rfl⟩ := Nat.exists_eq_succ_of_ne_zero (by omega : f ≠ 0)
    refine ⟨h, set, 0, by rw [unionLoop, if_neg (by simp [isCons, nil])], Took.refl hf, .inr ⟨bs, by simpa using hs, hb, fun u => ⟨.inr, fun h => h.elim (fun h => absurd h has_nil) id⟩, id, List.prefix_refl _⟩⟩
  | cons a as ih =>
    intro h fl curr set bs f hf hg ha hb hl hs hff
    obtain ⟨f, rfl⟩ := Nat.exists_eq_succ_of_ne_zero (by omega : f ≠ 0)
    simp only [List.length_cons] at hff
    obtain ⟨is, hc, hni⟩ := id hl
    obtain ⟨c1, c2, js0, c3, c4⟩ := chain_cons hc
    obtain ⟨h', r, k, e, t, hk, hr⟩ := setInsert_took hf (p := a) hs hg (ha a (by simp)) hb (f := f) (by omega)
    rw [unionLoop, if_pos c1, c2, e, Option.bind_some]
    have hmul : bs.length + 1 + as.length * (as.length + (bs.length + 1)) ≤ (a :: as).length * ((a :: as).length + bs.length) := by
      simp only [List.length_cons]
      rw [show as.length + 1 + bs.length = as.length + (bs.length + 1) by omega, Nat.add_mul]
      omega
    have step : ∀ bs' : List (Val × Eq.T), r ≠ merror → LiveList h' (fl.drop k) r (bs'.map (·.1)) → (∀ p ∈ bs', p ∈ pool) → bs'.length ≤ bs.length + 1 → bs <+: bs' → Grown F (bs.map (·.2)) a.2 (bs'.map (·.2)) →
        ∃ h2 r2 k2, (if r = merror then some (h', merror) else unionLoop F M g f h' (cdr h' curr) r) = some (h2, r2) ∧ Took h h2 fl k2 ∧
          ((r2 = merror ∧ fl.length < (a :: as).length * ((a :: as).length + bs.length)) ∨
            ∃ cs, LiveList h2 (fl.drop k2) r2 (cs.map (·.1)) ∧ (∀ p ∈ cs, p ∈ pool) ∧ (∀ u, Has F (cs.map (·.2)) u ↔ Has F ((a :: as).map (·.2)) u ∨ Has F (bs.map (·.2)) u) ∧ (Distinct F (bs.map (·.2)) → Distinct F (cs.map (·.2))) ∧ bs <+: cs) := by
      intro bs' hne hs' hb' hlen hpre hgr
      obtain ⟨is2, hd, hni2⟩ := LiveList.took t hl
      obtain ⟨-, -, js, d3, d4⟩ := chain_cons hd
      obtain ⟨h2, r2, k2, e2, t2, hr2⟩ := ih (f := f) t.free (hg.took t) (fun p hp => ha p (by simp [hp])) hb' ⟨js, d3, fun i hi => hni2 i (d4 i hi)⟩ hs' (by omega)
      refine ⟨h2, r2, k + k2, by rw [if_neg hne]; exact e2, t.trans t2, ?_⟩
      rcases hr2 with ⟨q1, q2⟩ | ⟨cs, q1, q2, q3, q4, q5⟩
      · refine .inl ⟨q1, ?_⟩
        rw [List.length_drop] at q2
        have : as.length * (as.length + bs'.length) ≤ as.length * (as.length + (bs.length + 1)) := Nat.mul_le_mul_left _ (by omega)
        omega
      · refine .inr ⟨cs, by rw [← List.drop_drop]; exact q1, q2, fun u => ?_, fun hd => q4 (hgr.distinct hd), hpre.trans q5⟩
        rw [q3 u, hgr.has hF u]
        constructor
        · rintro (⟨x, hx, hxu⟩ | h | h)
          · exact .inl ⟨x, by simp only [List.map_cons, List.mem_cons]; exact .inr hx, hxu⟩
          · exact .inr h
          · exact .inl ⟨a.2, by simp, h⟩
        · rintro (⟨x, hx, hxu⟩ | h)
          · rw [List.map_cons, List.mem_cons] at hx
            rcases hx with rfl | hx
            · exact .inr (.inr hxu)
            · exact .inl ⟨x, hx, hxu⟩
          · exact .inr (.inl h)
    rcases hr with ⟨r1, r2⟩ | ⟨r1, r2, r3⟩ | ⟨r1, r2, r3⟩
    · refine ⟨h', merror, k, by rw [if_pos r1], t, .inl ⟨rfl, ?_⟩⟩
      omega
    · subst r2
      exact step bs r3 (LiveList.took t hs) hb (by omega) (List.prefix_refl _) (.inl ⟨r1, rfl⟩)
    · refine step (bs ++ [a]) r2 r3 (fun p hp => ?_) (by simp) (List.prefix_append _ _) (.inr ⟨r1, by simp⟩)
      rcases List.mem_append.1 hp with hp | hp
      · exact hb p hp
      · rw [List.mem_singleton] at hp; subst hp; exact ha _ (by simp)

/-- **C85** (partial): the elements of `(set-union a b)` are the elements of `a` and those of `b`; it begins with `b`, and no element occurs twice if none does in `b`. All values of the program stay as they are. It fails only if there are fewer than `n (n + m)` free cells, where `n` and `m` are the sizes of the two sets.

Missing: values that are not the same as themselves, see `nan_twice`. -/
theorem union_partial {F : Eq.Flt} (hF : F.Lawful) {M : Mem} {h : Heap} {fl : List Nat} (hf : FreeOK h fl) {a b : Val} {as bs : List Eq.T} (ha : Holds M h fl a as) (hb : Holds M h fl b bs) :
    ∃ n, ∀ f ≥ n, ∃ h' r fl', extUnion F M f f h a b = some (h', r) ∧ FreeOK h' fl' ∧ Keeps M h fl h' fl' ∧
      ((r = merror ∧ fl.length < as.length * (as.length + bs.length)) ∨
        ∃ cs, Holds M h' fl' r cs ∧ (∀ u, Has F cs u ↔ Has F as u ∨ Has F bs u) ∧ (Distinct F bs → Distinct F cs) ∧ bs <+: cs) := by
  obtain ⟨la, hla, hxa, rfl⟩ := ha
  obtain ⟨lb, hlb, hxb, rfl⟩ := hb
  have hpool : ∀ p ∈ la ++ lb, Shows M h fl p.1 p.2 := fun p hp => (List.mem_append.1 hp).elim (hxa p) (hxb p)
  obtain ⟨n, hn⟩ := good_ok F (la ++ lb) hpool
  refine ⟨n + la.length + la.length + lb.length + 1, fun f hfn => ?_⟩
  obtain ⟨h', r, k, e, t, hr⟩ := unionLoop_spec hF la (f := f) hf (hn f (by omega)) (fun p hp => by simp [hp]) (fun p hp => by simp [hp]) hla hlb (by omega)
  refine ⟨h', r, fl.drop k, by rw [extUnion, isList_of (LiveList.isList' hla), isList_of (LiveList.isList' hlb)]; exact e, t.free, keeps_took t, ?_⟩
  rcases hr with ⟨r1, r2⟩ | ⟨cs, r1, r2, r3, r4, r5⟩
  · exact .inl ⟨r1, by simpa using r2⟩
  · exact .inr ⟨cs.map (·.2), ⟨cs, r1, fun p hp => (hpool p (r2 p hp)).took t, rfl⟩, r3, r4, r5.map _⟩

/-! ## Where the code does not do this -/

/-- A value that is not the same as itself, such as NaN or a channel, is not found in the set it was inserted into, and is inserted again. -/
theorem nan_twice {F : Eq.Flt} {M : Mem} {h : Heap} {fl : List Nat} (hf : FreeOK h fl) {val : Val} {s : Eq.T} (hv : Shows M h fl val s) (hne : Eq.same F s s = false) (hroom : 3 ≤ fl.length) :
    ∃ n, ∀ f ≥ n, ∃ h1 r1 fl1, extInsert F M f f h nil val = some (h1, r1) ∧ Holds M h1 fl1 r1 [s] ∧ member F M f f h1 r1 val = some nil ∧
      ∃ h2 r2 fl2, extInsert F M f f h1 r1 val = some (h2, r2) ∧ Holds M h2 fl2 r2 [s, s] := by
  have hnil : LiveList h fl nil (([] : List (Val × Eq.T)).map (·.1)) := ⟨[], .nil, by simp⟩
  obtain ⟨n, hn⟩ := good_ok F [(val, s)] (fun p hp => by rw [List.mem_singleton] at hp; subst hp; exact hv)
  have hno : ¬ Has F [s] s := fun ⟨u, hu, hus⟩ => by rw [List.mem_singleton] at hu; subst hu; rw [hne] at hus; cases hus
  refine ⟨n + 2, fun f hfn => ?_⟩
  have hg := hn f (by omega)
  obtain ⟨h1, r1, k, e, t, hk, hr⟩ := setInsert_took hf (p := (val, s)) hnil hg (by simp) (by simp) (f := f) (by simp; omega)
  have hl1 : LiveList h1 (fl.drop k) r1 ([(val, s)].map (·.1)) := by
    rcases hr with ⟨-, r2⟩ | ⟨r1, -⟩ | ⟨-, -, r3⟩
    · simp only [List.length_nil] at r2; omega
    · exact absurd r1 has_nil
    · exact r3
  have hs1 := hv.took t
  have hg1 := hg.took t
  obtain ⟨h2, r2, k2, e2, t2, hk2, hr2⟩ := setInsert_took t.free (p := (val, s)) hl1 hg1 (by simp) (fun q hq => hq) (f := f) (by simp; omega)
  have hl2 : LiveList h2 ((fl.drop k).drop k2) r2 ([(val, s), (val, s)].map (·.1)) := by
    rcases hr2 with ⟨-, r2⟩ | ⟨r1, -⟩ | ⟨-, -, r3⟩
    · simp only [List.length_drop, List.length_cons, List.length_nil] at r2 hk; omega
    · exact absurd r1 hno
    · exact r3
  obtain ⟨r, em, -, m2⟩ := memberLoop_spec (set := r1) (val := val) (s := s) (l := [(val, s)]) (fun p hp => hg1 h1 0 (Took.refl t.free) p hp (val, s) (by simp)) (LiveList.isList' hl1) (f := f) (by simp; omega)
  obtain rfl := m2 hno
  refine ⟨h1, r1, _, e, ⟨[(val, s)], hl1, ?_, rfl⟩, ?_, h2, r2, _, ?_, ⟨[(val, s), (val, s)], hl2, ?_, rfl⟩⟩
  · intro p hp; rw [List.mem_singleton] at hp; subst hp; exact hs1
  · rw [member, if_pos (isList_of (LiveList.isList' hl1))]; exact em
  · rw [extInsert, if_pos (isList_of (LiveList.isList' hl1))]; exact e2
  · intro p hp
    have : p = (val, s) := by simpa using hp
    subst this; exact hs1.took t2

/-! ## A concrete case -/

/-- A heap of 16 cells with the lists `((5) 7)` in the cells 0 to 2 and `(7)` in cell 3; the other cells are free. -/
def exHeap : Heap where
  size := 16
  cells := fun i => ⟨match i with
    | 0 => .pair (.ptr .cons false 1) (.ptr .cons false 2)
    | 1 => .pair (.imm 0 5) nil
    | 2 => .pair (.imm 0 7) nil
    | 3 => .pair (.imm 0 7) nil
    | i => if i < 15 then .pair recovered (.ptr .cons false (i + 1)) else .pair recovered nil, false, 0⟩
  consts := fun _ => ⟨.pair nil nil, false, 0⟩
  freelist := .ptr .cons false 4
  numAlloc := 4
  gcCap := 8

def exMem : Mem := ⟨fun _ => 0, fun _ => []⟩

theorem exFree : FreeOK exHeap [4, 5, 6, 7, 8, 9, 10, 11, 12, 13, 14, 15] := by
  refine ⟨?_, by decide, rfl⟩
  repeat' (first | exact ⟨rfl, by decide, _, rfl⟩ | constructor)

/-- The free cells. -/
def exFl : List Nat := [4, 5, 6, 7, 8, 9, 10, 11, 12, 13, 14, 15]

theorem exHolds0 : Holds exMem exHeap exFl (.ptr .cons false 0) [.cons (.num .i 5) (.sym 0), .num .i 7] := by
  refine ⟨[(.ptr .cons false 1, .cons (.num .i 5) (.sym 0)), (.imm 0 7, .num .i 7)], ⟨[0, 2], .ram rfl (.ram rfl .nil), by decide⟩, ?_, rfl⟩
  intro p hp
  simp only [List.mem_cons, List.not_mem_nil, or_false] at hp
  rcases hp with rfl | rfl
  · exact .cons (a := .imm .i 5) (d := .sym 0) rfl .imm .sym
  · exact .imm

theorem exHolds3 : Holds exMem exHeap exFl (.ptr .cons false 3) [.num .i 7] := by
  refine ⟨[(.imm 0 7, .num .i 7)], ⟨[3], .ram rfl .nil, by decide⟩, ?_, rfl⟩
  intro p hp
  rw [List.mem_singleton] at hp; subst hp
  exact .imm

theorem exLawful : Eq.exFlt.Lawful := by
  constructor <;> simp [Eq.exFlt] <;> intros <;> subst_vars <;> simp_all

example : ∃ n, ∀ f ≥ n, ∃ h' r fl', extUnion Eq.exFlt exMem f f exHeap (.ptr .cons false 0) (.ptr .cons false 3) = some (h', r) ∧ FreeOK h' fl' ∧ Keeps exMem exHeap exFl h' fl' ∧
    ((r = merror ∧ 12 < 6) ∨ ∃ cs, Holds exMem h' fl' r cs ∧ (∀ u, Has Eq.exFlt cs u ↔ Has Eq.exFlt [.cons (.num .i 5) (.sym 0), .num .i 7] u ∨ Has Eq.exFlt [.num .i 7] u) ∧ (Distinct Eq.exFlt [.num .i 7] → Distinct Eq.exFlt cs) ∧ [.num .i 7] <+: cs) :=
  union_partial exLawful exFree exHolds0 exHolds3

example : ∃ n, ∀ f ≥ n, ∃ r, member Eq.exFlt exMem f f exHeap (.ptr .cons false 0) (.imm 0 7) = some r ∧ (Has Eq.exFlt [.cons (.num .i 5) (.sym 0), .num .i 7] (.num .i 7) → r = .ptr .cons false 0 ∧ r ≠ nil) ∧ (¬ Has Eq.exFlt [.cons (.num .i 5) (.sym 0), .num .i 7] (.num .i 7) → r = nil) :=
  member_spec exFree exHolds0 .imm

example : ∃ n, ∀ f ≥ n, ∃ h' r fl', extInsert Eq.exFlt exMem f f exHeap (.ptr .cons false 3) (.ptr .cons false 1) = some (h', r) ∧ FreeOK h' fl' ∧ Keeps exMem exHeap exFl h' fl' ∧
    ((r = merror ∧ 12 < 2) ∨ (Has Eq.exFlt [.num .i 7] (.cons (.num .i 5) (.sym 0)) ∧ r = .ptr .cons false 3) ∨ (¬ Has Eq.exFlt [.num .i 7] (.cons (.num .i 5) (.sym 0)) ∧ Holds exMem h' fl' r ([.num .i 7] ++ [.cons (.num .i 5) (.sym 0)]))) :=
  insert_spec exFree exHolds3 (.cons (a := .imm .i 5) (d := .sym 0) rfl .imm .sym)

example : (extUnion Eq.exFlt exMem 9 9 exHeap (.ptr .cons false 0) (.ptr .cons false 3)).map (·.2) = some (.ptr .cons false 4) := by decide +kernel

/-- NaN, here the floating point number 99. -/
example : ∃ n, ∀ f ≥ n, ∃ h1 r1 fl1, extInsert Eq.exFlt exMem f f exHeap nil (.imm 3 99) = some (h1, r1) ∧ Holds exMem h1 fl1 r1 [.num .float 99] ∧ member Eq.exFlt exMem f f h1 r1 (.imm 3 99) = some nil ∧
    ∃ h2 r2 fl2, extInsert Eq.exFlt exMem f f h1 r1 (.imm 3 99) = some (h2, r2) ∧ Holds exMem h2 fl2 r2 [.num .float 99, .num .float 99] :=
  nan_twice exFree .imm rfl (by decide)

/-- Values that are neither a list nor the empty list are refused with a type error, and the heap is left as it is. -/
theorem refused (F : Eq.Flt) (M : Mem) (g f : Nat) (h : Heap) {x : Val} (hx : ∀ k ix, x ≠ .ptr .cons k ix) (hn : x ≠ .sym 0) (y : Val) :
    member F M g f h x y = some (.sym 0x21) ∧ extInsert F M g f h x y = some (h, .sym 0x21) ∧
      extUnion F M g f h x y = some (h, .sym 0x21) ∧ extUnion F M g f h y x = some (h, .sym 0x21) := by
  have e : isList x = false := by
    cases x with
    | ptr t k ix => cases t <;> first | rfl | exact absurd rfl (hx k ix)
    | sym n => simp only [isList, isCons, nil, decide_eq_false_iff_not, Bool.or_eq_false_iff]; simpa using hn
    | _ => rfl
  simp [member, extInsert, extUnion, e]

/-- The hypotheses hold for an array. -/
example : (∀ k ix, (Val.ptr .array false 5) ≠ .ptr .cons k ix) ∧ Val.ptr .array false 5 ≠ .sym 0 := ⟨by simp, by simp⟩

end Verif.Set
