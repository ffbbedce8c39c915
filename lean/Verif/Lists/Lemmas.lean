import Verif.Lists.Spec
import Verif.Env.Props
import Mathlib.Data.List.Rotate

namespace Verif.Lists
open Verif.Heap Verif.Env

theorem chain_len {h : Heap} {tail v : Val} {is : List Nat} {xs : List Val} (hc : Chain h tail v is xs) :
    is.length ≤ xs.length := by
  induction hc <;> simp <;> omega

theorem chain_congr {h h' : Heap} {tail v : Val} {is : List Nat} {xs : List Val}
    (hs : ∀ i ∈ is, (h'.cells i).content = (h.cells i).content) (hk : h'.consts = h.consts)
    (hc : Chain h tail v is xs) : Chain h' tail v is xs := by
  induction hc with
  | nil => exact .nil
  | ram e _ ih =>
    exact .ram (by rw [hs _ (by simp)]; exact e) (ih fun i hi => hs i (by simp [hi]))
  | rom e _ ih => exact .rom (by rw [hk]; exact e) (ih hs)

theorem chain_append {h : Heap} {tail mid v : Val} {is js : List Nat} {xs ys : List Val}
    (h1 : Chain h mid v is xs) (h2 : Chain h tail mid js ys) : Chain h tail v (is ++ js) (xs ++ ys) := by
  induction h1 with
  | nil => exact h2
  | ram e _ ih => exact .ram e ih
  | rom e _ ih => exact .rom e ih

theorem car_rom {h : Heap} {i : Nat} {a d : Val} (hc : (h.consts i).content = .pair a d) :
    car h (.ptr .cons true i) = a := by
  simp [car, contentOf, cellOf, hc]

theorem cdr_rom {h : Heap} {i : Nat} {a d : Val} (hc : (h.consts i).content = .pair a d) :
    cdr h (.ptr .cons true i) = d := by
  simp [cdr, contentOf, cellOf, hc]

theorem isCons_ptr (k : Bool) (i : Nat) : isCons (.ptr .cons k i) = true := rfl

theorem listLength_spec {h : Heap} {tail v : Val} {is : List Nat} {xs : List Val} (ht : isCons tail = false)
    (hc : Chain h tail v is xs) : ∀ f, xs.length < f → listLength h f v = some xs.length := by
  induction hc with
  | nil =>
    intro f hf
    obtain ⟨f, rfl⟩ := Nat.exists_eq_succ_of_ne_zero (by omega : f ≠ 0)
    simp [listLength, ht]
  | ram e _ ih =>
    intro f hf
    obtain ⟨f, rfl⟩ := Nat.exists_eq_succ_of_ne_zero (by omega : f ≠ 0)
    simp [listLength, isCons_ptr, cdr_pair e, ih f (by simpa using hf)]
  | rom e _ ih =>
    intro f hf
    obtain ⟨f, rfl⟩ := Nat.exists_eq_succ_of_ne_zero (by omega : f ≠ 0)
    simp [listLength, isCons_ptr, cdr_rom e, ih f (by simpa using hf)]

theorem idxLoop_spec {h : Heap} {tail v : Val} {is : List Nat} {xs : List Val} (ht : isCons tail = false)
    (hc : Chain h tail v is xs) : ∀ n, idxLoop h n v = (xs[n]?).getD nil := by
  induction hc with
  | nil => intro n; cases n <;> simp [idxLoop, ht]
  | ram e _ ih => intro n; cases n <;> simp [idxLoop, isCons_ptr, car_pair e, cdr_pair e, ih]
  | rom e _ ih => intro n; cases n <;> simp [idxLoop, isCons_ptr, car_rom e, cdr_rom e, ih]

theorem listDrop_spec {h : Heap} {tail v : Val} {is : List Nat} {xs : List Val} (ht : isCons tail = false)
    (hc : Chain h tail v is xs) : ∀ n, ∃ js, Chain h tail (listDrop h n v) js (xs.drop n) ∧ ∀ j ∈ js, j ∈ is := by
  induction hc with
  | nil =>
    intro n
    refine ⟨[], ?_, by simp⟩
    cases n <;> simp [listDrop, ht] <;> exact .nil
  | ram e hc ih =>
    intro n
    cases n with
    | zero => exact ⟨_, .ram e hc, fun j hj => hj⟩
    | succ n =>
      obtain ⟨js, h1, h2⟩ := ih n
      exact ⟨js, by simpa [listDrop, isCons_ptr, cdr_pair e] using h1, fun j hj => by simp [h2 j hj]⟩
  | rom e hc ih =>
    intro n
    cases n with
    | zero => exact ⟨_, .rom e hc, fun j hj => hj⟩
    | succ n =>
      obtain ⟨js, h1, h2⟩ := ih n
      exact ⟨js, by simpa [listDrop, isCons_ptr, cdr_rom e] using h1, h2⟩

/-! ### `Took` -/

theorem Took.refl {h : Heap} {fl : List Nat} (hf : FreeOK h fl) : Took h h fl 0 :=
  ⟨by simpa using hf, fun _ _ => rfl, rfl, rfl⟩

theorem Took.trans {h h1 h2 : Heap} {fl : List Nat} {k l : Nat} (t1 : Took h h1 fl k)
    (t2 : Took h1 h2 (fl.drop k) l) : Took h h2 fl (k + l) := by
  refine ⟨by simpa [List.drop_drop] using t2.free, fun c hc => ?_, t2.consts.trans t1.consts,
    t2.size.trans t1.size⟩
  have e : fl.take (k + l) = fl.take k ++ (fl.drop k).take l := by
    rw [List.take_add]
  rw [e, List.mem_append, not_or] at hc
  rw [t2.same c hc.2, t1.same c hc.1]

theorem LiveList.took {h h' : Heap} {fl : List Nat} {k : Nat} {v : Val} {xs : List Val} (t : Took h h' fl k)
    (hl : LiveList h fl v xs) : LiveList h' (fl.drop k) v xs := by
  obtain ⟨is, hc, hd⟩ := hl
  refine ⟨is, chain_congr (fun i hi => ?_) t.consts hc, fun i hi hm => hd i hi (List.mem_of_mem_drop hm)⟩
  rw [t.same]
  exact fun hm => hd i hi (List.mem_of_mem_take hm)

/-- Allocating a cons. -/
theorem cons_took {h : Heap} {i : Nat} {fl : List Nat} (hf : FreeOK h (i :: fl)) (a d : Val) :
    (cons h a d).2 = .ptr .cons false i ∧ ((cons h a d).1.cells i).content = .pair a d ∧
      Took h (cons h a d).1 (i :: fl) 1 := by
  obtain ⟨h', e, h1, h2, h3, _, _, _, h7, h8⟩ := allocateCell_spec hf .cons (.pair a d)
  rw [cons, e]
  refine ⟨rfl, by rw [h7], ⟨by simpa using h1, fun c hc => h8 c (by simpa using hc), h3, h2⟩⟩

theorem cons_full {h : Heap} (hf : FreeOK h []) (a d : Val) : cons h a d = (h, merror) :=
  allocateCell_full hf _ _

theorem mem_take_of_drop {fl : List Nat} {i : Nat} (k : Nat) (h : i ∈ fl.take k) : i ∈ fl := List.mem_of_mem_take h

/-! ### Building a list by consing -/

/-- Cons the elements of `xs` (last first) in front of `res`. -/
def consAll : List Val → Heap → Val → Heap × Val
  | [], h, res => (h, res)
  | x :: xs, h, res => let r := cons h x res; consAll xs r.1 r.2

theorem consAll_spec : ∀ (xs : List Val) {h : Heap} {fl : List Nat} (res : Val), FreeOK h fl →
    xs.length ≤ fl.length →
    ∃ is, Chain (consAll xs h res).1 res (consAll xs h res).2 is xs.reverse ∧ is.Nodup ∧
      (∀ i ∈ is, i ∈ fl.take xs.length) ∧ Took h (consAll xs h res).1 fl xs.length ∧ is.length = xs.length := by
  intro xs
  induction xs with
  | nil => intro h fl res hf _; exact ⟨[], .nil, .nil, by simp, Took.refl hf, rfl⟩
  | cons x xs ih =>
    intro h fl res hf hl
    cases fl with
    | nil => simp at hl
    | cons i fl =>
      obtain ⟨e1, e2, t⟩ := cons_took hf x res
      have hf1 : FreeOK (cons h x res).1 fl := by simpa using t.free
      obtain ⟨is, hc, hnd, hm, t2, hle⟩ := ih (cons h x res).2 hf1 (by simpa using hl)
      have hni : i ∉ fl := (List.nodup_cons.1 hf.2.1).1
      refine ⟨is ++ [i], ?_, ?_, ?_, ?_, by simp [hle]⟩
      · simp only [consAll, List.reverse_cons]
        refine chain_append (mid := (cons h x res).2) hc ?_
        have hr : Chain (consAll xs (cons h x res).1 (cons h x res).2).1 res (.ptr .cons false i) [i] [x] := by
          refine .ram ?_ .nil
          rw [t2.same i (fun hm => hni (List.mem_of_mem_take hm))]
          exact e2
        rwa [← e1] at hr
      · rw [List.nodup_append]
        refine ⟨hnd, by simp, ?_⟩
        intro a ha b hb
        simp only [List.mem_singleton] at hb
        subst hb
        rintro rfl
        exact hni (List.mem_of_mem_take (hm _ ha))
      · intro j hj
        rcases List.mem_append.1 hj with hj | hj
        · have := hm j hj
          simp [this]
        · simp only [List.mem_singleton] at hj; simp [hj]
      · simp only [consAll, List.length_cons]
        have : Took h (consAll xs (cons h x res).1 (cons h x res).2).1 (i :: fl) (1 + xs.length) :=
          t.trans (by simpa using t2)
        rwa [Nat.add_comm] at this

theorem consAll_full : ∀ (xs : List Val) {h : Heap} {fl : List Nat} (res : Val), FreeOK h fl →
    fl.length < xs.length → (consAll xs h res).2 = merror ∧ Took h (consAll xs h res).1 fl fl.length := by
  intro xs
  induction xs with
  | nil => intro h fl res _ hl; simp at hl
  | cons x xs ih =>
    intro h fl res hf hl
    cases fl with
    | nil =>
      simp only [consAll, cons_full hf]
      cases xs with
      | nil => exact ⟨rfl, Took.refl hf⟩
      | cons y ys => exact ih merror hf (by simp)
    | cons i fl =>
      obtain ⟨e1, e2, t⟩ := cons_took hf x res
      have hf1 : FreeOK (cons h x res).1 fl := by simpa using t.free
      obtain ⟨g1, g2⟩ := ih (cons h x res).2 hf1 (by simpa using hl)
      refine ⟨g1, ?_⟩
      have : Took h (consAll xs (cons h x res).1 (cons h x res).2).1 (i :: fl) (1 + fl.length) :=
        t.trans (by simpa using g2)
      rw [Nat.add_comm] at this
      exact this

theorem appendOne_eq {v : Val} {xs : List Val} : ∀ (j : Nat) {h : Heap} {fl : List Nat} (res : Val), FreeOK h fl →
    LiveList h fl v xs → j ≤ xs.length →
    appendOne v j h res = consAll (xs.take j).reverse h res := by
  intro j
  induction j with
  | zero => intro h fl res _ _ _; simp [appendOne, consAll]
  | succ j ih =>
    intro h fl res hf hl hj
    obtain ⟨is, hc, hd⟩ := hl
    have e1 : idxLoop h j v = xs[j]'(by omega) := by
      rw [idxLoop_spec rfl hc, List.getElem?_eq_getElem (by omega)]; rfl
    have e2 : (xs.take (j + 1)).reverse = (xs[j]'(by omega)) :: (xs.take j).reverse := by
      rw [List.take_succ_eq_append_getElem (by omega), List.reverse_append]; rfl
    simp only [appendOne, e1, e2, consAll]
    cases fl with
    | nil =>
      rw [cons_full hf]
      exact ih merror hf ⟨is, hc, hd⟩ (by omega)
    | cons i fl =>
      obtain ⟨g1, g2, t⟩ := cons_took hf (xs[j]'(by omega)) res
      exact ih _ t.free (LiveList.took t ⟨is, hc, hd⟩) (by omega)

theorem rangeLoop_eq (w : Nat) (start : Int) : ∀ (k : Nat) (h : Heap) (r : Val),
    rangeLoop w start k h r =
      consAll ((List.range k).map fun (j : Nat) => encI w (start + j)).reverse h r := by
  intro k
  induction k with
  | zero => intro h r; rfl
  | succ k ih =>
    intro h r
    simp only [rangeLoop, ih, List.range_succ, List.map_append, List.map_cons, List.map_nil,
      List.reverse_append, List.reverse_cons, List.reverse_nil, List.nil_append, List.cons_append,
      consAll]

theorem consAll_nofree : ∀ (xs : List Val) {h : Heap}, FreeOK h [] → consAll xs h merror = (h, merror) := by
  intro xs
  induction xs with
  | nil => intro h _; rfl
  | cons x xs ih => intro h hf; simp only [consAll, cons_full hf]; exact ih hf

theorem reverseLoop_step {v d x : Val} {xs : List Val} {is : List Nat} {h : Heap} {fl : List Nat} (f : Nat) (acc : Val)
    (ih : ∀ {v : Val} {is : List Nat} {h : Heap} {fl : List Nat} (f : Nat) (acc : Val), FreeOK h fl →
      Chain h nil v is xs → (∀ i ∈ is, i ∉ fl) → xs.length < f → reverseLoop f h v acc = some (consAll xs h acc))
    (hf : FreeOK h fl) (hv : isCons v = true) (hca : car h v = x) (hcd : ∀ h' k, Took h h' fl k → cdr h' v = d)
    (hc : Chain h nil d is xs) (hd : ∀ i ∈ is, i ∉ fl) (hlen : xs.length < f) :
    reverseLoop (f + 1) h v acc = some (consAll (x :: xs) h acc) := by
  simp only [reverseLoop, hv, if_true, hca, consAll]
  cases fl with
  | nil =>
    rw [cons_full hf]
    have : isSymbol merror = true := rfl
    simp [this, consAll_nofree xs hf]
  | cons j fl =>
    obtain ⟨g1, g2, t⟩ := cons_took hf x acc
    have hs : isSymbol (cons h x acc).2 = false := by rw [g1]; rfl
    simp only [hs, Bool.false_eq_true, if_false, hcd _ _ t]
    refine ih (is := is) f (cons h x acc).2 (fl := fl) (by simpa using t.free) ?_ ?_ hlen
    · refine chain_congr (fun k hk => ?_) t.consts hc
      rw [t.same]
      intro hm; exact hd k hk (List.mem_of_mem_take hm)
    · intro k hk hm
      exact hd k hk (by simp [hm])

theorem reverseLoop_eq : ∀ {xs : List Val} {v : Val} {is : List Nat} {h : Heap} {fl : List Nat} (f : Nat) (acc : Val),
    FreeOK h fl → Chain h nil v is xs → (∀ i ∈ is, i ∉ fl) → xs.length < f →
    reverseLoop f h v acc = some (consAll xs h acc) := by
  intro xs
  induction xs with
  | nil =>
    intro v is h fl f acc hf hc hd hlen
    obtain ⟨f, rfl⟩ := Nat.exists_eq_succ_of_ne_zero (by omega : f ≠ 0)
    cases hc
    rfl
  | cons x xs ih =>
    intro v is h fl f acc hf hc hd hlen
    obtain ⟨f, rfl⟩ := Nat.exists_eq_succ_of_ne_zero (by omega : f ≠ 0)
    cases hc with
    | @ram i _ d is _ e hc =>
      refine reverseLoop_step f acc ih hf rfl (car_pair e) (fun h' k t => cdr_pair (a := x) ?_) hc
        (fun k hk => hd k (by simp [hk])) (by simpa using hlen)
      rw [t.same]; exact e
      intro hm; exact hd i (by simp) (List.mem_of_mem_take hm)
    | @rom i _ d is _ e hc =>
      refine reverseLoop_step f acc ih hf rfl (car_rom e) (fun h' k t => cdr_rom (a := x) ?_) hc
        (fun k hk => hd k (by simp [hk])) (by simpa using hlen)
      rw [t.consts]; exact e

/-! ### Filling in and relinking freshly allocated lists -/

theorem chain_of_listAt {h : Heap} : ∀ {is : List Nat} {v : Val} {xs : List Val}, ListAt h v is xs → Chain h nil v is xs := by
  intro is
  induction is with
  | nil =>
    intro v xs hl
    cases xs with
    | nil => have : v = nil := hl
             subst this; exact .nil
    | cons x xs => exact hl.elim
  | cons i is ih =>
    intro v xs hl
    cases xs with
    | nil => exact hl.elim
    | cons x xs =>
      obtain ⟨rfl, d, e, hd⟩ := hl
      exact .ram e (ih hd)

theorem listAt_congr {h h' : Heap} : ∀ {is : List Nat} {v : Val} {xs : List Val},
    (∀ i ∈ is, (h'.cells i).content = (h.cells i).content) → ListAt h v is xs → ListAt h' v is xs := by
  intro is
  induction is with
  | nil =>
    intro v xs _ hl
    cases xs with
    | nil => exact hl
    | cons x xs => exact hl.elim
  | cons i is ih =>
    intro v xs hs hl
    cases xs with
    | nil => exact hl.elim
    | cons x xs =>
      obtain ⟨rfl, d, e, hd⟩ := hl
      exact ⟨rfl, d, by rw [hs i (by simp)]; exact e, ih (fun j hj => hs j (by simp [hj])) hd⟩

theorem listAt_len {h : Heap} : ∀ {is : List Nat} {v : Val} {xs : List Val}, ListAt h v is xs → is.length = xs.length := by
  intro is
  induction is with
  | nil =>
    intro v xs hl
    cases xs with
    | nil => rfl
    | cons x xs => exact hl.elim
  | cons i is ih =>
    intro v xs hl
    cases xs with
    | nil => exact hl.elim
    | cons x xs =>
      obtain ⟨rfl, d, e, hd⟩ := hl
      simp [ih hd]

/-- Only the cells `is` were written, and nothing was allocated or freed. -/
structure Wrote (h h' : Heap) (is : List Nat) : Prop where
  other : ∀ j, j ∉ is → h'.cells j = h.cells j
  size : h'.size = h.size
  freelist : h'.freelist = h.freelist
  numAlloc : h'.numAlloc = h.numAlloc
  consts : h'.consts = h.consts

theorem Wrote.refl (h : Heap) (is : List Nat) : Wrote h h is := ⟨fun _ _ => rfl, rfl, rfl, rfl, rfl⟩

theorem Wrote.trans {h h1 h2 : Heap} {is : List Nat} (a : Wrote h h1 is) (b : Wrote h1 h2 is) : Wrote h h2 is :=
  ⟨fun j hj => (b.other j hj).trans (a.other j hj), b.size.trans a.size, b.freelist.trans a.freelist,
    b.numAlloc.trans a.numAlloc, b.consts.trans a.consts⟩

theorem Wrote.mono {h h1 : Heap} {is js : List Nat} (a : Wrote h h1 is) (hs : ∀ i ∈ is, i ∈ js) : Wrote h h1 js :=
  ⟨fun j hj => a.other j fun hm => hj (hs j hm), a.size, a.freelist, a.numAlloc, a.consts⟩

theorem Wrote.poke {h h1 : Heap} {i : Nat} {x : Content} {is : List Nat} (p : Poke h h1 i x) (hi : i ∈ is) : Wrote h h1 is :=
  ⟨fun j hj => p.other j (by rintro rfl; exact hj hi), p.size, p.freelist, p.numAlloc, p.consts⟩

theorem Wrote.freeOK {h h' : Heap} {is fl : List Nat} (p : Wrote h h' is) (hf : FreeOK h fl)
    (hd : ∀ i ∈ is, i ∉ fl) : FreeOK h' fl := by
  obtain ⟨h1, h2, h3⟩ := hf
  refine ⟨?_, h2, by rw [p.numAlloc, p.size]; exact h3⟩
  rw [p.freelist]
  exact freeChain_congr p.size (fun i hi => by rw [p.other i (fun hm => hd i hm hi)]) h1

theorem Took.wrote {h h1 h2 : Heap} {fl : List Nat} {k : Nat} (t : Took h h1 fl k) (hnd : fl.Nodup)
    (p : Wrote h1 h2 (fl.take k)) : Took h h2 fl k := by
  refine ⟨p.freeOK t.free (fun i hi hm => ?_), fun c hc => (p.other c hc).trans (t.same c hc),
    p.consts.trans t.consts, p.size.trans t.size⟩
  have := List.take_append_drop k fl
  rw [← this, List.nodup_append] at hnd
  exact hnd.2.2 i hi i hm rfl

theorem copyTo_spec : ∀ {is : List Nat} {vs xs : List Val} {h : Heap} {tgt src : Val} {js : List Nat},
    ListAt h tgt is vs → Chain h nil src js xs → is.length ≤ xs.length → is.Nodup → (∀ j ∈ js, j ∉ is) →
    ListAt (copyTo is.length h tgt src) tgt is (xs.take is.length) ∧
      Wrote h (copyTo is.length h tgt src) is := by
  intro is
  induction is with
  | nil =>
    intro vs xs h tgt src js hl hc hlen hnd hdis
    cases vs with
    | nil => exact ⟨hl, Wrote.refl _ _⟩
    | cons x xs => exact hl.elim
  | cons i is ih =>
    intro vs xs h tgt src js hl hc hlen hnd hdis
    cases vs with
    | nil => exact hl.elim
    | cons v vs =>
      obtain ⟨rfl, d, e, hd⟩ := hl
      cases xs with
      | nil => simp at hlen
      | cons x xs =>
        have key : ∀ (src' : Val) (ks : List Nat), isCons src = true → car h src = x →
            (∀ h', Wrote h h' [i] → cdr h' src = src') → Chain h nil src' ks xs → (∀ j ∈ ks, j ∉ i :: is) →
            ListAt (copyTo (is.length + 1) h (.ptr .cons false i) src) (.ptr .cons false i) (i :: is)
              ((x :: xs).take (is.length + 1)) ∧
            Wrote h (copyTo (is.length + 1) h (.ptr .cons false i) src) (i :: is) := by
          intro src' ks g1 g2 g3 g4 g5
          have p := setCar_poke (v := x) e
          have w : Wrote h (setCar h (.ptr .cons false i) x).1 [i] := .poke p (by simp)
          simp only [copyTo, g1, if_true, g2, g3 _ w, cdr_pair p.at_]
          have hnd' := List.nodup_cons.1 hnd
          obtain ⟨r1, r2⟩ := ih (xs := xs) (h := (setCar h (.ptr .cons false i) x).1) (tgt := d) (src := src') (js := ks)
            (listAt_congr (fun j hj => by rw [p.other j (by rintro rfl; exact hnd'.1 hj)]) hd)
            (chain_congr (fun j hj => by rw [p.other j (by rintro rfl; exact g5 j hj (by simp))]) p.consts g4)
            (by simpa using hlen) hnd'.2 (fun j hj hm => g5 j hj (by simp [hm]))
          refine ⟨⟨rfl, d, ?_, r1⟩, (w.mono (by simp)).trans (r2.mono (by simp; tauto))⟩
          rw [r2.other i hnd'.1, p.at_]
        cases hc with
        | @ram j _ d' ks _ e' hc =>
          refine key d' ks rfl (car_pair e') (fun h' w => cdr_pair (a := x) ?_) hc (fun k hk => hdis k (by simp [hk]))
          rw [w.other j]; exact e'
          have := hdis j (by simp)
          simp at this ⊢; tauto
        | @rom j _ d' ks _ e' hc =>
          refine key d' _ rfl (car_rom e') (fun h' w => cdr_rom (a := x) ?_) hc hdis
          rw [w.consts]; exact e'

theorem revLoop_spec : ∀ {is : List Nat} {xs : List Val} {h : Heap} {curr last : Val} {js : List Nat} {ys : List Val} (f : Nat),
    ListAt h curr is xs → ListAt h last js ys → is.Nodup → (∀ j ∈ js, j ∉ is) → xs.length < f →
    ∃ h' r, revLoop f h curr last = some (h', r) ∧ ListAt h' r (is.reverse ++ js) (xs.reverse ++ ys) ∧ Wrote h h' is := by
  intro is
  induction is with
  | nil =>
    intro xs h curr last js ys f hl hl2 hnd hdis hf
    obtain ⟨f, rfl⟩ := Nat.exists_eq_succ_of_ne_zero (by omega : f ≠ 0)
    cases xs with
    | nil =>
      have : curr = nil := hl
      subst this
      exact ⟨h, last, rfl, hl2, Wrote.refl _ _⟩
    | cons x xs => exact hl.elim
  | cons i is ih =>
    intro xs h curr last js ys f hl hl2 hnd hdis hf
    obtain ⟨f, rfl⟩ := Nat.exists_eq_succ_of_ne_zero (by omega : f ≠ 0)
    cases xs with
    | nil => exact hl.elim
    | cons x xs =>
      obtain ⟨rfl, d, e, hd⟩ := hl
      have hnd' := List.nodup_cons.1 hnd
      have p := setCdr_poke (v := last) e
      obtain ⟨h', r, g1, g2, g3⟩ := ih (xs := xs) (h := (setCdr h (.ptr .cons false i) last).1) (curr := d)
        (last := .ptr .cons false i) (js := i :: js) (ys := x :: ys) f
        (listAt_congr (fun j hj => by rw [p.other j (by rintro rfl; exact hnd'.1 hj)]) hd)
        ⟨rfl, last, p.at_, listAt_congr (fun j hj => by
          rw [p.other j (by rintro rfl; exact hdis j hj (by simp))]) hl2⟩
        hnd'.2 (fun j hj hm => by
          rcases List.mem_cons.1 hj with rfl | hj
          · exact hnd'.1 hm
          · exact hdis j hj (by simp [hm])) (by simpa using hf)
      refine ⟨h', r, ?_, by simpa using g2, (Wrote.poke p (by simp)).trans (g3.mono (by simp; tauto))⟩
      have : isConsRW (.ptr .cons false i) = true := rfl
      simp only [revLoop, this, if_true, cdr_pair e]
      exact g1

theorem destructiveReverse_spec {is : List Nat} {xs : List Val} {h : Heap} {l : Val} (f : Nat)
    (hl : ListAt h l is xs) (hnd : is.Nodup) (hf : xs.length < f) :
    ∃ h' r, destructiveReverse f h l = some (h', r) ∧ ListAt h' r is.reverse xs.reverse ∧ Wrote h h' is := by
  cases is with
  | nil =>
    cases xs with
    | nil =>
      have : l = nil := hl
      subst this
      exact ⟨h, nil, rfl, rfl, Wrote.refl _ _⟩
    | cons x xs => exact hl.elim
  | cons i is =>
    cases xs with
    | nil => exact hl.elim
    | cons x xs =>
      obtain ⟨rfl, _⟩ := id hl
      obtain ⟨h', r, g1, g2, g3⟩ := revLoop_spec (last := nil) (js := []) (ys := []) f hl rfl hnd (by simp) hf
      exact ⟨h', r, by simpa [destructiveReverse, isSymbol] using g1, by simpa using g2, g3⟩

theorem lastCell_spec {h : Heap} : ∀ {is : List Nat} {xs : List Val} {v e : Val} (f : Nat), ListAt h v is xs → xs.length < f →
    lastCell h f v e = some ((is.getLast?.map fun i => Val.ptr .cons false i).getD e) := by
  intro is
  induction is with
  | nil =>
    intro xs v e f hl hf
    obtain ⟨f, rfl⟩ := Nat.exists_eq_succ_of_ne_zero (by omega : f ≠ 0)
    cases xs with
    | nil =>
      have : v = nil := hl
      subst this
      rfl
    | cons x xs => exact hl.elim
  | cons i is ih =>
    intro xs v e f hl hf
    obtain ⟨f, rfl⟩ := Nat.exists_eq_succ_of_ne_zero (by omega : f ≠ 0)
    cases xs with
    | nil => exact hl.elim
    | cons x xs =>
      obtain ⟨rfl, d, e', hd⟩ := hl
      simp only [lastCell, isCons_ptr, if_true, cdr_pair e']
      rw [ih f hd (by simpa using hf)]
      cases is with
      | nil => simp
      | cons j is =>
        rw [List.getLast?_cons_cons, List.getLast?_eq_some_getLast (by simp : j :: is ≠ [])]; rfl

/-- Putting one more cell at the end of a list. -/
theorem listAt_snoc {h : Heap} {n i : Nat} {x : Val} : ∀ {is : List Nat} {xs : List Val} {v y : Val},
    ListAt h v (is ++ [n]) (xs ++ [y]) → (is ++ [n]).Nodup → i ∉ is ++ [n] →
    (h.cells i).content = .pair x nil →
    ListAt (setCdr h (.ptr .cons false n) (.ptr .cons false i)).1 v (is ++ [n] ++ [i]) (xs ++ [y] ++ [x]) ∧
    Wrote h (setCdr h (.ptr .cons false n) (.ptr .cons false i)).1 [n] := by
  intro is
  induction is with
  | nil =>
    intro xs v y hl hnd hi hc
    cases xs with
    | nil =>
      obtain ⟨rfl, d, e, hd⟩ := hl
      have p := setCdr_poke (v := .ptr .cons false i) e
      refine ⟨⟨rfl, _, p.at_, rfl, nil, ?_, rfl⟩, .poke p (by simp)⟩
      rw [p.other i (by simpa using hi)]; exact hc
    | cons x xs =>
      have := listAt_len hl
      simp at this
  | cons j is ih =>
    intro xs v y hl hnd hi hc
    cases xs with
    | nil =>
      have := listAt_len hl
      simp at this
    | cons x' xs =>
      obtain ⟨rfl, d, e, hd⟩ := hl
      have hnd' := List.nodup_cons.1 (show (j :: (is ++ [n])).Nodup from hnd)
      obtain ⟨g1, g2⟩ := ih hd hnd'.2 (fun hm => hi (by simp at hm ⊢; tauto)) hc
      refine ⟨⟨rfl, d, ?_, g1⟩, g2⟩
      rw [g2.other j]; exact e
      intro hm
      exact hnd'.1 (by simp at hm ⊢; tauto)

theorem rotLoop_spec : ∀ (d : Nat) {h : Heap} {is : List Nat} {xs : List Val} {v : Val} {n : Nat}, ListAt h v is xs →
    is.Nodup → is.getLast? = some n → 2 ≤ is.length →
    ListAt (rotLoop d h v (.ptr .cons false n)).1 (rotLoop d h v (.ptr .cons false n)).2 (is.rotate d) (xs.rotate d) ∧
    Wrote h (rotLoop d h v (.ptr .cons false n)).1 is := by
  intro d
  induction d with
  | zero =>
    intro h is xs v n hl _ _ _
    simpa [rotLoop] using ⟨hl, Wrote.refl _ _⟩
  | succ d ih =>
    intro h is xs v n hl hnd hlast hlen
    cases is with
    | nil => simp at hlen
    | cons i is =>
      cases xs with
      | nil => exact hl.elim
      | cons x xs =>
        obtain ⟨rfl, t, e, hd⟩ := hl
        have hnd' := List.nodup_cons.1 hnd
        have hne : is ≠ [] := by rintro rfl; simp at hlen
        have hxne : xs ≠ [] := by
          rintro rfl
          have := listAt_len hd
          simp at this; exact hne this
        have hl' : is.getLast hne = n := by
          rw [List.getLast?_eq_some_getLast (by simp), List.getLast_cons hne] at hlast
          simpa using hlast
        obtain ⟨is, rfl⟩ : ∃ js, is = js ++ [n] := ⟨is.dropLast, by rw [← hl']; exact (List.dropLast_append_getLast hne).symm⟩
        obtain ⟨xs, y, rfl⟩ : ∃ zs y, xs = zs ++ [y] := ⟨xs.dropLast, xs.getLast hxne, (List.dropLast_append_getLast hxne).symm⟩
        have p := setCdr_poke (v := nil) e
        have w1 : Wrote h (setCdr h (.ptr .cons false i) nil).1 (i :: (is ++ [n])) := .poke p (by simp)
        obtain ⟨g1, g2⟩ := listAt_snoc (h := (setCdr h (.ptr .cons false i) nil).1) (i := i) (x := x)
          (listAt_congr (fun j hj => by rw [p.other j (by rintro rfl; exact hnd'.1 hj)]) hd) hnd'.2 hnd'.1 p.at_
        obtain ⟨r1, r2⟩ := ih (n := i) g1 (by
          rw [List.nodup_append]
          refine ⟨hnd'.2, by simp, ?_⟩
          intro a ha b hb
          simp only [List.mem_singleton] at hb
          subst hb
          rintro rfl
          exact hnd'.1 ha) (by simp) (by simp)
        refine ⟨?_, ?_⟩
        · simpa only [rotLoop, cdr_pair e, List.rotate_cons_succ] using r1
        · simp only [rotLoop, cdr_pair e]
          exact w1.trans ((g2.mono (by simp)).trans (r2.mono (by simp; tauto)))

end Verif.Lists
