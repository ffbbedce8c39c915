import Verif.LoopExt.Spec

/-!
# Lemmas about the expansion
-/

namespace Verif.LoopExt

open Verif.Eval

/-- The cells up to `n` are the same. -/
def Grow (s s' : St) (k : Nat) : Prop :=
  s'.next = s.next + k ∧ s'.globals = s.globals ∧ s'.atomic = s.atomic ∧ s'.konts = s.konts ∧ s'.nk = s.nk ∧
    ∀ a, a < s.next → s'.car a = s.car a ∧ s'.cdr a = s.cdr a

theorem Grow.refl (s : St) : Grow s s 0 := ⟨rfl, rfl, rfl, rfl, rfl, fun _ _ => ⟨rfl, rfl⟩⟩

theorem Grow.trans {s s1 s2 : St} {j k : Nat} (h : Grow s s1 j) (h' : Grow s1 s2 k) : Grow s s2 (j + k) := by
  obtain ⟨a1, a2, a3, a4, a5, a6⟩ := h
  obtain ⟨b1, b2, b3, b4, b5, b6⟩ := h'
  refine ⟨by omega, b2.trans a2, b3.trans a3, b4.trans a4, b5.trans a5, fun a ha => ?_⟩
  obtain ⟨c1, c2⟩ := a6 a ha
  obtain ⟨d1, d2⟩ := b6 a (by omega)
  exact ⟨d1.trans c1, d2.trans c2⟩

theorem Grow.cons (s : St) (x y : V) : Grow s (s.cons x y).1 1 := by
  refine ⟨rfl, rfl, rfl, rfl, rfl, fun a ha => ?_⟩
  simp [St.cons, Nat.ne_of_lt ha]

mutual
theorem IsTm.mono {D D' : Nat → Prop} {s s' : St} (hs : ∀ a, D a → D' a ∧ s'.car a = s.car a ∧ s'.cdr a = s.cdr a) : ∀ (t : Tm) (x : V), IsTm D s x t → IsTm D' s' x t
  | .v y, x, h => by simpa [IsTm] using h
  | .l ts, x, h => by
    simp only [IsTm] at h ⊢
    exact IsTms.mono hs ts x h
theorem IsTms.mono {D D' : Nat → Prop} {s s' : St} (hs : ∀ a, D a → D' a ∧ s'.car a = s.car a ∧ s'.cdr a = s.cdr a) : ∀ (ts : List Tm) (x : V), IsTms D s x ts → IsTms D' s' x ts
  | [], x, h => by simpa [IsTms] using h
  | t :: ts, x, h => by
    simp only [IsTms] at h ⊢
    obtain ⟨a, h1, h2, h3, h4⟩ := h
    obtain ⟨d, e1, e2⟩ := hs a h2
    exact ⟨a, h1, d, e1 ▸ IsTm.mono hs t _ h3, e2 ▸ IsTms.mono hs ts _ h4⟩
end

/-- All of `vs` are the code `ts`. -/
def AllTm (D : Nat → Prop) (s : St) : List V → List Tm → Prop
  | [], [] => True
  | x :: xs, t :: ts => IsTm D s x t ∧ AllTm D s xs ts
  | _, _ => False

theorem AllTm.length {D : Nat → Prop} {s : St} : ∀ {xs : List V} {ts : List Tm}, AllTm D s xs ts → xs.length = ts.length
  | [], [], _ => rfl
  | _ :: _, _ :: _, h => congrArg (· + 1) (AllTm.length h.2)
  | [], _ :: _, h => h.elim
  | _ :: _, [], h => h.elim

theorem AllTm.mono {D D' : Nat → Prop} {s s' : St} (hs : ∀ a, D a → D' a ∧ s'.car a = s.car a ∧ s'.cdr a = s.cdr a) :
    ∀ (xs : List V) (ts : List Tm), AllTm D s xs ts → AllTm D' s' xs ts
  | [], [], _ => trivial
  | x :: xs, t :: ts, h => ⟨IsTm.mono hs t x h.1, AllTm.mono hs xs ts h.2⟩
  | [], _ :: _, h => h.elim
  | _ :: _, [], h => h.elim

/-- The cells from `n` to the end. -/
def New (n : Nat) (s : St) : Nat → Prop := fun a => n ≤ a ∧ a < s.next

theorem New.up {n j : Nat} {s s' : St} (h : Grow s s' j) : ∀ a, New n s a → New n s' a ∧ s'.car a = s.car a ∧ s'.cdr a = s.cdr a :=
  fun a ha => ⟨⟨ha.1, by have := h.1; have := ha.2; omega⟩, h.2.2.2.2.2 a ha.2⟩

theorem cellList_spec {n : Nat} {s : St} (hn : n ≤ s.next) : ∀ (xs : List V) (ts : List Tm), AllTm (New n s) s xs ts →
    Grow s (cellList s xs).1 xs.length ∧ IsTms (New n (cellList s xs).1) (cellList s xs).1 (cellList s xs).2 ts
  | [], [], _ => ⟨Grow.refl s, by simp [cellList, IsTms]⟩
  | x :: xs, t :: ts, h => by
    obtain ⟨g, i⟩ := cellList_spec hn xs ts h.2
    have g1 := Grow.cons (cellList s xs).1 x (cellList s xs).2
    refine ⟨g.trans g1, ?_⟩
    simp only [IsTms, cellList]
    refine ⟨(cellList s xs).1.next, rfl, ⟨?_, ?_⟩, ?_, ?_⟩
    · have := g.1; omega
    · simp [St.cons]
    · simp only [St.cons, if_true]
      exact IsTm.mono (New.up (g.trans g1)) t x h.1
    · simp only [St.cons, if_true]
      exact IsTms.mono (New.up g1) ts _ i
  | [], _ :: _, h => h.elim
  | _ :: _, [], h => h.elim

mutual
theorem build_spec (rtl : Bool) : ∀ (t : Tm) (h : Hp), size t ≤ h.free →
    Grow h.st (build rtl t h).1.st (size t) ∧ (build rtl t h).1.free = h.free - size t ∧ IsTm (New h.st.next (build rtl t h).1.st) (build rtl t h).1.st (build rtl t h).2 t
  | .v x, h, _ => by simp [build, size, IsTm, Grow.refl]
  | .l ts, h, hf => by
    simp only [size] at hf
    obtain ⟨g, f, a⟩ := buildArgs_spec rtl ts h (by omega)
    have hl := a.length
    have hle := g.1
    simp only [build, size, IsTm]
    unfold makeList
    have hlen : ts.length ≤ sizes ts := by
      clear hf g f a hl hle
      induction ts with
      | nil => simp
      | cons t ts ih => simp only [List.length_cons, sizes]; omega
    split
    · rename_i h0
      rw [h0] at hl
      have : ts = [] := List.eq_nil_of_length_eq_zero hl.symm
      subst this
      simp [sizes, buildArgs, IsTms, Grow.refl]
    · rw [if_neg (by rw [f, hl]; omega)]
      obtain ⟨g1, i⟩ := cellList_spec (n := h.st.next) (by omega) _ _ a
      refine ⟨?_, ?_, i⟩
      · have := g.trans g1
        rwa [hl, show sizes ts - ts.length + ts.length = sizes ts by omega] at this
      · simp only [f, hl]; omega
theorem buildArgs_spec (rtl : Bool) : ∀ (ts : List Tm) (h : Hp), sizes ts ≤ h.free →
    Grow h.st (buildArgs rtl ts h).1.st (sizes ts - ts.length) ∧ (buildArgs rtl ts h).1.free = h.free - (sizes ts - ts.length) ∧
      AllTm (New h.st.next (buildArgs rtl ts h).1.st) (buildArgs rtl ts h).1.st (buildArgs rtl ts h).2 ts
  | [], h, _ => by simp [buildArgs, sizes, AllTm, Grow.refl]
  | t :: ts, h, hf => by
    simp only [sizes] at hf
    have hlen : ts.length ≤ sizes ts := by
      clear hf
      induction ts with
      | nil => simp
      | cons t ts ih => simp only [List.length_cons, sizes]; omega
    cases rtl with
    | true =>
      obtain ⟨g, f, a⟩ := buildArgs_spec true ts h (by omega)
      obtain ⟨g1, f1, a1⟩ := build_spec true t (buildArgs true ts h).1 (by omega)
      simp only [buildArgs, if_true, sizes, AllTm, List.length_cons]
      refine ⟨?_, by omega, ?_, AllTm.mono (New.up g1) _ _ a⟩
      · have := g.trans g1
        rwa [show sizes ts - ts.length + size t = size t + sizes ts + 1 - (ts.length + 1) by omega] at this
      · refine IsTm.mono (fun b hb => ⟨⟨?_, hb.2⟩, rfl, rfl⟩) _ _ a1
        have := g.1
        have := hb.1
        omega
    | false =>
      obtain ⟨g1, f1, a1⟩ := build_spec false t h (by omega)
      obtain ⟨g, f, a⟩ := buildArgs_spec false ts (build false t h).1 (by omega)
      simp only [buildArgs, sizes, AllTm, List.length_cons, Bool.false_eq_true, if_false]
      refine ⟨?_, by omega, IsTm.mono (New.up g) _ _ a1, ?_⟩
      · have := g1.trans g
        rwa [show size t + (sizes ts - ts.length) = size t + sizes ts + 1 - (ts.length + 1) by omega] at this
      · refine AllTm.mono (fun b hb => ⟨⟨?_, hb.2⟩, rfl, rfl⟩) _ _ a
        have := g1.1
        have := hb.1
        omega
end

mutual
/-- How many cells are left when the code has been built as far as possible. -/
def left (rtl : Bool) : Tm → Nat → Nat
  | .v _, f => f
  | .l ts, f => if lefts rtl ts f < ts.length then lefts rtl ts f else lefts rtl ts f - ts.length
/-- The same for a list. -/
def lefts (rtl : Bool) : List Tm → Nat → Nat
  | [], f => f
  | t :: ts, f => if rtl then left rtl t (lefts rtl ts f) else lefts rtl ts (left rtl t f)
end

theorem buildArgs_length (rtl : Bool) : ∀ (ts : List Tm) (h : Hp), (buildArgs rtl ts h).2.length = ts.length
  | [], _ => rfl
  | t :: ts, h => by
    cases rtl
    · simp only [buildArgs, Bool.false_eq_true, if_false, List.length_cons, buildArgs_length false ts]
    · simp only [buildArgs, if_true, List.length_cons, buildArgs_length true ts]

mutual
theorem build_left (rtl : Bool) : ∀ (t : Tm) (h : Hp), (build rtl t h).1.free = left rtl t h.free
  | .v _, _ => rfl
  | .l ts, h => by
    have := buildArgs_left rtl ts h
    have hl := buildArgs_length rtl ts h
    simp only [build, left, makeList, ← this, ← hl]
    split
    · rename_i h0
      simp [h0]
    · split <;> rfl
theorem buildArgs_left (rtl : Bool) : ∀ (ts : List Tm) (h : Hp), (buildArgs rtl ts h).1.free = lefts rtl ts h.free
  | [], _ => rfl
  | t :: ts, h => by
    cases rtl
    · simp only [buildArgs, lefts, Bool.false_eq_true, if_false]
      rw [buildArgs_left false ts, build_left false t]
    · simp only [buildArgs, lefts, if_true]
      rw [build_left true t, buildArgs_left true ts]
end

theorem build_fail (rtl : Bool) (ts : List Tm) (h : Hp) (hl : lefts rtl ts h.free < ts.length) : (build rtl (.l ts) h).2 = merror := by
  have h1 := buildArgs_left rtl ts h
  have h2 := buildArgs_length rtl ts h
  simp only [build, makeList]
  have : (buildArgs rtl ts h).2 ≠ [] := by
    intro h0
    rw [h0] at h2
    simp only [List.length_nil] at h2
    omega
  rw [if_neg this, if_pos (by omega)]

mutual
/-- The code with all values replaced by nil. -/
def blank : Tm → Tm
  | .v _ => .v .nil
  | .l ts => .l (blanks ts)
/-- The same for a list. -/
def blanks : List Tm → List Tm
  | [] => []
  | t :: ts => blank t :: blanks ts
end

theorem blanks_length : ∀ ts : List Tm, (blanks ts).length = ts.length
  | [] => rfl
  | _ :: ts => by simp [blanks, blanks_length ts]

mutual
theorem left_blank (rtl : Bool) : ∀ (t : Tm) (f : Nat), left rtl (blank t) f = left rtl t f
  | .v _, _ => rfl
  | .l ts, f => by simp only [blank, left, lefts_blank rtl ts f, blanks_length]
theorem lefts_blank (rtl : Bool) : ∀ (ts : List Tm) (f : Nat), lefts rtl (blanks ts) f = lefts rtl ts f
  | [], _ => rfl
  | t :: ts, f => by
    simp only [blanks, lefts]
    rw [lefts_blank rtl ts, left_blank rtl t, left_blank rtl t, lefts_blank rtl ts]
end

/-- With `f` free cells there are not enough cells for the outermost list. -/
def short (rtl : Bool) (t : Tm) (f : Nat) : Bool :=
  match t with
  | .v _ => false
  | .l ts => decide (lefts rtl ts f < ts.length)

/-- Too few cells for one of the lists are too few for the list that contains all others. -/
theorem build_short (rtl : Bool) (t t0 : Tm) (n : Nat) (he : blank t = blank t0) (hb : ∀ f, f < n → short rtl (blank t0) f = true)
    (h : Hp) (hf : h.free < n) : (build rtl t h).2 = merror := by
  have := hb h.free hf
  rw [← he] at this
  cases t with
  | v x => simp [blank, short] at this
  | l ts =>
    simp only [blank, short, lefts_blank, blanks_length, decide_eq_true_eq] at this
    exact build_fail rtl ts h this

end Verif.LoopExt
