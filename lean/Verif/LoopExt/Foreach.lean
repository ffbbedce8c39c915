import Verif.LoopExt.Props

/-!
# `loopforeach`
-/

namespace Verif.LoopExt

open Verif.Eval

/-- `eq`, `car` and `cdr` do what they should, `src/fundamental.c:537-540,652-667`. Error symbols as elements are errors (`call_fundamental`, `src/eval_cps.c:667-687`). -/
structure ListPrims (P : Prims) : Prop where
  eq_nil : ∀ s env v, P.run 0x20005 [v, .nil] env s = .ok s (if v = .nil then .tru else .nil)
  car : ∀ s env v x, s.gcar v = some x → (∀ n, x = .sym n → n < 0x20 ∨ 0x2F < n) → P.run 0x20012 [v] env s = .ok s x
  cdr : ∀ s env v x, s.gcdr v = some x → (∀ n, x = .sym n → n < 0x20 ∨ 0x2F < n) → P.run 0x20013 [v] env s = .ok s x

/-- Not one of the symbols for errors. -/
def Plain (x : V) : Prop := ∀ n, x = .sym n → n < 0x20 ∨ 0x2F < n

/-- A place in a loop over a list: the environment, the value so far, the element and the elements after it. -/
structure Place where
  st : St
  env : V
  value : V
  elem : V
  rest : V

/-- The names of the loop in this place: the variable `it` is the element. -/
def Place.Sees (I : Ids) (clo brk : V) (it : Nat) (p : Place) : Prop :=
  Named I clo p.value brk p.st p.env ∧ p.st.lookup (.sym it) (p.st.next + 1) p.env = some (some p.elem) ∧
    p.st.lookup (.sym I.rst) (p.st.next + 1) p.env = some (some p.rest)

/-- One iteration of `(loopforeach it lst body)`. The element is not nil. The next element and the elements after it are taken before the body is evaluated. The other conditions are as in `ForOnce`. -/
inductive EachOnce (P : Prims) (I : Ids) (D : Nat → Prop) (base clo brk : V) (it : Nat) (body : V) : Place → Place → Prop
  | mk {p : Place} {s2 s3 s4 s5 s6 e1 e2 e3 env' w1 i' rest'} : p.Sees I clo brk it → p.elem ≠ .nil →
      p.st.gcar p.rest = some i' → Plain i' → allocBinding p.st (.sym it) i' base = (s2, e1) →
      s2.lookup (.sym I.rst) (s2.next + 1) p.env = some (some p.rest) → s2.gcdr p.rest = some rest' → Plain rest' → allocBinding s2 (.sym I.rst) rest' e1 = (s3, e2) →
      Ev P false s3 none (.exp p.env body) s4 none (.ok w1) → w1 ≠ .placeholder → Same (With (With D p.st) s2) s3 s4 →
      allocBinding s4 (.sym I.res) w1 e2 = (s5, e3) → Named I clo p.value brk s5 p.env → allocBinding s5 (.sym I.brk) brk e3 = (s6, env') →
      EachOnce P I D base clo brk it body p ⟨s6, env', w1, i', rest'⟩

/-- Some iterations, with the elements that the body has seen. -/
inductive Each (P : Prims) (I : Ids) (D : Nat → Prop) (base clo brk : V) (it : Nat) (body : V) : Place → List V → Place → Prop
  | none {p} : Each P I D base clo brk it body p [] p
  | more {p q r l} : EachOnce P I D base clo brk it body p q → Each P I D base clo brk it body q l r → Each P I D base clo brk it body p (p.elem :: l) r

theorem tms_name {D : Nat → Prop} {s : St} {x : V} {t : Tm} {ts : List Tm} (h : IsTms D s x (t :: ts)) : ∃ y, IsTm D s y t ∧ IsTms D s x (.v y :: ts) := by
  simp only [IsTms] at h
  obtain ⟨a, h1, h2, h3, h4⟩ := h
  exact ⟨s.car a, h3, by simp only [IsTms, IsTm]; exact ⟨a, h1, h2, rfl, h4⟩⟩

section
variable {P : Prims} {D : Nat → Prop}

theorem prim1 {s s1 s2 : St} {e env a v w : V} {f : Nat} (hf : f / 0x10000 = 2) (he : IsTm D s e (.l [sy f, .v a])) (ha : Ev P false s none (.exp env a) s1 none (.ok v))
    (hp : P.run f [v] env s1 = .ok s2 w) : Ev P false s none (.exp env e) s2 none (.ok w) := by
  simp only [IsTm, IsTms] at he
  obtain ⟨b, rfl, _, h1, c, hc, _, h2, h3⟩ := he
  have hs : special (s.car b) = none := by rw [h1]; simp only [special]; rw [if_neg (by omega)]
  refine .app hs (.sub_ok (v := .sym f) (s1 := s) ?_ (.start_sym ?_))
  · rw [h1]
    exact .name (by have : runtimeStart = 0x40000 := rfl; omega)
  · rw [hc]
    refine .args_more (.sub_ok (v := v) (s1 := s1) (h2 ▸ ha) ?_)
    rw [h3]
    exact .prim_ok rfl rfl (.inr hf) hp

theorem prim2 {s s2 : St} {e env a b v1 v2 w : V} {f : Nat} (hf : f / 0x10000 = 2) (he : IsTm D s e (.l [sy f, .v a, .v b]))
    (ha : Ev P false s none (.exp env a) s none (.ok v1)) (hb : Ev P false s none (.exp env b) s none (.ok v2))
    (hp : P.run f [v1, v2] env s = .ok s2 w) : Ev P false s none (.exp env e) s2 none (.ok w) := by
  simp only [IsTm, IsTms] at he
  obtain ⟨x, rfl, _, h1, c, hc, _, h2, d, hd, _, h3, h4⟩ := he
  have hs : special (s.car x) = none := by rw [h1]; simp only [special]; rw [if_neg (by omega)]
  refine .app hs (.sub_ok (v := .sym f) (s1 := s) ?_ (.start_sym ?_))
  · rw [h1]
    exact .name (by have : runtimeStart = 0x40000 := rfl; omega)
  · rw [hc]
    refine .args_more (.sub_ok (v := v1) (s1 := s) (h2 ▸ ha) ?_)
    rw [hd]
    refine .args_more (.sub_ok (v := v2) (s1 := s) (h3 ▸ hb) ?_)
    rw [h4]
    exact .prim_ok rfl rfl (.inr hf) hp

end

/-- The code of an iteration, whose parts are `c`, `ca` and `cd`. -/
def EachTest (I : Ids) (D : Nat → Prop) (s : St) (it : Nat) (body c ca cd test : V) : Prop :=
  IsTm D s c (.l [sy 0x20005, sy it, .v .nil]) ∧ IsTm D s ca (.l [sy 0x20012, sy I.rst]) ∧ IsTm D s cd (.l [sy 0x20013, sy I.rst]) ∧
    IsTm D s test (.l [sy 0x104, .v c, sy I.res, .l [sy I.loop, .v ca, .v cd, .v body, sy I.brk]])

theorem Same.refl {D : Nat → Prop} (s : St) : Same D s s := ⟨Nat.le_refl _, fun _ _ => ⟨rfl, rfl⟩⟩

theorem with_lt {D : Nat → Prop} {s s' : St} (hD : ∀ a, D a → a < s.next) (h : s'.next = s.next + 2) : ∀ a, With D s a → a < s'.next := fun a hw => by
  rcases hw with hw | hw | hw
  · have := hD a hw; omega
  · omega
  · omega

section
variable {P : Prims} {I : Ids} {D : Nat → Prop} (K : List W) (fl : Nat) (prog : V) (ht : flagTrap fl = false) (hc : flagConst fl = false)
include ht hc

/-- Some iterations of `loopforeach`. -/
theorem each_steps (hI : I.Ok) (hP : ListPrims P) {base clo brk body test c ca cd : V} {it : Nat} (hit : runtimeStart ≤ it) {p q : Place} {l : List V}
    (h : Each P I D base clo brk it body p l q) (hD : ∀ a, D a → a < p.st.next)
    (hL : LoopAt D p.st clo [.sym it, .sym I.rst, .sym I.res, .sym I.brk] test base (.l [sy 0x104, .v c, sy I.res, .l [sy I.loop, .v ca, .v cd, .v body, sy I.brk]]))
    (hT : EachTest I D p.st it body c ca cd test) (r : V) :
    (∃ n r', steps none P n (.next ⟨K, r, test, p.env, false, fl, prog, p.st⟩) = .next ⟨K, r', test, q.env, false, fl, prog, q.st⟩) ∧ Same D p.st q.st := by
  induction h generalizing r with
  | none => exact ⟨⟨0, r, rfl⟩, .refl _⟩
  | @more p q' r' l h0 _ ih =>
    cases h0 with
    | @mk s2 s3 s4 s5 s6 e1 e2 e3 env' w1 i' rest' h1 h2 h3 h4 h5 h6 h7 h8 h9 h10 h11 h12 h13 h14 h15 =>
    obtain ⟨t1, t2, t3, t4⟩ := id hT
    obtain ⟨g1, g2, g3⟩ := h1
    have hcond : Ev P false p.st none (.exp p.env c) p.st none (.ok .nil) := by
      have := prim2 (P := P) (by decide) t1 (.loc hit g2) (.name (by decide)) (hP.eq_nil _ _ _)
      rwa [if_neg h2] at this
    obtain ⟨n, r1, y, hn, hy⟩ := if_steps K fl prog ht hc t4 hcond (.refl _) r
    simp only [if_true] at hy
    obtain ⟨_, n2, q2, _⟩ := alloc_same hD h5
    have hD2 := with_lt hD n2
    obtain ⟨_, n3, q3, _⟩ := alloc_same hD2 h9
    have hD3 := with_lt hD2 n3
    have hD4 : ∀ a, With (With D p.st) s2 a → a < s4.next := fun a h => Nat.lt_of_lt_of_le (hD3 a h) h12.1
    obtain ⟨_, n5, q5, _⟩ := alloc_same hD4 h13
    have hD5 := with_lt hD4 n5
    obtain ⟨_, n6, q6, _⟩ := alloc_same hD5 h15
    have q06 : Same D p.st s6 := (((q2.trans (q3.weak fun _ h => .inl h)).trans (h12.weak fun _ h => .inl (.inl h))).trans (q5.weak fun _ h => .inl (.inl h))).trans
      (q6.weak fun _ h => .inl (.inl (.inl h)))
    have hca : Ev P false p.st none (.exp p.env ca) p.st none (.ok i') := prim1 (by decide) t2 (.loc hI.2.2.2.2.1 g3) (hP.car _ _ _ _ h3 h4)
    have hcd : Ev P false s2 none (.exp p.env cd) s2 none (.ok rest') := prim1 (by decide) (q2.tm t3) (.loc hI.2.2.2.2.1 h6) (hP.cdr _ _ _ _ h7 h8)
    have hb : Binds P p.env D p.st base [(.sym it, ca), (.sym I.rst, cd), (.sym I.res, body), (.sym I.brk, .sym I.brk)] s6 env' :=
      .cons hca (.refl _) h5 (.cons hcd (.refl _) h9 (.cons h10 h12 h13 (.cons (.loc hI.2.2.1 h14.2.2) (.refl _) h15 .nil)))
    obtain ⟨n7, r7, hn7⟩ := loop_call (s := p.st) K fl prog ht hc hD hI.2.1 hy g1.1 hL (fun vs hv => by
      match vs, hv with
      | [a, b, d, e], hv => simp only [AllTm, IsTm] at hv; simp [hv.1, hv.2.1, hv.2.2.1, hv.2.2.2.1]) hb r1
    obtain ⟨⟨n8, r8, hn8⟩, hs8⟩ := ih (fun a h => Nat.lt_of_lt_of_le (hD a h) q06.1) (q06.loopAt hL) ⟨q06.tm t1, q06.tm t2, q06.tm t3, q06.tm t4⟩ r7
    exact ⟨⟨n + (n7 + n8), r8, by rw [steps_add, hn, steps_add, hn7, hn8]⟩, q06.trans hs8⟩

/-- The end of `loopforeach`. -/
theorem each_end (hI : I.Ok) (hP : ListPrims P) {clo brk body test c ca cd : V} {it : Nat} (hit : runtimeStart ≤ it) {p : Place} (hs : p.Sees I clo brk it) (h0 : p.elem = .nil)
    (hT : EachTest I D p.st it body c ca cd test) (r : V) :
    ∃ n x en, steps none P n (.next ⟨K, r, test, p.env, false, fl, prog, p.st⟩) = .next ⟨K, p.value, x, en, true, fl, prog, p.st⟩ := by
  obtain ⟨t1, t2, t3, t4⟩ := hT
  obtain ⟨g1, g2, g3⟩ := hs
  have hcond : Ev P false p.st none (.exp p.env c) p.st none (.ok .tru) := by
    have := prim2 (P := P) (by decide) t1 (.loc hit g2) (.name (by decide)) (hP.eq_nil _ _ _)
    rwa [if_pos h0] at this
  obtain ⟨n, r', y, hn, hy⟩ := if_steps K fl prog ht hc t4 hcond (.refl _) r
  rw [if_neg (by decide)] at hy
  simp only [IsTm] at hy
  subst hy
  refine ⟨n + 1, .sym I.res, p.env, ?_⟩
  rw [steps_add, hn]
  simp [steps, step, evalSymbol, hI.1, g1.2.1, M.ret]

end

/-- What the body of the next iteration sees: the variable `it` is the next element. The variable must not be one of the names that the macro uses. -/
theorem C101_foreach_scope_partial {I : Ids} {D : Nat → Prop} {s s2 s3 s4 s5 s6 : St} {base clo brk i rest w env e1 e2 e3 env' : V} {it : Nat} (hI : I.Ok)
    (hit : it ≠ I.loop ∧ it ≠ I.res ∧ it ≠ I.brk ∧ it ≠ I.rst) (hD : ∀ a, D a → a < s.next) (hb : Bound D s base (.sym I.loop) clo env)
    (hc : clo.isCons = true) (hk : brk.isCons = true) (hw : w ≠ .placeholder) (hi : i ≠ .placeholder) (hr : rest ≠ .placeholder)
    (h1 : allocBinding s (.sym it) i base = (s2, e1)) (h2 : allocBinding s2 (.sym I.rst) rest e1 = (s3, e2)) (h3 : Same (With (With D s) s2) s3 s4)
    (h4 : allocBinding s4 (.sym I.res) w e2 = (s5, e3)) (h5 : allocBinding s5 (.sym I.brk) brk e3 = (s6, env')) :
    Place.Sees I clo brk it ⟨s6, env', w, i, rest⟩ := by
  obtain ⟨a1, n2, q2, a2, a3, a4, a5⟩ := alloc_same hD h1
  have hD2 := with_lt hD n2
  obtain ⟨b1, n3, q3, b2, b3, b4, b5⟩ := alloc_same hD2 h2
  have hD3 := with_lt hD2 n3
  have hD4 : ∀ a, With (With D s) s2 a → a < s4.next := fun a h => Nat.lt_of_lt_of_le (hD3 a h) h3.1
  obtain ⟨c1, n5, q5, c2, c3, c4, c5⟩ := alloc_same hD4 h4
  have hD5 := with_lt hD4 n5
  obtain ⟨d1, n6, q6, d2, d3, d4, d5⟩ := alloc_same hD5 h5
  have q36 : Same (With (With D s) s2) s3 s6 := (h3.trans q5).trans (q6.weak fun _ h => .inl h)
  have q26 : Same (With D s) s2 s6 := q3.trans (q36.weak fun _ h => .inl h)
  have B0 : Bound D s6 base (.sym I.loop) clo env := (q2.trans (q26.weak fun _ h => .inl h)).bound hb
  have B1 : Bound (With D s) s6 e1 (.sym it) i base := q26.bound ⟨s.next + 1, s.next, a1, .inr (.inr rfl), .inr (.inl rfl), a2, a3, a4, a5⟩
  have B2 : Bound (With (With D s) s2) s6 e2 (.sym I.rst) rest e1 := q36.bound ⟨s2.next + 1, s2.next, b1, .inr (.inr rfl), .inr (.inl rfl), b2, b3, b4, b5⟩
  have B3 : Bound (With (With (With D s) s2) s4) s6 e3 (.sym I.res) w e2 := q6.bound ⟨s4.next + 1, s4.next, c1, .inr (.inr rfl), .inr (.inl rfl), c2, c3, c4, c5⟩
  have B4 : Bound (Old s6) s6 env' (.sym I.brk) brk e3 := ⟨s5.next + 1, s5.next, d1, by show _ < s6.next; omega, by show _ < s6.next; omega, d2, d3, d4, d5⟩
  have hcp : clo ≠ .placeholder := by intro h; rw [h] at hc; cases hc
  have hkp : brk ≠ .placeholder := by intro h; rw [h] at hk; cases hk
  obtain ⟨_, _, _, _, _, i1, i2, i3, i4, i5, i6, i7, i8, i9, i10⟩ := hI
  have hs : ∀ {x y : Nat}, x ≠ y → (V.sym x) ≠ .sym y := fun h e => h (V.sym.inj e)
  obtain ⟨m, hm⟩ : ∃ m, s6.next = m + 4 := ⟨s6.next - 4, by omega⟩
  unfold Place.Sees Named
  simp only
  rw [hm]
  refine ⟨⟨?_, ?_, ?_⟩, ?_, ?_⟩
  · rw [B4.there (hs i5.symm), B3.there (hs i1), B2.there (hs i7.symm), B1.there (hs hit.1), B0.here hcp]
  · rw [B4.there (hs i2.symm), B3.here hw]
  · rw [B4.here hkp]
  · rw [B4.there (hs hit.2.2.1.symm), B3.there (hs hit.2.1.symm), B2.there (hs hit.2.2.2.symm), B1.here hi]
  · rw [B4.there (hs i9), B3.there (hs i4), B2.here hr]

/-- Iterations that keep more cells keep fewer. -/
theorem Each.weak {P : Prims} {I : Ids} {D D' : Nat → Prop} {base clo brk body : V} {it : Nat} {p q : Place} {l : List V} (hd : ∀ a, D' a → D a)
    (h : Each P I D base clo brk it body p l q) : Each P I D' base clo brk it body p l q := by
  induction h with
  | none => exact .none
  | more h0 _ ih =>
    refine .more ?_ ih
    cases h0 with
    | mk h1 h2 h3 h4 h5 h6 h7 h8 h9 h10 h11 h12 h13 h14 h15 =>
      exact .mk h1 h2 h3 h4 h5 h6 h7 h8 h9 h10 h11 (h12.weak fun a h => h.imp (fun h => h.imp (hd a) id) id) h13 h14 h15

/-- The body sees the elements of the list in order: when the element is nil, and no element of the list is, it has seen all of them. The cells of the list are in `D`, that is, the body does not write to them. -/
theorem C101_foreach_elements {P : Prims} {I : Ids} {D : Nat → Prop} {base clo brk body : V} {it : Nat} {p q : Place} {l vs : List V} (hD : ∀ a, D a → a < p.st.next)
    (h : Each P I D base clo brk it body p l q) (hl : Ls D p.st p.rest vs) (hv : ∀ v ∈ vs, v ≠ .nil) (h0 : p.elem ≠ .nil) :
    q.elem = .nil → l = p.elem :: vs := by
  suffices H : ∀ vs, (∀ v ∈ vs, v ≠ .nil) → (p.elem = .nil → vs = []) → Ls D p.st p.rest vs → q.elem = .nil → l = if p.elem = .nil then [] else p.elem :: vs by
    intro hq
    rw [H vs hv (fun h => absurd h h0) hl hq, if_neg h0]
  clear hl hv h0 vs
  induction h with
  | none =>
    intro vs _ _ _ hq
    rw [if_pos hq]
  | @more p q' r l h1 _ ih =>
    intro vs hv _ hl hq
    cases h1 with
    | @mk s2 s3 s4 s5 s6 e1 e2 e3 env' w1 i' rest' h1 h2 h3 h4 h5 h6 h7 h8 h9 h10 h11 h12 h13 h14 h15 =>
    obtain ⟨_, n2, q2, _⟩ := alloc_same hD h5
    have hD2 := with_lt hD n2
    obtain ⟨_, n3, q3, _⟩ := alloc_same hD2 h9
    have hD3 := with_lt hD2 n3
    have hD4 : ∀ a, With (With D p.st) s2 a → a < s4.next := fun a h => Nat.lt_of_lt_of_le (hD3 a h) h12.1
    obtain ⟨_, n5, q5, _⟩ := alloc_same hD4 h13
    have hD5 := with_lt hD4 n5
    obtain ⟨_, n6, q6, _⟩ := alloc_same hD5 h15
    have q26 : Same D s2 s6 := (((q3.weak fun _ h => .inl h).trans (h12.weak fun _ h => .inl (.inl h))).trans (q5.weak fun _ h => .inl (.inl h))).trans
      (q6.weak fun _ h => .inl (.inl (.inl h)))
    rw [if_neg h2]
    congr 1
    have q06 := q2.trans q26
    match vs, hl with
    | [], hl =>
      simp only [Ls] at hl
      rw [hl] at h3 h7
      simp only [St.gcar, St.gcdr, Option.some.injEq] at h3 h7
      have := ih (fun a h => Nat.lt_of_lt_of_le (hD a h) q06.1) [] (fun _ h => absurd h List.not_mem_nil) (fun _ => rfl) (by simp only [Ls]; exact h7.symm) hq
      rwa [if_pos h3.symm] at this
    | v :: vs, hl =>
      obtain ⟨a, ha, da, hc, hr⟩ := q2.ls hl
      obtain ⟨a', ha', _, hc', _⟩ := hl
      rw [ha] at h7
      rw [ha'] at h3
      simp only [St.gcar, St.gcdr, Option.some.injEq] at h3 h7
      have hi : i' = v := by rw [← h3, hc']
      have := ih (fun a h => Nat.lt_of_lt_of_le (hD a h) q06.1) vs (fun x h => hv x (List.mem_cons_of_mem _ h)) (fun h => absurd (hi.symm.trans h) (hv v List.mem_cons_self))
        (by simp only; rw [← h7]; exact q26.ls hr) hq
      rw [this]
      simp only [hi]
      rw [if_neg (hv v List.mem_cons_self)]

/-- `(loopforeach it lst body)`: the expression for the list is evaluated twice, for the first element and for the others. The machine then comes to the start of each iteration, always with the stack of the
loop. When the element is nil, and so at the end of the list, the value of the loop is the value of the body in the last iteration, or nil. Partial as `C101_for_partial`. -/
theorem C101_foreach_partial {P : Prims} {I : Ids} {D : Nat → Prop} {s : St} {x env lst body : V} {it : Nat} (hI : I.Ok) (hP : ListPrims P) (hit : runtimeStart ≤ it)
    (hD : ∀ a, D a → a < s.next) (hx : IsTm D s x (foreachTm I (.sym it) lst body)) (K : List W) (r : V) (fl : Nat) (prog : V)
    (ht : flagTrap fl = false) (hc : flagConst fl = false) :
    ∃ D0 s1 base clo brk env1 test, Started I D D0 K env s s1 base clo brk env1 ∧
      ∀ s2 s3 s4 s5 s6 s7 l1 l2 i rest e1 e2 e3 env0, Ev P false s1 none (.exp env1 lst) s2 none (.ok l1) → Same D0 s1 s2 → s2.gcar l1 = some i → Plain i →
        allocBinding s2 (.sym it) i base = (s3, e1) →
        Ev P false s3 none (.exp env1 lst) s4 none (.ok l2) → Same (With D0 s2) s3 s4 → s4.gcdr l2 = some rest → Plain rest → allocBinding s4 (.sym I.rst) rest e1 = (s5, e2) →
        allocBinding s5 (.sym I.res) .nil e2 = (s6, e3) → allocBinding s6 (.sym I.brk) brk e3 = (s7, env0) →
        ∀ l p, Each P I D0 base clo brk it body ⟨s7, env0, .nil, i, rest⟩ l p →
        (∃ n r', steps none P n (.next ⟨K, r, x, env, false, fl, prog, s⟩) = .next ⟨K, r', test, p.env, false, fl, prog, p.st⟩) ∧
        (p.Sees I clo brk it → p.elem = .nil →
          ∃ n x' en, steps none P n (.next ⟨K, r, x, env, false, fl, prog, s⟩) = .next ⟨K, p.value, x', en, true, fl, prog, p.st⟩) := by
  obtain ⟨s1, call, params, test, clo, brk, base, env1, r1, h1, hnx, h2, h3, h4, h5, h6, h7, h8, h9, h10, h11⟩ := enter_steps (P := P) K fl prog hI hD hx r
  let D0 : Nat → Prop := fun a => D a ∨ s.next ≤ a ∧ a < s.next + 14
  have up : ∀ a, New s.next s1 a → D0 a ∧ s1.car a = s1.car a ∧ s1.cdr a = s1.cdr a := fun a h => ⟨.inr ⟨h.1, by have := h.2; omega⟩, rfl, rfl⟩
  have upD : ∀ a, D a → D0 a ∧ s1.car a = s1.car a ∧ s1.cdr a = s1.cdr a := fun a h => ⟨.inl h, rfl, rfl⟩
  have hD0 : ∀ a, D0 a → a < s1.next := fun a h => by
    rcases h with h | h
    · have := hD a h; omega
    · omega
  have B1 : Bound D0 s1 env1 (.sym I.k) brk base := h11.mono up
  have B0 : Bound D0 s1 base (.sym I.loop) clo env := h10.mono up
  refine ⟨D0, s1, base, clo, brk, env1, test, ⟨h2, fun _ => Iff.rfl, hnx, h3, h4, h9, B0, B1⟩, ?_⟩
  intro s2 s3 s4 s5 s6 s7 l1 l2 i rest e1 e2 e3 env0 g1 g2 g3 g4 g5 g6 g7 g8 g9 g10 g11 g12 l p hw
  -- the parts of the code
  have hbig := IsTm.mono upD _ _ h7
  obtain ⟨c, ca, cd, hT⟩ : ∃ c ca cd, EachTest I D0 s1 it body c ca cd test := by
    simp only [IsTm, IsTms] at hbig
    obtain ⟨a, rfl, da, k1, b, hb, db, k2, d, hd, dd, k3, f, hf, df, ⟨g, hg, dg, k4, j, hj, dj, k5, k, hk, dk, k6, k7⟩, k8⟩ := hbig
    refine ⟨s1.car b, s1.car j, s1.car k, ?_, ?_, ?_, ?_⟩
    · simpa only [IsTm, IsTms] using k2
    · simpa only [IsTm, IsTms] using k5
    · simpa only [IsTm, IsTms] using k6
    · simp only [IsTm, IsTms]
      exact ⟨a, rfl, da, k1, b, hb, db, rfl, d, hd, dd, k3, f, hf, df, ⟨g, hg, dg, k4, j, hj, dj, rfl, k, hk, dk, rfl, k7⟩, k8⟩
  have hcall := IsTm.mono upD _ _ h5
  obtain ⟨ca1, cd1, m1, m2, m3⟩ : ∃ ca1 cd1, IsTm D0 s1 ca1 (.l [sy 0x20012, .v lst]) ∧ IsTm D0 s1 cd1 (.l [sy 0x20013, .v lst]) ∧
      IsTm D0 s1 call (.l [sy I.loop, .v ca1, .v cd1, .v .nil, sy I.k]) := by
    simp only [IsTm, IsTms] at hcall
    obtain ⟨g, hg, dg, k4, j, hj, dj, k5, k, hk, dk, k6, k7⟩ := hcall
    refine ⟨s1.car j, s1.car k, ?_, ?_, ?_⟩
    · simpa only [IsTm, IsTms] using k5
    · simpa only [IsTm, IsTms] using k6
    · simp only [IsTm, IsTms]
      exact ⟨g, hg, dg, k4, j, hj, dj, rfl, k, hk, dk, rfl, k7⟩
  have hL : LoopAt D0 s1 clo [.sym it, .sym I.rst, .sym I.res, .sym I.brk] test base (.l [sy 0x104, .v c, sy I.res, .l [sy I.loop, .v ca, .v cd, .v body, sy I.brk]]) := by
    refine ⟨params, Ls.mono up _ _ h8, Ls.mono upD _ _ ?_, hT.2.2.2⟩
    obtain ⟨vs, hv1, hv2⟩ := tms_ls _ _ h6
    match vs, hv2 with
    | [a, b, d, e], hv2 =>
      simp only [AllTm, IsTm] at hv2
      rwa [hv2.1, hv2.2.1, hv2.2.2.1, hv2.2.2.2.1] at hv1
  have hclo : clo.isCons = true := by
    obtain ⟨a, rfl, _⟩ := h8
    rfl
  have hcp : clo ≠ .placeholder := by intro h; rw [h] at hclo; cases hclo
  have hkp : brk ≠ .placeholder := by intro h; have := IsCont.isCons h9; rw [h] at this; cases this
  have hs : ∀ {x y : Nat}, x ≠ y → (V.sym x) ≠ .sym y := fun h e => h (V.sym.inj e)
  obtain ⟨_, i2, _, i4, _, _, _, _, _, _, i6, _⟩ := id hI
  obtain ⟨m, hm⟩ : ∃ m, s1.next = m + 1 := ⟨s1.next - 1, by omega⟩
  have hlk : s1.lookup (.sym I.loop) (s1.next + 1) env1 = some (some clo) := by
    rw [hm, B1.there (hs i6.symm), B0.here hcp]
  have hD2 : ∀ a, D0 a → a < s2.next := fun a h => Nat.lt_of_lt_of_le (hD0 a h) g2.1
  obtain ⟨_, n3, q3, _⟩ := alloc_same hD2 g5
  have hD3 := with_lt hD2 n3
  have hD4 : ∀ a, With D0 s2 a → a < s4.next := fun a h => Nat.lt_of_lt_of_le (hD3 a h) g7.1
  obtain ⟨_, n5, q5, _⟩ := alloc_same hD4 g10
  have hD5 := with_lt hD4 n5
  obtain ⟨_, n6, q6, _⟩ := alloc_same hD5 g11
  have hD6 := with_lt hD5 n6
  obtain ⟨_, n7, q7, _⟩ := alloc_same hD6 g12
  have q13 : Same D0 s1 s3 := g2.trans q3
  have q16 : Same D0 s1 s6 := ((q13.trans (g7.weak fun _ h => .inl h)).trans (q5.weak fun _ h => .inl h)).trans (q6.weak fun _ h => .inl (.inl h))
  have q17 : Same D0 s1 s7 := q16.trans (q7.weak fun _ h => .inl (.inl (.inl h)))
  have hlk6 : s6.lookup (.sym I.k) (s6.next + 1) env1 = some (some brk) := (q16.bound B1).here hkp _
  have hb : Binds P env1 D0 s1 base [(.sym it, ca1), (.sym I.rst, cd1), (.sym I.res, .nil), (.sym I.brk, .sym I.k)] s7 env0 :=
    .cons (prim1 (by decide) m1 g1 (hP.car _ _ _ _ g3 g4)) g2 g5 (.cons (prim1 (by decide) (q13.tm m2) g6 (hP.cdr _ _ _ _ g8 g9)) g7 g10
      (.cons (.name (by decide)) (.refl _) g11 (.cons (.loc i4 hlk6) (.refl _) g12 .nil)))
  obtain ⟨n2, r2, hn2⟩ := loop_call (s := s1) K fl prog ht hc hD0 i2 m3 hlk hL (fun vs hv => by
    match vs, hv with
    | [a, b, d, e], hv => simp only [AllTm, IsTm] at hv; simp [hv.1, hv.2.1, hv.2.2.1, hv.2.2.2.1]) hb r1
  obtain ⟨⟨n8, r8, hn8⟩, q78⟩ := each_steps K fl prog ht hc hI hP hit hw (fun a h => Nat.lt_of_lt_of_le (hD0 a h) q17.1) (q17.loopAt hL)
    ⟨q17.tm hT.1, q17.tm hT.2.1, q17.tm hT.2.2.1, q17.tm hT.2.2.2⟩ r2
  refine ⟨⟨8 + (n2 + n8), r8, by rw [steps_add, h1, steps_add, hn2, hn8]⟩, fun hs he => ?_⟩
  have q18 := q17.trans q78
  obtain ⟨n9, x', en, hn9⟩ := each_end K fl prog ht hc hI hP hit hs he ⟨q18.tm hT.1, q18.tm hT.2.1, q18.tm hT.2.2.1, q18.tm hT.2.2.2⟩ r8
  exact ⟨8 + (n2 + (n8 + n9)), x', en, by rw [steps_add, h1, steps_add, hn2, steps_add, hn8, hn9]⟩

end Verif.LoopExt
