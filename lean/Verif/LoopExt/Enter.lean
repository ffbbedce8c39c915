import Verif.LoopExt.Run

/-!
# The machine at the start of a loop
-/

namespace Verif.LoopExt

open Verif.Eval

/-- `env'` is `env` with a binding in front; its two cells are in `D`. -/
def Bound (D : Nat → Prop) (s : St) (env' key val env : V) : Prop :=
  ∃ a b, env' = .cons a ∧ D a ∧ D b ∧ s.car a = .cons b ∧ s.cdr a = env ∧ s.car b = key ∧ s.cdr b = val

theorem Same.bound {D : Nat → Prop} {s s' : St} {env' key val env : V} (h : Same D s s') (hb : Bound D s env' key val env) : Bound D s' env' key val env := by
  obtain ⟨a, b, h1, da, db, h2, h3, h4, h5⟩ := hb
  exact ⟨a, b, h1, da, db, (h.2 a da).1.trans h2, (h.2 a da).2.trans h3, (h.2 b db).1.trans h4, (h.2 b db).2.trans h5⟩

/-- The first binding is found. -/
theorem Bound.here {D : Nat → Prop} {s : St} {env' key val env : V} (hb : Bound D s env' key val env) (hv : val ≠ .placeholder) (f : Nat) :
    s.lookup key (f + 1) env' = some (some val) := by
  obtain ⟨a, b, rfl, _, _, h2, h3, h4, h5⟩ := hb
  simp [St.lookup, h2, h4, h5, hv]

/-- Another name is looked up in the rest. -/
theorem Bound.there {D : Nat → Prop} {s : St} {env' key key' val env : V} (hb : Bound D s env' key val env) (hk : key ≠ key') (f : Nat) :
    s.lookup key' (f + 1) env' = s.lookup key' f env := by
  obtain ⟨a, b, rfl, _, _, h2, h3, h4, h5⟩ := hb
  simp [St.lookup, h2, h3, h4, hk]

/-- The cells of `s`. -/
abbrev Old (s : St) : Nat → Prop := fun a => a < s.next

/-- Let only cells that did not exist be written. -/
theorem same_old {D : Nat → Prop} {s s' : St} (hD : ∀ a, D a → a < s.next) (h : Same (Old s) s s') : Same D s s' := h.weak hD

theorem alloc_bound {s s' : St} {p v cenv env : V} (h : allocBinding s p v cenv = (s', env)) : Bound (New s.next s') s' env p v cenv := by
  obtain ⟨h1, h2, _, h4, h5, h6, h7⟩ := alloc_same (D := Old s) (fun _ h => h) h
  exact ⟨s.next + 1, s.next, h1, ⟨by omega, by omega⟩, ⟨by omega, by omega⟩, h4, h5, h6, h7⟩

theorem closure_new {s s' : St} {params body env c : V} (h : allocClosure s params body env = (s', c)) :
    s'.next = s.next + 4 ∧ Same (Old s) s s' ∧ Ls (New s.next s') s' c [.closure, params, body, env] ∧ s'.globals = s.globals ∧ s'.atomic = s.atomic ∧ s'.konts = s.konts ∧
      c = .cons (s.next + 3) := by
  simp only [allocClosure, St.cons, Prod.mk.injEq] at h
  obtain ⟨rfl, rfl⟩ := h
  refine ⟨rfl, ⟨by simp only; omega, fun a ha => ?_⟩, ?_, rfl, rfl, rfl, rfl⟩
  · have : a < s.next := ha
    simp [show a ≠ s.next by omega, show a ≠ s.next + 1 by omega, show a ≠ s.next + 1 + 1 by omega, show a ≠ s.next + 1 + 1 + 1 by omega]
  · refine ⟨_, rfl, ⟨by omega, by simp⟩, by simp, s.next + 2, by simp, ⟨by omega, by simp⟩, by simp, s.next + 1, by simp, ⟨by omega, by simp⟩, by simp,
      s.next, by simp, ⟨by omega, by simp only; omega⟩, by simp [show s.next ≠ s.next + 1 + 1 + 1 by omega, show s.next ≠ s.next + 1 + 1 by omega], ?_⟩
    simp [Ls, show s.next ≠ s.next + 1 + 1 + 1 by omega, show s.next ≠ s.next + 1 + 1 by omega]

theorem New.sub {s s' : St} {n n' : Nat} (hn : n ≤ n') (h : s.next ≤ s'.next) : ∀ a, New n' s a → New n s' a :=
  fun _ ha => ⟨Nat.le_trans hn ha.1, Nat.lt_of_lt_of_le ha.2 h⟩

/-- Cells that existed are the same. -/
theorem New.keep {s s' : St} {n n' : Nat} (hn : n ≤ n') (h : Same (Old s) s s') : ∀ a, New n' s a → New n s' a ∧ s'.car a = s.car a ∧ s'.cdr a = s.cdr a :=
  fun a ha => ⟨New.sub hn h.1 a ha, h.2 a ha.2⟩

theorem Bound.mono {D D' : Nat → Prop} {s s' : St} {env' key val env : V} (hs : ∀ a, D a → D' a ∧ s'.car a = s.car a ∧ s'.cdr a = s.cdr a)
    (hb : Bound D s env' key val env) : Bound D' s' env' key val env := by
  obtain ⟨a, b, h1, da, db, h2, h3, h4, h5⟩ := hb
  obtain ⟨ca, a1, a2⟩ := hs a da
  obtain ⟨cb, b1, b2⟩ := hs b db
  exact ⟨a, b, h1, ca, cb, a1.trans h2, a2.trans h3, b1.trans h4, b2.trans h5⟩

theorem Same.old_trans {s s1 s2 : St} (h : Same (Old s) s s1) (h' : Same (Old s1) s1 s2) : Same (Old s) s s2 :=
  h.trans (h'.weak fun _ ha => Nat.lt_of_lt_of_le ha h.1)

section
variable {P : Prims} {D : Nat → Prop} (K : List W) (fl : Nat) (prog : V)

/-- The machine comes to the first call of the loop function. -/
theorem enter_steps {s : St} {x env : V} {I : Ids} {params init : List Tm} {test : Tm} (hI : I.Ok) (hD : ∀ a, D a → a < s.next)
    (hx : IsTm D s x (letLoop I params test init)) (r : V) :
    ∃ s1 call params' test' clo brk base env1 r', steps none P 8 (.next ⟨K, r, x, env, false, fl, prog, s⟩) = .next ⟨K, r', call, env1, false, fl, prog, s1⟩ ∧
      s1.next = s.next + 14 ∧ Same (Old s) s s1 ∧ s1.globals = s.globals ∧ s1.atomic = s.atomic ∧ IsTm D s1 call (.l (sy I.loop :: init)) ∧ IsTms D s1 params' params ∧ IsTm D s1 test' test ∧
      Ls (New s.next s1) s1 clo [.closure, params', test', base] ∧ IsCont s1 brk K s.atomic ∧
      Bound (New s.next s1) s1 base (.sym I.loop) clo env ∧ Bound (New s.next s1) s1 env1 (.sym I.k) brk base := by
  have hx0 := hx
  simp only [letLoop, IsTm, IsTms] at hx
  obtain ⟨a, rfl, da, h1, b, hb, db, ⟨c, hc, dc, ⟨d, hd, dd, hk, e, he, de, ⟨f, hf, df, hlam, g, hg, dg, hpar, h, hh, dh, htest, hhn⟩, hen⟩, hcn⟩, i, hi, di,
    ⟨j, hj, dj, hcc, k, hkk, dk, ⟨l, hl, dl, hlam2, m, hm, dm, ⟨o, ho, dout, hkn, hon⟩, q, hq, dq, hcall, hqn⟩, hkn2⟩, hin⟩ := hx
  obtain ⟨hr1, hr2, hr3, hr4, hr5, _⟩ := hI
  have hrs : runtimeStart = 0x40000 := rfl
  have hn0 : I.loop ≠ 0 := by omega
  have hn9 : I.loop ≠ 9 := by omega
  -- the location for the loop function
  cases hA : allocBinding s (.sym I.loop) .placeholder env with
  | mk s1 env1 =>
  obtain ⟨a1, a2, a3, a4, a5, a6, a7⟩ := alloc_same (D := Old s) (fun _ h => h) hA
  have ag : s1.globals = s.globals ∧ s1.atomic = s.atomic ∧ s1.konts = s.konts := by
    simp only [allocBinding, St.cons, Prod.mk.injEq] at hA
    obtain ⟨rfl, _⟩ := hA
    exact ⟨rfl, rfl, rfl⟩
  have w1 : ∀ y, D y → s1.car y = s.car y ∧ s1.cdr y = s.cdr y := fun y hy => a3.2 y (hD y hy)
  obtain ⟨N, hN⟩ : ∃ N, s.next = N + 1 := ⟨s.next - 1, by have := hD a da; omega⟩
  have hlet : letLocs s (s.next + 1) (.cons c) env = some (some (s1, env1)) := by
    have hA' := hA
    simp only [allocBinding] at hA'
    rw [hN]
    simp only [letLocs, hd, St.gcar, hk, St.createLoc, hn0, hn9, or_self, if_false, hA', hcn]
  have st1 : steps none P 1 (.next ⟨K, r, .cons a, env, false, fl, prog, s⟩) =
      .next ⟨.k 2 :: .v (.sym I.loop) :: .v env1 :: .v .nil :: .v (.cons j) :: K, r, .cons f, env1, false, fl, prog, s1⟩ := by
    simp [steps, step, h1, special, evalSpecial, evalLet, letBind, St.tl, St.hd, hb, hc, hi, hj, hlet, reserve, M.go, (w1 c dc).1, (w1 c dc).2, hd, (w1 d dd).1, hk, (w1 d dd).2, he,
      (w1 e de).1, hf, hcn]
  -- the loop function
  cases hB : allocClosure s1 (s1.car g) (s1.car h) env1 with
  | mk s2 clo =>
  obtain ⟨b1, b2, b3, b4, b5, b6, b7⟩ := closure_new hB
  have s02 := a3.old_trans b2
  have w2 : ∀ y, D y → s2.car y = s.car y ∧ s2.cdr y = s.cdr y := fun y hy => s02.2 y (hD y hy)
  have st2 : steps none P 1 (.next ⟨.k 2 :: .v (.sym I.loop) :: .v env1 :: .v .nil :: .v (.cons j) :: K, r, .cons f, env1, false, fl, prog, s1⟩) =
      .next ⟨.k 2 :: .v (.sym I.loop) :: .v env1 :: .v .nil :: .v (.cons j) :: K, clo, .cons f, env1, true, fl, prog, s2⟩ := by
    simp [steps, step, (w1 f df).1, hlam, special, evalSpecial, evalLambda, St.tl, St.hd, (w1 f df).2, hg, (w1 g dg).2, hh, hB, M.ret]
  -- it is written to its location
  let s3 := s2.setCdr (.cons s.next) clo
  have w3 : ∀ y, y ≠ s.next → s3.car y = s2.car y ∧ s3.cdr y = s2.cdr y := fun y hy => by simp [s3, St.setCdr, hy]
  have hfp : s2.findPair (.sym I.loop) (s2.next + 1) env1 = some (some (.cons s.next)) := by
    simp [a1, St.findPair, (b2.2 (s.next + 1) (by show _ < s1.next; omega)).1, a4, St.lcar, (b2.2 s.next (by show _ < s1.next; omega)).1, a6]
  have hfill : s2.fillLoc (s2.next + 1) (.sym I.loop) clo env1 = some (s3, true) := by
    simp [St.fillLoc, hn9, St.modify, hfp, s3]
  have st3 : steps none P 1 (.next ⟨.k 2 :: .v (.sym I.loop) :: .v env1 :: .v .nil :: .v (.cons j) :: K, clo, .cons f, env1, true, fl, prog, s2⟩) =
      .next ⟨K, clo, .cons j, env1, false, fl, prog, s3⟩ := by
    simp [steps, step, runCont, contBind, hfill, M.go]
  have s03 : Same (Old s) s s3 := ⟨s02.1, fun y hy => by
    have hy' : y < s.next := hy
    obtain ⟨e1, e2⟩ := w3 y (by omega)
    exact ⟨e1.trans (s02.2 y hy).1, e2.trans (s02.2 y hy).2⟩⟩
  have w3' : ∀ y, D y → s3.car y = s.car y ∧ s3.cdr y = s.cdr y := fun y hy => s03.2 y (hD y hy)
  have hbound3 : Bound (New s.next s3) s3 env1 (.sym I.loop) clo env := by
    refine ⟨s.next + 1, s.next, a1, ⟨by omega, by show _ < s2.next; omega⟩, ⟨by omega, by show _ < s2.next; omega⟩, ?_, ?_, ?_, ?_⟩
    · rw [(w3 _ (by omega)).1, (b2.2 (s.next + 1) (by show _ < s1.next; omega)).1, a4]
    · rw [(w3 _ (by omega)).2, (b2.2 (s.next + 1) (by show _ < s1.next; omega)).2, a5]
    · simp only [s3, St.setCdr]
      rw [(b2.2 s.next (by show _ < s1.next; omega)).1, a6]
    · simp [s3, St.setCdr]
  have hclo3 : Ls (New s.next s3) s3 clo [.closure, s1.car g, s1.car h, env1] := by
    refine Ls.mono (D := New s1.next s2) (fun y hy => ?_) _ _ b3
    have := hy.1
    have := hy.2
    exact ⟨⟨by omega, by show _ < s2.next; omega⟩, w3 y (by omega)⟩
  -- the continuation
  let s4 : St := { s3 with konts := fun i => if i = s3.nk then .v (if s3.atomic then .tru else .nil) :: K else s3.konts i, nk := s3.nk + 1 }
  let s5 := ((s4.cons .cont (.arr s3.nk)).1.cons (.cons s3.next) .nil).1
  have w5 : ∀ y, y < s3.next → s5.car y = s3.car y ∧ s5.cdr y = s3.cdr y := fun y hy => by
    simp [s5, s4, St.cons, show y ≠ s3.next by omega, show y ≠ s3.next + 1 by omega]
  have s35 : Same (Old s3) s3 s5 := ⟨by simp only [s5, s4, St.cons]; omega, w5⟩
  have s05 := s03.old_trans s35
  have w5' : ∀ y, D y → s5.car y = s.car y ∧ s5.cdr y = s.cdr y := fun y hy => s05.2 y (hD y hy)
  have n5 : s5.next = s3.next + 2 := rfl
  have st4 : steps none P 1 (.next ⟨K, clo, .cons j, env1, false, fl, prog, s3⟩) =
      .next ⟨.k 10 :: .v (.cons (s3.next + 1)) :: .v env1 :: K, clo, .cons l, env1, false, fl, prog, s5⟩ := by
    have hg5 : s5.gcadr (.cons j) = some (.cons l) := by simp [St.gcadr, (w5' j dj).2, hkk, (w5' k dk).1, hl]
    simp only [s5, s4, St.cons] at hg5
    simp [steps, step, (w3' j dj).1, hcc, special, evalSpecial, evalCallcc, reserve, M.go, St.cons, hg5, s5, s4]
  -- the function that is called with it
  cases hC : allocClosure s5 (s5.car m) (s5.car q) env1 with
  | mk s6 thk =>
  obtain ⟨c1, c2, c3, c4, c5, c6, c7⟩ := closure_new hC
  have s06 := s05.old_trans c2
  have w6 : ∀ y, D y → s6.car y = s.car y ∧ s6.cdr y = s.cdr y := fun y hy => s06.2 y (hD y hy)
  have st5 : steps none P 1 (.next ⟨.k 10 :: .v (.cons (s3.next + 1)) :: .v env1 :: K, clo, .cons l, env1, false, fl, prog, s5⟩) =
      .next ⟨.k 10 :: .v (.cons (s3.next + 1)) :: .v env1 :: K, thk, .cons l, env1, true, fl, prog, s6⟩ := by
    simp [steps, step, (w5' l dl).1, hlam2, special, evalSpecial, evalLambda, St.tl, St.hd, (w5' l dl).2, hm, (w5' m dm).2, hq, hC, M.ret]
  have e1 : s6.car (s3.next + 1) = .cons s3.next := by
    rw [(c2.2 (s3.next + 1) (by show _ < s5.next; omega)).1]
    simp [s5, s4, St.cons]
  have e2 : s6.cdr (s3.next + 1) = .nil := by
    rw [(c2.2 (s3.next + 1) (by show _ < s5.next; omega)).2]
    simp [s5, s4, St.cons]
  have e3 : s6.car s3.next = .cont := by
    rw [(c2.2 s3.next (by show _ < s5.next; omega)).1]
    simp [s5, s4, St.cons]
  have e4 : s6.cdr s3.next = .arr s3.nk := by
    rw [(c2.2 s3.next (by show _ < s5.next; omega)).2]
    simp [s5, s4, St.cons]
  subst c7
  obtain ⟨z0, hz0, _, y1, z1, hz1, _, y2, z2, hz2, _, y3, z3, hz3, _, y4, y5⟩ := c3
  cases hz0
  have hmo : s5.car m = .cons o := by rw [(w5' m dm).1, ho]
  have st6 : steps none P 1 (.next ⟨.k 10 :: .v (.cons (s3.next + 1)) :: .v env1 :: K, .cons (s5.next + 3), .cons l, env1, true, fl, prog, s6⟩) =
      .next ⟨.k 13 :: .v .nil :: .v (.cons o) :: .v env1 :: .v (s5.car q) :: .v env1 :: K, .cons (s5.next + 3), .cons s3.next, env1, false, fl, prog, s6⟩ := by
    simp [steps, step, runCont, contStart, y1, hz1, y2, hz2, y3, hz3, y4, St.hd, St.tl, St.gcar, St.gcdr, e1, e2, hmo, reserve, M.go]
  have st7 : steps none P 1 (.next ⟨.k 13 :: .v .nil :: .v (.cons o) :: .v env1 :: .v (s5.car q) :: .v env1 :: K, .cons (s5.next + 3), .cons s3.next, env1, false, fl, prog, s6⟩) =
      .next ⟨.k 13 :: .v .nil :: .v (.cons o) :: .v env1 :: .v (s5.car q) :: .v env1 :: K, .cons s3.next, .cons s3.next, env1, true, fl, prog, s6⟩ := by
    simp [steps, step, e3, special, evalSpecial, M.ret]
  cases hE : allocBinding s6 (.sym I.k) (.cons s3.next) env1 with
  | mk s7 env7 =>
  obtain ⟨f1, f2, f3, _⟩ := alloc_same (D := Old s6) (fun _ h => h) hE
  have fg : s7.globals = s6.globals ∧ s7.atomic = s6.atomic ∧ s7.konts = s6.konts := by
    simp only [allocBinding, St.cons, Prod.mk.injEq] at hE
    obtain ⟨rfl, _⟩ := hE
    exact ⟨rfl, rfl, rfl⟩
  have s07 := s06.old_trans f3
  have w7 : ∀ y, D y → D y ∧ s7.car y = s.car y ∧ s7.cdr y = s.cdr y := fun y hy => ⟨hy, s07.2 y (hD y hy)⟩
  have st8 : steps none P 1 (.next ⟨.k 13 :: .v .nil :: .v (.cons o) :: .v env1 :: .v (s5.car q) :: .v env1 :: K, .cons s3.next, .cons s3.next, env1, true, fl, prog, s6⟩) =
      .next ⟨K, .cons s3.next, s5.car q, env7, false, fl, prog, s7⟩ := by
    simp [steps, step, runCont, contCloArgs, St.gcar, St.gcdr, (w6 o dout).1, (w6 o dout).2, hkn, hon, hE, M.go]
  have s36 := s35.old_trans c2
  have s37 := s36.old_trans f3
  have hat : s3.atomic = s.atomic := b5.trans ag.2.1
  refine ⟨s7, s5.car q, s1.car g, s1.car h, clo, .cons s3.next, env1, env7, .cons s3.next, ?_, ?_, s07, ?_, ?_, ?_, ?_, ?_, ?_, ?_, ?_, ?_⟩
  · rw [show (8 : Nat) = 1 + (1 + (1 + (1 + (1 + (1 + (1 + 1)))))) from rfl]
    rw [steps_add, st1, steps_add, st2, steps_add, st3, steps_add, st4, steps_add, st5, steps_add, st6, steps_add, st7, st8]
  · have : s3.next = s2.next := rfl
    omega
  · rw [fg.1, c4]
    exact b4.trans ag.1
  · rw [fg.2.1, c5]
    exact hat
  · rw [(w5' q dq).1]
    simp only [IsTm, IsTms]
    exact IsTms.mono w7 (sy I.loop :: init) _ (by simpa only [IsTms, IsTm] using hcall)
  · rw [(w1 g dg).1]
    exact IsTms.mono w7 _ _ hpar
  · rw [(w1 h dh).1]
    exact IsTm.mono w7 _ _ htest
  · exact Ls.mono (New.keep (Nat.le_refl _) s37) _ _ hclo3
  · refine ⟨s3.next, s3.nk, rfl, ?_, ?_, ?_⟩
    · rw [(f3.2 s3.next (by show _ < s6.next; omega)).1, e3]
    · rw [(f3.2 s3.next (by show _ < s6.next; omega)).2, e4]
    · rw [fg.2.2, c6, ← hat]
      simp [s5, s4, St.cons]
  · exact Bound.mono (New.keep (Nat.le_refl _) s37) hbound3
  · refine Bound.mono (fun y hy => ⟨⟨?_, hy.2⟩, rfl, rfl⟩) (alloc_bound hE)
    have := hy.1
    have := s06.1
    omega
end

end Verif.LoopExt
