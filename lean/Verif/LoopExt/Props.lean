import Verif.LoopExt.Enter
import Verif.Eval.Demo

/-!
# Properties of the loop macros (C101)
-/

namespace Verif.LoopExt

open Verif.Eval

/-! ## The expansion -/

/-- The code of the loops has this many cells. -/
theorem size_for (I : Ids) (it start cond update body : V) : size (forTm I it start cond update body) = 30 := rfl
theorem size_while (I : Ids) (cond body : V) : size (whileTm I cond body) = 27 := rfl
theorem size_range (I : Ids) (one it start end_ body : V) : size (rangeTm I one it start end_ body) = 36 := rfl
theorem size_foreach (I : Ids) (it lst body : V) : size (foreachTm I it lst body) = 44 := rfl

/-- The least number of free cells for each of the loops. -/
def Fn.cells : Fn → Nat
  | .for_ => 30
  | .while_ => 27
  | .range => 36
  | .foreach => 44

/-- The number of arguments of each of the loops. -/
def Fn.arity : Fn → Nat
  | .for_ => 5
  | .while_ => 2
  | .range => 4
  | .foreach => 3

theorem short_for : ∀ rtl : Bool, ∀ f, f < 30 → short rtl (blank (forTm ⟨0, 0, 0, 0, 0⟩ .nil .nil .nil .nil .nil)) f = true := by
  decide +kernel
theorem short_while : ∀ rtl : Bool, ∀ f, f < 27 → short rtl (blank (whileTm ⟨0, 0, 0, 0, 0⟩ .nil .nil)) f = true := by
  decide +kernel
theorem short_range : ∀ rtl : Bool, ∀ f, f < 36 → short rtl (blank (rangeTm ⟨0, 0, 0, 0, 0⟩ .nil .nil .nil .nil .nil)) f = true := by
  decide +kernel
theorem short_foreach : ∀ rtl : Bool, ∀ f, f < 44 → short rtl (blank (foreachTm ⟨0, 0, 0, 0, 0⟩ .nil .nil .nil)) f = true := by
  decide +kernel

theorem tm_arity {I : Ids} {one : V} {fn : Fn} {args : List V} {t : Tm} (h : fn.tm I one args = some t) : args.length = fn.arity ∧ size t = fn.cells := by
  unfold Fn.tm at h
  split at h <;> first | (cases h; exact ⟨rfl, rfl⟩) | cases h

theorem tm_none {I : Ids} {one : V} {fn : Fn} {args : List V} (h : fn.tm I one args = none) : args.length ≠ fn.arity := by
  intro hl
  cases fn
  · match args, hl with
    | [_, _, _, _, _], _ => simp [Fn.tm] at h
  · match args, hl with
    | [_, _], _ => simp [Fn.tm] at h
  · match args, hl with
    | [_, _, _, _], _ => simp [Fn.tm] at h
  · match args, hl with
    | [_, _, _], _ => simp [Fn.tm] at h

theorem tm_short {I : Ids} {one : V} {fn : Fn} {args : List V} {t : Tm} (ht : fn.tm I one args = some t) (rtl : Bool) (h : Hp) (hf : h.free < fn.cells) :
    (build rtl t h).2 = merror := by
  unfold Fn.tm at ht
  split at ht
  · cases ht
    refine build_short rtl _ _ 30 ?_ (short_for rtl) h hf
    rfl
  · cases ht
    refine build_short rtl _ _ 27 ?_ (short_while rtl) h hf
    rfl
  · cases ht
    refine build_short rtl _ _ 36 ?_ (short_range rtl) h hf
    rfl
  · cases ht
    refine build_short rtl _ _ 44 ?_ (short_foreach rtl) h hf
    rfl
  · cases ht

/-- The expansion of a loop macro: with another number of arguments it is an error; with enough free cells it is the code of the loop (in new cells, as many as it needs, and nothing else is
changed); with too few free cells it is `out_of_memory`, never code in which a part is missing. This holds for both orders in which the arguments of the C function may be evaluated. -/
theorem C101_expansion (rtl : Bool) (I : Ids) (one : V) (fn : Fn) (args : List V) (h : Hp) :
    (args.length ≠ fn.arity → expand rtl I one fn args h = (h, .eerror)) ∧
    (args.length = fn.arity → h.free < fn.cells → (expand rtl I one fn args h).2 = merror) ∧
    (args.length = fn.arity → fn.cells ≤ h.free → ∃ t, fn.tm I one args = some t ∧
      IsTm (New h.st.next (expand rtl I one fn args h).1.st) (expand rtl I one fn args h).1.st (expand rtl I one fn args h).2 t ∧
      (expand rtl I one fn args h).1.free = h.free - fn.cells ∧ Grow h.st (expand rtl I one fn args h).1.st fn.cells) := by
  unfold expand
  cases ht : fn.tm I one args with
  | none =>
    have := tm_none ht
    exact ⟨fun _ => rfl, fun h => absurd h this, fun h => absurd h this⟩
  | some t =>
    obtain ⟨ha, hs⟩ := tm_arity ht
    refine ⟨fun h => absurd ha h, fun _ hf => ?_, fun _ hf => ?_⟩
    · exact tm_short ht rtl h hf
    · obtain ⟨g, f, i⟩ := build_spec rtl t h (by omega)
      exact ⟨t, rfl, i, by simp only [f, hs], hs ▸ g⟩

/-- Example: `(loopwhile x y)` with 100 free cells, and with 20. -/
example : ∃ t, Fn.while_.tm ⟨runtimeStart, runtimeStart + 1, runtimeStart + 2, runtimeStart + 3, runtimeStart + 4⟩ .nil [.sym (runtimeStart + 9), .sym (runtimeStart + 8)] = some t ∧
    (expand true ⟨runtimeStart, runtimeStart + 1, runtimeStart + 2, runtimeStart + 3, runtimeStart + 4⟩ .nil .while_ [.sym (runtimeStart + 9), .sym (runtimeStart + 8)] ⟨st0, 20⟩).2 = merror :=
  ⟨_, rfl, (C101_expansion true _ .nil .while_ _ ⟨st0, 20⟩).2.1 rfl (by decide)⟩

/-! ## The evaluation -/

section
variable {P : Prims} {I : Ids} {D : Nat → Prop} (K : List W) (fl : Nat) (prog : V) (ht : flagTrap fl = false) (hc : flagConst fl = false)
include ht hc

/-- The end of a loop. -/
theorem end_steps (hI : I.Ok) {clo brk cond test env w : V} {s s' : St} {A : Tm} (h : Ends P I D clo brk cond s env w s')
    (hL : IsTm D s test (.l [sy 0x104, .v cond, A, sy I.res])) (r : V) :
    ∃ n x en, steps none P n (.next ⟨K, r, test, env, false, fl, prog, s⟩) = .next ⟨K, w, x, en, true, fl, prog, s'⟩ := by
  obtain ⟨h1, h2, h3⟩ := h
  obtain ⟨n, r', y, hn, hy⟩ := if_steps K fl prog ht hc hL h1 h2 r
  simp only [if_true, IsTm] at hy
  subst hy
  refine ⟨n + 1, .sym I.res, env, ?_⟩
  rw [steps_add, hn]
  simp [steps, step, evalSymbol, hI.1, h3.2.1, M.ret]

/-- Some iterations of `loopwhile`. -/
theorem while_steps (hI : I.Ok) {base clo brk cond body test : V} {s s' : St} {env env' w w' : V} (h : Many (WhileOnce P I D base clo brk cond body) s env w s' env' w')
    (hD : ∀ a, D a → a < s.next) (hL : LoopAt D s clo [.sym I.res, .sym I.brk] test base (.l [sy 0x104, .v cond, .l [sy I.loop, .v body, sy I.brk], sy I.res])) (r : V) :
    (∃ n r', steps none P n (.next ⟨K, r, test, env, false, fl, prog, s⟩) = .next ⟨K, r', test, env', false, fl, prog, s'⟩) ∧ Same D s s' := by
  induction h generalizing r with
  | none => exact ⟨⟨0, r, rfl⟩, Nat.le_refl _, fun _ _ => ⟨rfl, rfl⟩⟩
  | @more s env w s4 env2 w1 s' env' w' h0 _ ih =>
    cases h0 with
    | @mk s1 s2 s3 s4 _ env1 env2 c _ w1 h1 h2 h3 h4 h5 h6 h7 h8 h9 h10 =>
    obtain ⟨params, hL1, hL2, hL3⟩ := id hL
    obtain ⟨n, r', y, hn, hy⟩ := if_steps K fl prog ht hc hL3 h1 h3 r
    rw [if_neg h2] at hy
    have hD1 : ∀ a, D a → a < s1.next := fun a h => Nat.lt_of_lt_of_le (hD a h) h3.1
    have hD2 : ∀ a, D a → a < s2.next := fun a h => Nat.lt_of_lt_of_le (hD1 a h) h7.1
    obtain ⟨_, n3, q3, _⟩ := alloc_same hD2 h8
    have hD3 : ∀ a, With D s2 a → a < s3.next := fun a h => by
      rcases h with h | h | h
      · have := hD2 a h; omega
      · omega
      · omega
    obtain ⟨_, n4, q4, _⟩ := alloc_same hD3 h10
    have q14 : Same D s1 s4 := (h7.trans q3).trans (q4.weak fun _ h => .inl h)
    have hb : Binds P env D s1 base [(.sym I.res, body), (.sym I.brk, .sym I.brk)] s4 env2 :=
      .cons h5 h7 h8 (.cons (.loc hI.2.2.1 h9.2.2) ⟨Nat.le_refl _, fun _ _ => ⟨rfl, rfl⟩⟩ h10 .nil)
    obtain ⟨n2, r2, hn2⟩ := loop_call (s := s1) K fl prog ht hc hD1 hI.2.1 hy h4.1 (h3.loopAt hL) (fun vs hv => by
      match vs, hv with
      | [a, b], hv => simp only [AllTm, IsTm] at hv; simp [hv.1, hv.2.1]) hb r'
    obtain ⟨⟨n5, r5, hn5⟩, hs5⟩ := ih (fun a h => Nat.lt_of_lt_of_le (hD1 a h) q14.1) (q14.loopAt (h3.loopAt hL)) r2
    exact ⟨⟨n + (n2 + n5), r5, by rw [steps_add, hn, steps_add, hn2, hn5]⟩, (h3.trans q14).trans hs5⟩

/-- Some iterations of `loopfor`. -/
theorem for_steps (hI : I.Ok) {base clo brk it cond update body test : V} {s s' : St} {env env' w w' : V}
    (h : Many (ForOnce P I D base clo brk it cond update body) s env w s' env' w')
    (hD : ∀ a, D a → a < s.next) (hL : LoopAt D s clo [it, .sym I.res, .sym I.brk] test base (.l [sy 0x104, .v cond, .l [sy I.loop, .v update, .v body, sy I.brk], sy I.res])) (r : V) :
    (∃ n r', steps none P n (.next ⟨K, r, test, env, false, fl, prog, s⟩) = .next ⟨K, r', test, env', false, fl, prog, s'⟩) ∧ Same D s s' := by
  induction h generalizing r with
  | none => exact ⟨⟨0, r, rfl⟩, Nat.le_refl _, fun _ _ => ⟨rfl, rfl⟩⟩
  | @more s env w s6 env3 w1 s' env' w' h0 _ ih =>
    cases h0 with
    | @mk s1 s2 s3 s4 s5 s6 _ env1 env2 env3 c i _ w1 h1 h2 h3 h4 h5 h6 h7 h8 h9 h10 h11 h12 h13 =>
    obtain ⟨params, hL1, hL2, hL3⟩ := id hL
    obtain ⟨n, r', y, hn, hy⟩ := if_steps K fl prog ht hc hL3 h1 h3 r
    rw [if_neg h2] at hy
    have hD1 : ∀ a, D a → a < s1.next := fun a h => Nat.lt_of_lt_of_le (hD a h) h3.1
    have hD2 : ∀ a, D a → a < s2.next := fun a h => Nat.lt_of_lt_of_le (hD1 a h) h6.1
    obtain ⟨_, n3, q3, _⟩ := alloc_same hD2 h7
    have hD3 : ∀ a, With D s2 a → a < s3.next := fun a h => by
      rcases h with h | h | h
      · have := hD2 a h; omega
      · omega
      · omega
    have hD4 : ∀ a, With D s2 a → a < s4.next := fun a h => Nat.lt_of_lt_of_le (hD3 a h) h10.1
    obtain ⟨_, n5, q5, _⟩ := alloc_same hD4 h11
    have hD5 : ∀ a, With (With D s2) s4 a → a < s5.next := fun a h => by
      rcases h with h | h | h
      · have := hD4 a h; omega
      · omega
      · omega
    obtain ⟨_, n6, q6, _⟩ := alloc_same hD5 h13
    have q16 : Same D s1 s6 :=
      (((h6.trans q3).trans (h10.weak fun _ h => .inl h)).trans (q5.weak fun _ h => .inl h)).trans (q6.weak fun _ h => .inl (.inl h))
    have hb : Binds P env D s1 base [(it, update), (.sym I.res, body), (.sym I.brk, .sym I.brk)] s6 env3 :=
      .cons h5 h6 h7 (.cons h8 h10 h11 (.cons (.loc hI.2.2.1 h12.2.2) ⟨Nat.le_refl _, fun _ _ => ⟨rfl, rfl⟩⟩ h13 .nil))
    obtain ⟨n2, r2, hn2⟩ := loop_call (s := s1) K fl prog ht hc hD1 hI.2.1 hy h4.1 (h3.loopAt hL) (fun vs hv => by
      match vs, hv with
      | [a, b, d], hv => simp only [AllTm, IsTm] at hv; simp [hv.1, hv.2.1, hv.2.2.1]) hb r'
    obtain ⟨⟨n5, r5, hn5⟩, hs5⟩ := ih (fun a h => Nat.lt_of_lt_of_le (hD1 a h) q16.1) (q16.loopAt (h3.loopAt hL)) r2
    exact ⟨⟨n + (n2 + n5), r5, by rw [steps_add, hn, steps_add, hn2, hn5]⟩, (h3.trans q16).trans hs5⟩

end

/-- The loop in the environment `env` has been started: `clo` is its function, `base` the environment of that function, `brk` the way out. `K` is the stack of the loop. The 14 new cells are in the set `D0`. -/
structure Started (I : Ids) (D D0 : Nat → Prop) (K : List W) (env : V) (s s1 : St) (base clo brk env1 : V) : Prop where
  old : Same (Old s) s s1
  new : ∀ a, D0 a ↔ D a ∨ s.next ≤ a ∧ a < s.next + 14
  next : s1.next = s.next + 14
  globals : s1.globals = s.globals
  atomic : s1.atomic = s.atomic
  way_out : IsCont s1 brk K s.atomic
  function : Bound D0 s1 base (.sym I.loop) clo env
  first : Bound D0 s1 env1 (.sym I.k) brk base

theorem IsCont.isCons {s : St} {v : V} {K : List W} {b : Bool} (h : IsCont s v K b) : v.isCons = true := by
  obtain ⟨a, _, rfl, _⟩ := h
  rfl

/-- What an iteration of `loopfor` sees: the names of the loop, and the new value of the variable `it`. The variable must not be one of the names that the macro uses. -/
theorem C101_for_scope_partial {I : Ids} {D : Nat → Prop} {s2 s3 s4 s5 s6 : St} {base clo brk it i w env env1 env2 env3 : V} (hI : I.Ok)
    (hit : it ≠ .sym I.loop ∧ it ≠ .sym I.res ∧ it ≠ .sym I.brk) (hD : ∀ a, D a → a < s2.next) (hb : Bound D s2 base (.sym I.loop) clo env)
    (hc : clo.isCons = true) (hk : brk.isCons = true) (hw : w ≠ .placeholder) (hi : i ≠ .placeholder)
    (h1 : allocBinding s2 it i base = (s3, env1)) (h2 : Same (With D s2) s3 s4) (h3 : allocBinding s4 (.sym I.res) w env1 = (s5, env2))
    (h4 : allocBinding s5 (.sym I.brk) brk env2 = (s6, env3)) :
    Named I clo w brk s6 env3 ∧ s6.lookup it (s6.next + 1) env3 = some (some i) := by
  obtain ⟨_, n3, q3, b3⟩ := alloc_same hD h1
  have hD3 : ∀ a, With D s2 a → a < s3.next := fun a h => by
    rcases h with h | h | h
    · have := hD a h; omega
    · omega
    · omega
  have hD4 : ∀ a, With D s2 a → a < s4.next := fun a h => Nat.lt_of_lt_of_le (hD3 a h) h2.1
  obtain ⟨e5, n5, q5, c1, c2, c3, c4⟩ := alloc_same hD4 h3
  have hD5 : ∀ a, With (With D s2) s4 a → a < s5.next := fun a h => by
    rcases h with h | h | h
    · have := hD4 a h; omega
    · omega
    · omega
  obtain ⟨e6, n6, q6, d1, d2, d3, d4⟩ := alloc_same hD5 h4
  have b1 : Bound (With D s2) s3 env1 it i base := by
    obtain ⟨e1, _, _, f1, f2, f3, f4⟩ := alloc_same hD h1
    exact ⟨s2.next + 1, s2.next, e1, .inr (.inr rfl), .inr (.inl rfl), f1, f2, f3, f4⟩
  have q36 : Same (With D s2) s3 s6 := (h2.trans q5).trans (q6.weak fun _ h => .inl h)
  have B1 := q36.bound b1
  have B0 : Bound D s6 base (.sym I.loop) clo env := (q3.trans (q36.weak fun _ h => .inl h)).bound hb
  have B2 : Bound (With (With D s2) s4) s6 env2 (.sym I.res) w env1 :=
    q6.bound ⟨s4.next + 1, s4.next, e5, .inr (.inr rfl), .inr (.inl rfl), c1, c2, c3, c4⟩
  have B3 : Bound (Old s6) s6 env3 (.sym I.brk) brk env2 := ⟨s5.next + 1, s5.next, e6, by show _ < s6.next; omega, by show _ < s6.next; omega, d1, d2, d3, d4⟩
  have hcp : clo ≠ .placeholder := by intro h; rw [h] at hc; cases hc
  have hkp : brk ≠ .placeholder := by intro h; rw [h] at hk; cases hk
  obtain ⟨_, _, _, _, _, i1, i2, _, _, i5, _⟩ := hI
  have hs : ∀ {x y : Nat}, x ≠ y → (V.sym x) ≠ .sym y := fun h e => h (V.sym.inj e)
  obtain ⟨m, hm⟩ : ∃ m, s6.next = m + 4 := ⟨s6.next - 4, by omega⟩
  unfold Named
  rw [hm]
  refine ⟨⟨?_, ?_, ?_⟩, ?_⟩
  · rw [B3.there (hs i5.symm), B2.there (hs i1), B1.there hit.1, B0.here hcp]
  · rw [B3.there (hs i2.symm), B2.here hw]
  · rw [B3.here hkp]
  · rw [B3.there hit.2.2.symm, B2.there hit.2.1.symm, B1.here hi]

/-- `(loopfor it start cond update body)`: the machine on the expansion evaluates `start` in the environment of the loop, and then comes to the start of each iteration, always with the stack of the
loop (`test` is the code of an iteration). When the condition is nil, the value of the loop is the value of the body in the last iteration, or nil. Partial: an iteration whose parts jump or
end in an error is described only up to its start, and by `C101_break_partial`. -/
theorem C101_for_partial {P : Prims} {I : Ids} {D : Nat → Prop} {s : St} {x env it start cond update body : V} (hI : I.Ok) (hD : ∀ a, D a → a < s.next)
    (hx : IsTm D s x (forTm I it start cond update body)) (K : List W) (r : V) (fl : Nat) (prog : V) (ht : flagTrap fl = false) (hc : flagConst fl = false) :
    ∃ D0 s1 base clo brk env1 test, Started I D D0 K env s s1 base clo brk env1 ∧
      ∀ s2 s3 s4 s5 i e1 e2 env0, Ev P false s1 none (.exp env1 start) s2 none (.ok i) → Same D0 s1 s2 → allocBinding s2 it i base = (s3, e1) →
        allocBinding s3 (.sym I.res) .nil e1 = (s4, e2) → allocBinding s4 (.sym I.brk) brk e2 = (s5, env0) →
        ∀ s6 env6 w, Many (ForOnce P I D0 base clo brk it cond update body) s5 env0 .nil s6 env6 w →
        (∃ n r', steps none P n (.next ⟨K, r, x, env, false, fl, prog, s⟩) = .next ⟨K, r', test, env6, false, fl, prog, s6⟩) ∧
        ∀ s', Ends P I D0 clo brk cond s6 env6 w s' →
          ∃ n x' en, steps none P n (.next ⟨K, r, x, env, false, fl, prog, s⟩) = .next ⟨K, w, x', en, true, fl, prog, s'⟩ := by
  obtain ⟨s1, call, params, test, clo, brk, base, env1, r1, h1, hnx, h2, h3, h4, h5, h6, h7, h8, h9, h10, h11⟩ := enter_steps (P := P) K fl prog hI hD hx r
  let D0 : Nat → Prop := fun a => D a ∨ s.next ≤ a ∧ a < s.next + 14
  have up : ∀ a, New s.next s1 a → D0 a ∧ s1.car a = s1.car a ∧ s1.cdr a = s1.cdr a := fun a h => ⟨.inr ⟨h.1, by have := h.2; omega⟩, rfl, rfl⟩
  have upD : ∀ a, D a → D0 a ∧ s1.car a = s1.car a ∧ s1.cdr a = s1.cdr a := fun a h => ⟨.inl h, rfl, rfl⟩
  have hD0 : ∀ a, D0 a → a < s1.next := fun a h => by
    rcases h with h | h
    · have := hD a h; omega
    · omega
  have B1 : Bound D0 s1 env1 (.sym I.k) brk base := h11.mono up
  have B0 : Bound D0 s1 base (.sym I.loop) clo env := h10.mono up
  refine ⟨D0, s1, base, clo, brk, env1, test, ⟨h2, fun _ => Iff.rfl, hnx, h3, h4, h9, B0, B1⟩, ?_⟩
  intro s2 s3 s4 s5 i e1 e2 env0 g1 g2 g3 g4 g5 s6 env6 w hw
  have hL : LoopAt D0 s1 clo [it, .sym I.res, .sym I.brk] test base (.l [sy 0x104, .v cond, .l [sy I.loop, .v update, .v body, sy I.brk], sy I.res]) := by
    refine ⟨params, Ls.mono up _ _ h8, Ls.mono upD _ _ ?_, IsTm.mono upD _ _ h7⟩
    obtain ⟨vs, hv1, hv2⟩ := tms_ls _ _ h6
    match vs, hv2 with
    | [a, b, d], hv2 =>
      simp only [AllTm, IsTm] at hv2
      rwa [hv2.1, hv2.2.1, hv2.2.2.1] at hv1
  have hclo : clo.isCons = true := by
    obtain ⟨a, rfl, _⟩ := h8
    rfl
  have hcp : clo ≠ .placeholder := by intro h; rw [h] at hclo; cases hclo
  have hkp : brk ≠ .placeholder := by intro h; have := IsCont.isCons h9; rw [h] at this; cases this
  have hs : ∀ {x y : Nat}, x ≠ y → (V.sym x) ≠ .sym y := fun h e => h (V.sym.inj e)
  obtain ⟨_, i2, _, i4, _, _, _, _, _, _, i6, _⟩ := id hI
  obtain ⟨m, hm⟩ : ∃ m, s1.next = m + 1 := ⟨s1.next - 1, by omega⟩
  have hlk : s1.lookup (.sym I.loop) (s1.next + 1) env1 = some (some clo) := by
    rw [hm, B1.there (hs i6.symm), B0.here hcp]
  have hD2 : ∀ a, D0 a → a < s2.next := fun a h => Nat.lt_of_lt_of_le (hD0 a h) g2.1
  obtain ⟨_, n3, q3, _⟩ := alloc_same hD2 g3
  have hD3 : ∀ a, With D0 s2 a → a < s3.next := fun a h => by
    rcases h with h | h | h
    · have := hD2 a h; omega
    · omega
    · omega
  obtain ⟨_, n4, q4, _⟩ := alloc_same hD3 g4
  have hD4 : ∀ a, With (With D0 s2) s3 a → a < s4.next := fun a h => by
    rcases h with h | h | h
    · have := hD3 a h; omega
    · omega
    · omega
  obtain ⟨_, n5, q5, _⟩ := alloc_same hD4 g5
  have q14 : Same D0 s1 s4 := (g2.trans q3).trans (q4.weak fun _ h => .inl h)
  have hlk4 : s4.lookup (.sym I.k) (s4.next + 1) env1 = some (some brk) := (q14.bound B1).here hkp _
  have hb : Binds P env1 D0 s1 base [(it, start), (.sym I.res, .nil), (.sym I.brk, .sym I.k)] s5 env0 :=
    .cons g1 g2 g3 (.cons (.name (by decide)) ⟨Nat.le_refl _, fun _ _ => ⟨rfl, rfl⟩⟩ g4 (.cons (.loc i4 hlk4) ⟨Nat.le_refl _, fun _ _ => ⟨rfl, rfl⟩⟩ g5 .nil))
  obtain ⟨n2, r2, hn2⟩ := loop_call (s := s1) K fl prog ht hc hD0 i2 (IsTm.mono upD _ _ h5) hlk hL (fun vs hv => by
    match vs, hv with
    | [a, b, d], hv => simp only [AllTm, IsTm] at hv; simp [hv.1, hv.2.1, hv.2.2.1]) hb r1
  have q15 : Same D0 s1 s5 := q14.trans (q5.weak fun _ h => .inl (.inl h))
  obtain ⟨⟨n6, r6, hn6⟩, q56⟩ := for_steps K fl prog ht hc hI hw (fun a h => Nat.lt_of_lt_of_le (hD0 a h) q15.1) (q15.loopAt hL) r2
  refine ⟨⟨8 + (n2 + n6), r6, by rw [steps_add, h1, steps_add, hn2, hn6]⟩, fun s' he => ?_⟩
  obtain ⟨_, _, _, hL6⟩ := (q15.trans q56).loopAt hL
  obtain ⟨n7, x', en, hn7⟩ := end_steps K fl prog ht hc hI he hL6 r6
  exact ⟨8 + (n2 + (n6 + n7)), x', en, by rw [steps_add, h1, steps_add, hn2, steps_add, hn6, hn7]⟩

/-- `(loopwhile cond body)`: the machine on the expansion comes to the start of each iteration, always with the stack of the loop. When the condition is nil, the value of the loop is the value of the body in
the last iteration, or nil. Partial as `C101_for_partial`. -/
theorem C101_while_partial {P : Prims} {I : Ids} {D : Nat → Prop} {s : St} {x env cond body : V} (hI : I.Ok) (hD : ∀ a, D a → a < s.next)
    (hx : IsTm D s x (whileTm I cond body)) (K : List W) (r : V) (fl : Nat) (prog : V) (ht : flagTrap fl = false) (hc : flagConst fl = false) :
    ∃ D0 s1 base clo brk env1 test, Started I D D0 K env s s1 base clo brk env1 ∧
      ∀ s2 s3 e1 env0, allocBinding s1 (.sym I.res) .nil base = (s2, e1) → allocBinding s2 (.sym I.brk) brk e1 = (s3, env0) →
        Named I clo .nil brk s3 env0 ∧
        ∀ s6 env6 w, Many (WhileOnce P I D0 base clo brk cond body) s3 env0 .nil s6 env6 w →
        (∃ n r', steps none P n (.next ⟨K, r, x, env, false, fl, prog, s⟩) = .next ⟨K, r', test, env6, false, fl, prog, s6⟩) ∧
        ∀ s', Ends P I D0 clo brk cond s6 env6 w s' →
          ∃ n x' en, steps none P n (.next ⟨K, r, x, env, false, fl, prog, s⟩) = .next ⟨K, w, x', en, true, fl, prog, s'⟩ := by
  obtain ⟨s1, call, params, test, clo, brk, base, env1, r1, h1, hnx, h2, h3, h4, h5, h6, h7, h8, h9, h10, h11⟩ := enter_steps (P := P) K fl prog hI hD hx r
  let D0 : Nat → Prop := fun a => D a ∨ s.next ≤ a ∧ a < s.next + 14
  have up : ∀ a, New s.next s1 a → D0 a ∧ s1.car a = s1.car a ∧ s1.cdr a = s1.cdr a := fun a h => ⟨.inr ⟨h.1, by have := h.2; omega⟩, rfl, rfl⟩
  have upD : ∀ a, D a → D0 a ∧ s1.car a = s1.car a ∧ s1.cdr a = s1.cdr a := fun a h => ⟨.inl h, rfl, rfl⟩
  have hD0 : ∀ a, D0 a → a < s1.next := fun a h => by
    rcases h with h | h
    · have := hD a h; omega
    · omega
  have B1 : Bound D0 s1 env1 (.sym I.k) brk base := h11.mono up
  have B0 : Bound D0 s1 base (.sym I.loop) clo env := h10.mono up
  refine ⟨D0, s1, base, clo, brk, env1, test, ⟨h2, fun _ => Iff.rfl, hnx, h3, h4, h9, B0, B1⟩, ?_⟩
  intro s2 s3 e1 env0 g4 g5
  have hL : LoopAt D0 s1 clo [.sym I.res, .sym I.brk] test base (.l [sy 0x104, .v cond, .l [sy I.loop, .v body, sy I.brk], sy I.res]) := by
    refine ⟨params, Ls.mono up _ _ h8, Ls.mono upD _ _ ?_, IsTm.mono upD _ _ h7⟩
    obtain ⟨vs, hv1, hv2⟩ := tms_ls _ _ h6
    match vs, hv2 with
    | [a, b], hv2 =>
      simp only [AllTm, IsTm] at hv2
      rwa [hv2.1, hv2.2.1] at hv1
  have hclo : clo.isCons = true := by
    obtain ⟨a, rfl, _⟩ := h8
    rfl
  have hcp : clo ≠ .placeholder := by intro h; rw [h] at hclo; cases hclo
  have hkp : brk ≠ .placeholder := by intro h; have := IsCont.isCons h9; rw [h] at this; cases this
  have hs : ∀ {x y : Nat}, x ≠ y → (V.sym x) ≠ .sym y := fun h e => h (V.sym.inj e)
  obtain ⟨_, i2, _, i4, _, j1, j2, _, _, j3, i6, _⟩ := id hI
  obtain ⟨m, hm⟩ : ∃ m, s1.next = m + 1 := ⟨s1.next - 1, by omega⟩
  have hlk : s1.lookup (.sym I.loop) (s1.next + 1) env1 = some (some clo) := by
    rw [hm, B1.there (hs i6.symm), B0.here hcp]
  obtain ⟨e4, n4, q4, c1, c2, c3, c4⟩ := alloc_same hD0 g4
  have hD4 : ∀ a, With D0 s1 a → a < s2.next := fun a h => by
    rcases h with h | h | h
    · have := hD0 a h; omega
    · omega
    · omega
  obtain ⟨e5, n5, q5, d1, d2, d3, d4⟩ := alloc_same hD4 g5
  have hlk4 : s2.lookup (.sym I.k) (s2.next + 1) env1 = some (some brk) := (q4.bound B1).here hkp _
  have hb : Binds P env1 D0 s1 base [(.sym I.res, .nil), (.sym I.brk, .sym I.k)] s3 env0 :=
    .cons (.name (by decide)) ⟨Nat.le_refl _, fun _ _ => ⟨rfl, rfl⟩⟩ g4 (.cons (.loc i4 hlk4) ⟨Nat.le_refl _, fun _ _ => ⟨rfl, rfl⟩⟩ g5 .nil)
  have q15 : Same D0 s1 s3 := q4.trans (q5.weak fun _ h => .inl h)
  refine ⟨?_, fun s6 env6 w hw => ?_⟩
  · have E0 := q15.bound B0
    have E1 : Bound (With D0 s1) s3 e1 (.sym I.res) .nil base := q5.bound ⟨s1.next + 1, s1.next, e4, .inr (.inr rfl), .inr (.inl rfl), c1, c2, c3, c4⟩
    have E2 : Bound (Old s3) s3 env0 (.sym I.brk) brk e1 := ⟨s2.next + 1, s2.next, e5, by show _ < s3.next; omega, by show _ < s3.next; omega, d1, d2, d3, d4⟩
    obtain ⟨m, hm⟩ : ∃ m, s3.next = m + 3 := ⟨s3.next - 3, by omega⟩
    unfold Named
    rw [hm]
    refine ⟨?_, ?_, ?_⟩
    · rw [E2.there (hs j3.symm), E1.there (hs j1), E0.here hcp]
    · rw [E2.there (hs j2.symm), E1.here (by decide)]
    · rw [E2.here hkp]
  · obtain ⟨n2, r2, hn2⟩ := loop_call (s := s1) K fl prog ht hc hD0 i2 (IsTm.mono upD _ _ h5) hlk hL (fun vs hv => by
      match vs, hv with
      | [a, b], hv => simp only [AllTm, IsTm] at hv; simp [hv.1, hv.2.1]) hb r1
    obtain ⟨⟨n6, r6, hn6⟩, q56⟩ := while_steps K fl prog ht hc hI hw (fun a h => Nat.lt_of_lt_of_le (hD0 a h) q15.1) (q15.loopAt hL) r2
    refine ⟨⟨8 + (n2 + n6), r6, by rw [steps_add, h1, steps_add, hn2, hn6]⟩, fun s' he => ?_⟩
    obtain ⟨_, _, _, hL6⟩ := (q15.trans q56).loopAt hL
    obtain ⟨n7, x', en, hn7⟩ := end_steps K fl prog ht hc hI he hL6 r6
    exact ⟨8 + (n2 + (n6 + n7)), x', en, by rw [steps_add, h1, steps_add, hn2, steps_add, hn6, hn7]⟩

/-- `(looprange it start end body)` is `(loopfor it start (< it end) (+ it 1) body)`. -/
theorem C101_range (I : Ids) (D : Nat → Prop) (s : St) (x one it start end_ body : V) : IsTm D s x (rangeTm I one it start end_ body) ↔
    ∃ c u, IsTm D s c (.l [sy 0x20009, .v it, .v end_]) ∧ IsTm D s u (.l [sy 0x20000, .v it, .v one]) ∧ IsTm D s x (forTm I it start c u body) := by
  simp only [rangeTm, forTm, letLoop, IsTm]
  constructor
  · intro h
    simp only [IsTms, IsTm] at h ⊢
    obtain ⟨a, rfl, da, h1, b, hb, db, ⟨c, hc, dc, ⟨d, hd, dd, hk, e, he, de, ⟨f, hf, df, hlam, g, hg, dg, hpar, h, hh, dh,
      ⟨i1, e1, f1, g1, i2, e2, f2, g2, i3, e3, f3, ⟨j1, a1, b1, c1, j2, a2, b2, c2, j3, a3, b3⟩, g4⟩, hhn⟩, hen⟩, hcn⟩, hrest⟩ := h
    exact ⟨s.car i2, s.car j2, g2, c2, a, rfl, da, h1, b, hb, db, ⟨c, hc, dc, ⟨d, hd, dd, hk, e, he, de, ⟨f, hf, df, hlam, g, hg, dg, hpar, h, hh, dh,
      ⟨i1, e1, f1, g1, i2, e2, f2, rfl, i3, e3, f3, ⟨j1, a1, b1, c1, j2, a2, b2, rfl, j3, a3, b3⟩, g4⟩, hhn⟩, hen⟩, hcn⟩, hrest⟩
  · rintro ⟨c, u, hc1, hu1, h⟩
    simp only [IsTms, IsTm] at h hc1 hu1 ⊢
    obtain ⟨a, rfl, da, h1, b, hb, db, ⟨c, hc, dc, ⟨d, hd, dd, hk, e, he, de, ⟨f, hf, df, hlam, g, hg, dg, hpar, h, hh, dh,
      ⟨i1, e1, f1, g1, i2, e2, f2, g2, i3, e3, f3, ⟨j1, a1, b1, c1, j2, a2, b2, c2, j3, a3, b3⟩, g4⟩, hhn⟩, hen⟩, hcn⟩, hrest⟩ := h
    subst g2 c2
    exact ⟨a, rfl, da, h1, b, hb, db, ⟨c, hc, dc, ⟨d, hd, dd, hk, e, he, de, ⟨f, hf, df, hlam, g, hg, dg, hpar, h, hh, dh,
      ⟨i1, e1, f1, g1, i2, e2, f2, hc1, i3, e3, f3, ⟨j1, a1, b1, c1, j2, a2, b2, hu1, j3, a3, b3⟩, g4⟩, hhn⟩, hen⟩, hcn⟩, hrest⟩

/-- `(break e)`, whatever the machine is doing inside of the loop (the stack `K'` is arbitrary): `e` is evaluated in the environment of that expression, and its value is the value of the loop.
Partial: `e` must not jump or end in an error. -/
theorem C101_break_partial {P : Prims} {I : Ids} {D : Nat → Prop} {s s' : St} {x env e v brk : V} {K : List W} {b : Bool} (hI : I.Ok) (hD : ∀ a, D a → a < s.next)
    (hx : IsTm D s x (.l [sy I.brk, .v e])) (hb : s.lookup (.sym I.brk) (s.next + 1) env = some (some brk)) (hk : IsCont s brk K b)
    (hv : Ev P false { s with atomic := b } none (.exp env e) s' none (.ok v)) (K' : List W) (r : V) (fl : Nat) (prog : V) (ht : flagTrap fl = false) (hc : flagConst fl = false) :
    ∃ n x' en, steps none P n (.next ⟨K', r, x, env, false, fl, prog, s⟩) = .next ⟨K, v, x', en, true, fl, prog, s'⟩ := by
  obtain ⟨c, d, rfl, k1, k2, k3⟩ := id hk
  simp only [IsTm, IsTms] at hx
  obtain ⟨a, rfl, da, h1, f, hf, df, h2, h3⟩ := hx
  have hrs : runtimeStart = 0x40000 := rfl
  have hspec : special (.sym I.brk) = none := by
    simp only [special]
    rw [if_neg]
    have := hI.2.2.1
    omega
  have st : steps none P 2 (.next ⟨K', r, .cons a, env, false, fl, prog, s⟩) = .next ⟨.k 10 :: .v (.cons f) :: .v env :: K', .cons c, .sym I.brk, env, true, fl, prog, s⟩ := by
    simp [steps, step, h1, hspec, reserve, M.go, evalSymbol, hI.2.2.1, hb, M.ret, hf]
  obtain ⟨r', hr⟩ := C64_resume_partial (P := P) (aenv := env) (lenv := env) (xr := .sym I.brk) (K2 := K') hk h3 (hD f df) h2 fl prog
  obtain ⟨n, x', en, hn⟩ := C39_value_partial hv K r' fl prog ht hc
  exact ⟨2 + (1 + n), x', en, by rw [steps_add, st, steps_add, hr, hn]⟩

end Verif.LoopExt
