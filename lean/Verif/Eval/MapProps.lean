import Verif.Eval.MapList
import Verif.Eval.Cells

/-!
# Properties: `map`

C88.
-/

namespace Verif.Eval
variable {N : Nat → Prop} {P : Prims}

theorem getLast_cons {α : Type} {u y : α} {vals : List α} (h : vals.getLast? = some y) : (u :: vals).getLast? = some y := by
  cases vals with
  | nil => cases h
  | cons x xs => rw [List.getLast?_cons_cons]; exact h

/-- `map` with more than two arguments has no value. -/
theorem map_extra {s s' : St} {sc sc' : Scope} {t : Task} {r : Res} (h : Ev P false s sc t s' sc' r) :
    (∀ {env rest e w : V} {vals : List V}, t = .sub (.args env vals rest) env e → r = .ok w → vals.getLast? = some (.sym 0x3000D) → 3 ≤ vals.length → False) ∧
    (∀ {env rest u w : V} {vals : List V}, t = .k (.args env vals rest) u → r = .ok w → vals.getLast? = some (.sym 0x3000D) → 3 ≤ vals.length → False) := by
  have key : ∀ {u x : V} {vals args : List V}, (u :: vals).reverse = x :: args → vals.getLast? = some (.sym 0x3000D) → x = .sym 0x3000D ∧ args.length = vals.length := by
    intro u x vals args e hl
    have h1 : (u :: vals).getLast? = some x := by rw [← List.head?_reverse, e]; rfl
    have h2 := congrArg List.length e
    cases vals with
    | nil => cases hl
    | cons y ys =>
      rw [List.getLast?_cons_cons, hl] at h1
      cases h1
      simp at h2
      exact ⟨rfl, by simp; omega⟩
  induction h with
  | sub_ok h1 h2 ih1 ih2 =>
    refine ⟨fun e hr hl hn => ?_, fun e => nomatch e⟩
    cases e
    exact ih2.2 rfl hr hl hn
  | args_more h1 ih =>
    refine ⟨(fun e => nomatch e), fun e hr hl hn => ?_⟩
    cases e
    exact ih.1 rfl hr (getLast_cons hl) (by simp; omega)
  | _ =>
    refine ⟨fun e hr hl hn => ?_, fun e hr hl hn => ?_⟩
    · first | cases e; done | cases hr; done
    · first
      | cases e; done
      | cases hr; done
      | (cases e
         obtain ⟨k1, k2⟩ := key ‹_› hl
         first
         | cases k1; done
         | (cases k1; omega)
         | (simp at k2; omega))

/-- New cells that nothing refers to. -/
theorem Apart.more {s s' : St} (h : Apart N s) (hn : s.next ≤ s'.next) (hg : s'.globals = s.globals) (hk : s'.konts = s.konts)
    (hc : ∀ a, a < s.next → s'.car a = s.car a ∧ s'.cdr a = s.cdr a) : Apart (fun a => N a ∨ (s.next ≤ a ∧ a < s'.next)) s' := by
  have up : ∀ v, Away N s.next v → Away (fun a => N a ∨ (s.next ≤ a ∧ a < s'.next)) s'.next v := by
    intro v hv a e
    have := hv a e
    exact ⟨fun h1 => h1.elim this.1 (fun h2 => by omega), by omega⟩
  refine ⟨fun a ha hna => ?_, fun n => hg ▸ up _ (h.globals n), fun k => hk ▸ fun v hv => up v (h.konts k v hv), fun a ha => ?_⟩
  · have h1 : a < s.next := Classical.byContradiction fun e => hna (.inr ⟨by omega, ha⟩)
    have h2 := h.cells a h1 (fun e => hna (.inl e))
    rw [(hc a h1).1, (hc a h1).2]
    exact ⟨up _ h2.1, up _ h2.2⟩
  · rcases ha with ha | ha
    · have := h.old a ha; omega
    · exact ha.2

theorem Away.more {s s' : St} (hn : s.next ≤ s'.next) {v : V} (hv : Away N s.next v) : Away (fun a => N a ∨ (s.next ≤ a ∧ a < s'.next)) s'.next v := by
  intro a e
  have := hv a e
  exact ⟨fun h1 => h1.elim this.1 (fun h2 => by omega), by omega⟩

theorem callOf_car (s : St) (f x : V) (b : Nat) : (s.callOf f x).1.car b =
    if b = s.next + 3 then f else if b = s.next + 2 then .cons (s.next + 1) else if b = s.next + 1 then .quote else if b = s.next then x else s.car b := rfl

theorem callOf_cdr (s : St) (f x : V) (b : Nat) : (s.callOf f x).1.cdr b =
    if b = s.next + 3 then .cons (s.next + 2) else if b = s.next + 2 then .nil else if b = s.next + 1 then .cons s.next else if b = s.next then .nil else s.cdr b := rfl

theorem callOf_cells (s : St) (f x : V) : CallCells (s.callOf f x).1 f x (s.next + 3) (s.next + 2) (s.next + 1) s.next := by
  refine ⟨?_, ?_, ?_, ?_, ?_, ?_, ?_, ?_⟩ <;> first | rw [callOf_car] | rw [callOf_cdr]
  · rw [if_pos rfl]
  · rw [if_pos rfl]
  · rw [if_neg (by omega), if_pos rfl]
  · rw [if_neg (by omega), if_pos rfl]
  · rw [if_neg (by omega), if_neg (by omega), if_pos rfl]
  · rw [if_neg (by omega), if_neg (by omega), if_pos rfl]
  · rw [if_neg (by omega), if_neg (by omega), if_neg (by omega), if_pos rfl]
  · rw [if_neg (by omega), if_neg (by omega), if_neg (by omega), if_pos rfl]

theorem callOf_old (s : St) (f x : V) {b : Nat} (hb : b < s.next) : (s.callOf f x).1.car b = s.car b ∧ (s.callOf f x).1.cdr b = s.cdr b := by
  rw [callOf_car, callOf_cdr]
  rw [if_neg (by omega), if_neg (by omega), if_neg (by omega), if_neg (by omega), if_neg (by omega), if_neg (by omega), if_neg (by omega), if_neg (by omega)]
  exact ⟨rfl, rfl⟩

/-- `map`, once the function and the list are known. -/
theorem map_start (hP : Local P) {s s2 s5 s' : St} {env f w arg call elt : V} {a : Nat} (hA : Apart N s) (he : Away N s.next env) (hf : Away N s.next f)
    (hl : Away N s.next (.cons a)) (e1 : s.callOf f (s.car a) = (s5, arg, call)) (e2 : s5.cons (.cons a) .nil = (s2, elt))
    (h : Ev P false s2 none (.sub (.map env arg call elt elt (s.cdr a)) env call) s' none (.ok w)) :
    ∃ R vs, Spine s' R w ∧ R.map s'.car = vs ∧ (∀ x ∈ R, s.next ≤ x) ∧ MapRun P env f [] s (.cons a) vs s' := by
  have hx := hA.car hl
  have hr := hA.cdr hl
  have e51 : s5 = (s.callOf f (s.car a)).1 := by rw [e1]
  obtain ⟨a1, a2, a3⟩ := hA.cons hx (away_sym 0)
  obtain ⟨b1, b2, b3⟩ := a1.cons (away_sym 0x100) a2
  obtain ⟨c1, c2, c3⟩ := b1.cons b2 (away_sym 0)
  obtain ⟨d1, d2, d3⟩ := c1.cons (((hf.up a3).up b3).up c3) c2
  have k4 := ((a3.trans b3).trans c3).trans d3
  have e5 : s5.next = s.next + 4 := by cases e1; rfl
  have eg : arg = .cons s.next := by cases e1; rfl
  have ec : call = .cons (s.next + 3) := by cases e1; rfl
  have hs5 : Apart N s5 ∧ Away N s5.next call ∧ Kept N s s5 := by cases e1; exact ⟨d1, d2, k4⟩
  have ez : elt = .cons (s.next + 4) := by
    have : elt = (s5.cons (.cons a) .nil).2 := by rw [e2]
    rw [this]; simp only [St.cons, e5]
  have h2 : s2 = (s5.cons (.cons a) .nil).1 := by rw [e2]
  have e2n : s2.next = s5.next + 1 := by rw [h2]; rfl
  have c2' : ∀ b, b < s5.next → s2.car b = s5.car b ∧ s2.cdr b = s5.cdr b := fun b hb => by
    rw [h2]; simp only [St.cons]; rw [if_neg (by omega), if_neg (by omega)]; exact ⟨rfl, rfl⟩
  have g2 : s2.globals = s.globals ∧ s2.konts = s.konts := by rw [h2]; cases e1; exact ⟨rfl, rfl⟩
  have g5 : s5.globals = s.globals ∧ s5.konts = s.konts := by cases e1; exact ⟨rfl, rfl⟩
  have c5 : ∀ b, b < s.next → s5.car b = s.car b ∧ s5.cdr b = s.cdr b := fun b hb => e51 ▸ callOf_old s f _ hb
  have cells : CallCells s5 f (s.car a) (s.next + 3) (s.next + 2) (s.next + 1) s.next := e51 ▸ callOf_cells s f _
  have cells2 : CallCells s2 f (s.car a) (s.next + 3) (s.next + 2) (s.next + 1) s.next := by
    refine ⟨?_, ?_, ?_, ?_, ?_, ?_, ?_, ?_⟩
    · rw [(c2' _ (by omega)).1, cells.fn]
    · rw [(c2' _ (by omega)).2, cells.args]
    · rw [(c2' _ (by omega)).1, cells.arg]
    · rw [(c2' _ (by omega)).2, cells.nil]
    · rw [(c2' _ (by omega)).1, cells.quote]
    · rw [(c2' _ (by omega)).2, cells.body]
    · rw [(c2' _ (by omega)).1, cells.val]
    · rw [(c2' _ (by omega)).2, cells.nil']
  have hA1 : Apart (fun b => N b ∨ b = s5.next) s2 := hs5.1.grow e2n (by rw [g2.1, g5.1]) (by rw [g2.2, g5.2]) fun b hb hn => by
    rw [(c2' b hb).1, (c2' b hb).2]; exact hs5.1.cells b hb hn
  have hinv : RInv (fun b => N b ∨ b = s5.next) s2 [] (s.next + 4) [] elt := by
    refine ⟨.inr e5.symm, (fun _ h => nomatch h), (fun h => nomatch h), ⟨ez, ?_⟩, rfl⟩
    rw [h2]; simp only [St.cons, e5, if_true]; rfl
  subst ez eg
  have hloop := @(map_loop hP h).1
  obtain ⟨R, vs, k1, k2, k3, k5⟩ := hloop rfl rfl rfl rfl (b := s.next) hinv hA1 (e2n ▸ (he.up hs5.2.2).grow) (e2n ▸ hs5.2.1.grow) (e2n ▸ (hr.up hs5.2.2).grow)
    (by simp) (by omega) (by simp) (by omega)
  refine ⟨R, vs, k1, k2, k3, ?_⟩
  have hle : s.next ≤ s2.next := by omega
  have cc : ∀ b, b < s.next → s2.car b = s.car b ∧ s2.cdr b = s.cdr b := fun b hb =>
    ⟨(c2' b (by omega)).1.trans (c5 b hb).1, (c2' b (by omega)).2.trans (c5 b hb).2⟩
  obtain ⟨s6, v, vs', rfl, h6, h7⟩ := k5 (N2 := fun b => N b ∨ (s.next ≤ b ∧ b < s2.next)) ec cells2
    (hA.more hle g2.1 g2.2 cc) (by simp only [List.mem_cons, List.not_mem_nil, or_false]; intro b hb; right; omega) (by omega)
    (by simp only [List.mem_cons, List.not_mem_nil, or_false]; intro b hb; omega)
    (by
      intro v hv
      simp only [List.mem_cons, List.not_mem_nil, or_false] at hv
      rcases hv with rfl | rfl | rfl | rfl
      · exact he.more hle
      · exact hf.more hle
      · exact hx.more hle
      · exact hr.more hle)
  subst ec
  exact .call (sameView_of hA (fun v hv => by
      simp only [List.mem_cons, List.not_mem_nil, or_false] at hv
      rcases hv with rfl | rfl | rfl
      · exact he
      · exact hf
      · exact hl) (fun b hb _ => cc b hb) g2.1 g2.2) cells2 h6 (fun hf => h7 (by
        rcases hf with hf | hf
        · exact .inl hf
        · exact .inr hf))

/-- Everything that can be reached from the values `vs` and from global variables and captured continuations was allocated. -/
def Closed (s : St) (vs : List V) : Prop := ∀ x, Reaches s (fun v => v ∈ vs ∨ s.shared v) x → x < s.next

theorem Closed.away {s : St} {vs : List V} (h : Closed s vs) :
    ∃ N, Apart N s ∧ ∀ v ∈ vs, Away N s.next v := by
  let root : V → Prop := fun v => v ∈ vs ∨ s.shared v
  have hv : ∀ v, (∀ a, v = .cons a → Reaches s root a) → Away (fun a => a < s.next ∧ ¬ Reaches s root a) s.next v :=
    fun v hr a e => ⟨fun hl => hl.2 (hr a e), h a (hr a e)⟩
  have hroot : ∀ v, root v → Away (fun a => a < s.next ∧ ¬ Reaches s root a) s.next v := fun v hr => hv v fun a e => .root (e ▸ hr)
  refine ⟨_, ⟨fun a ha hn => ?_, fun n => hroot _ (.inr (.inl ⟨n, rfl⟩)), fun k v hk => hroot _ (.inr (.inr ⟨k, hk⟩)), fun a ha => ha.1⟩, fun v hv => hroot v (.inl hv)⟩
  have hra : Reaches s root a := Classical.byContradiction fun hc => hn ⟨ha, hc⟩
  exact ⟨hv _ fun b e => .car hra e, hv _ fun b e => .cdr hra e⟩

theorem load_closed (x : Sx) (hp : x.plain = true) (vs : List V) (hv : ∀ v ∈ vs, v = .nil ∨ v = (load x st0).2) : Closed (load x st0).1 vs := by
  obtain ⟨a1, a2, a3⟩ := load_apart x st0 hp st0_apart
  exact fun a ha => (reaches_away a1 (fun v h => h.elim (fun h => (hv v h).elim (fun e => e ▸ away_sym _) (fun e => e ▸ a2)) (shared_away a1)) ha).2

/-- C88: `(map fe le)`. When it has a value, then the expressions for the function and the list have values `f` and `l`, in this order, and the value of `map` is a
new list of the values of the calls of `f` for the elements of `l`, in order. -/
theorem C88_map (hP : Local P) {s s' : St} {env v : V} {a b c : Nat} (hm : s.car a = .sym 0x3000D) (hb : s.cdr a = .cons b) (hc : s.cdr b = .cons c)
    (hs : Closed s [env, .cons a]) (h : Ev P false s none (.exp env (.cons a)) s' none (.ok v)) :
    ∃ s1 f s2 l R vs, Ev P false s none (.exp env (s.car b)) s1 none (.ok f) ∧ Ev P false s1 none (.exp env (s1.car c)) s2 none (.ok l) ∧
      Spine s' R v ∧ R.map s'.car = vs ∧ (∀ x ∈ R, s2.next ≤ x) ∧ MapRun P env f [] s2 l vs s' := by
  obtain ⟨N, hA, hv⟩ := hs.away
  have he := hv env (by simp)
  have hea := hv (.cons a) (by simp)
  have hn : ∀ n, n < 0x10000 → ¬ s.isForm (.cons a) n := by
    rintro n hn ⟨x, hx, hsy⟩
    cases hx
    rw [hm] at hsy
    cases hsy; omega
  have hfe : Away N s.next (s.car b) := hA.car (hb ▸ hA.cdr hea)
  have hle : Away N s.next (.cons c) := hc ▸ hA.cdr (hb ▸ hA.cdr hea)
  cases h
  all_goals try exact absurd ‹s.isForm _ _› (hn _ (by decide))
  · rename_i h1 h2; cases h2
  · rename_i n h1 h2
    exact absurd h2 (hn _ (by omega))
  rename_i h1 h2
  rw [hb, hm] at h2
  cases h2
  rename_i h3 h4
  obtain ⟨e1, e2⟩ := C39_deterministic_partial h3 (.name (by decide))
  rw [e1, e2] at h4
  cases h4
  rename_i h5
  cases h5
  all_goals try (rename_i h3 _ _; cases h3; done)
  all_goals try (rename_i h3 _ _ _; cases h3; done)
  all_goals try (rename_i h3 _; cases h3; done)
  rename_i h5
  rw [hc] at h5
  cases h5
  rename_i s1 f h6 h7
  cases h7
  all_goals try (rename_i h3 _ _; cases h3; done)
  all_goals try (rename_i h3 _ _ _; cases h3; done)
  all_goals try (rename_i h3 _; cases h3; done)
  rename_i h7
  cases h7
  rename_i s2 l h8 h9
  obtain ⟨a1, a2, a3⟩ := ev_own hP h6 hA hfe he
  obtain ⟨b1, b2, b3⟩ := ev_own hP h8 a1 (a1.car (hle.up a3)) (he.up a3)
  have hl2 : ∀ w args, [l, f, V.sym 0x3000D].reverse = w :: args → w = .sym 0x3000D ∧ args = [f, l] := by
    intro w args e
    simp only [List.reverse_cons, List.reverse_nil, List.nil_append, List.cons_append] at e
    cases e
    exact ⟨rfl, rfl⟩
  refine ⟨s1, f, s2, l, ?_⟩
  generalize s1.cdr c = rest at h9
  cases h9
  case args_more h9 => exact (map_extra h9).1 rfl rfl rfl (by simp) |>.elim
  case map_nil h9 =>
    obtain ⟨-, e⟩ := hl2 _ _ h9
    cases e
    exact ⟨[], [], h6, h8, rfl, rfl, (fun _ h => nomatch h), .done rfl ⟨fun _ _ => ⟨rfl, rfl⟩, rfl, rfl⟩⟩
  case map =>
    obtain ⟨-, e⟩ := hl2 _ _ ‹_›
    cases e
    obtain ⟨R, vs, k⟩ := map_start hP b1 ((he.up a3).up b3) (a2.up b3) b2 ‹_› ‹_› ‹_›
    exact ⟨R, vs, h6, h8, k⟩
  case prim_ok =>
    obtain ⟨e, -⟩ := hl2 _ _ ‹_›
    cases e
    omega
  all_goals
    obtain ⟨e, -⟩ := hl2 _ _ ‹_›
    cases e

theorem P0_local : Local P0 := by
  intro N n args env s h _ _
  simp only [P0]
  split
  · exact ⟨h, kept_refl _, away_atom _⟩
  · exact ⟨h, kept_refl _, away_sym _⟩

/-! Example: `(map (lambda (x) (+ x 1)) '(3 4))` has the value `(4 5)`. -/
example : ∃ s' v, Ev P0 false (load demoMap st0).1 none (.exp .nil (load demoMap st0).2) s' none (.ok v) ∧ Closed (load demoMap st0).1 [.nil, (load demoMap st0).2] ∧
    ∃ a b c, (load demoMap st0).2 = .cons a ∧ (load demoMap st0).1.car a = .sym 0x3000D ∧ (load demoMap st0).1.cdr a = .cons b ∧ (load demoMap st0).1.cdr b = .cons c := by
  obtain ⟨s', sc', h⟩ : HasValue false demoMap (.cons 22) := hasValue (by decide +kernel)
  cases h.none_scope
  refine ⟨s', _, h, load_closed _ (by decide) _ ?_, 13, 12, 11, by decide +kernel⟩
  intro v hv
  simp only [List.mem_cons, List.not_mem_nil, or_false] at hv
  rcases hv with rfl | rfl
  · exact .inl rfl
  · exact .inr rfl
example : (steps none P0 100 (boot 0 demoMap)).pairResult = some (.atom 4, .atom 5) := by decide +kernel

/-- `(map 'quote '(3 4))` -/
def demoMapQuote : Sx := .l [.s 0x3000D, .l [.s 0x100, .s 0x100], .l [.s 0x100, .l [.n 3, .n 4]]]

/-- A cell at the end. -/
def Out.cellAt (a : Nat) : Out → Option (V × V)
  | .fin s _ _ => some (s.car a, s.cdr a)
  | _ => none

/-- C88 does not hold for things that can be applied but are not functions: in `(map 'quote '(3 4))` both elements of the result are the same cell, `(quote 4)`,
although the value of `(quote (quote 3))` is `(quote 3)`. -/
theorem C88_quote_violated : ∃ q g, (steps none P0 200 (boot 0 demoMapQuote)).pairResult = some (.cons q, .cons q) ∧
    (steps none P0 200 (boot 0 demoMapQuote)).cellAt q = some (.quote, .cons g) ∧ (steps none P0 200 (boot 0 demoMapQuote)).cellAt g = some (.atom 4, .nil) :=
  ⟨10, 9, by decide +kernel, by decide +kernel, by decide +kernel⟩

end Verif.Eval
