import Verif.QQ.Props
import Verif.Eval.Cells
import Verif.Eval.Props

/-!
# The evaluator builds the template: C44

`Verif.QQ.Props` is about any way to evaluate expressions that has four laws. Here the code is evaluated by the evaluator (`Verif.Eval`), in the store in which the reader left it.

The unquoted expressions are those without effects: their evaluation gives a new value, but changes nothing that was there before (`Pure`). Values are compared as trees.
-/

namespace Verif.QQ

open Verif.Eval (V W St Ev Prims PRes Res Task Frame cellRes cellList cellPrims)

/-- The value `x` in the store `s` is the tree `t`. -/
def Is (s : St) (x : V) (t : T) : Prop := ∃ F, Rep s x t F ∧ ∀ i, i ∈ F → i < s.next

/-- In `s'` all that was in `s` is as before, except for the cells `F`. -/
structure Keeps (F : List Nat) (s s' : St) : Prop where
  next : s.next ≤ s'.next
  cells : ∀ i, i < s.next → i ∉ F → s'.car i = s.car i ∧ s'.cdr i = s.cdr i
  globals : s'.globals = s.globals
  atomic : s'.atomic = s.atomic
  konts : s'.konts = s.konts
  nk : s'.nk = s.nk

/-- `s'` is `s` with new cells. -/
abbrev Adds (s s' : St) : Prop := Keeps [] s s'

/-- In the environment `env`, wherever the expression `e` is in a store that agrees with `s0` except for the cells `F`, its value is `v`, and evaluation only adds cells. -/
def Pure (P : Prims) (env : V) (F : List Nat) (s0 : St) (e v : T) : Prop :=
  ∀ s x, Keeps F s0 s → Is s x e → ∃ s' r, Ev P false s none (.exp env x) s' none (.ok r) ∧ Adds s s' ∧ Is s' r v

/-! ## Functions -/

/-- `lbm_index_list`, `src/heap.c:1177-1196`, for an index that is not negative. -/
def cellIndex (s : St) : Nat → V → V
  | 0, v => s.hd v
  | n + 1, .cons a => cellIndex s n (s.cdr a)
  | _ + 1, _ => .nil

/-- The inner loop of `fundamental_append`, `src/fundamental.c:717-719`: `j` elements are left. -/
def appendLoop (curr : V) : Nat → St → V → St × V
  | 0, s, res => (s, res)
  | j + 1, s, res => appendLoop curr j (s.cons (cellIndex s j curr) res).1 (s.cons (cellIndex s j curr) res).2

/-- The outer loop of `fundamental_append`, `src/fundamental.c:706-721`, for the arguments before the last one, last first. `none`: a list without an end; `some (_, none)`: a type error. -/
def appendArgs : List V → St → V → Option (St × Option V)
  | [], s, res => some (s, some res)
  | curr :: l, s, res =>
    if curr.isCons || decide (curr = .nil) then
      match s.len (s.next + 1) curr with
      | none => none
      | some n => appendArgs l (appendLoop curr n s res).1 (appendLoop curr n s res).2
    else some (s, none)

/-- `fundamental_append`, `src/fundamental.c:699-724`. There is always a free cell, see `Prims`. A list without an end, for which the code loops, is an error here. -/
def cellAppend (s : St) (args : List V) : PRes :=
  match args.reverse with
  | [] => .ok s .nil
  | [x] => if x.isCons || decide (x = .nil) then cellRes s x else .err s .terror
  | x :: l =>
    match appendArgs l s x with
    | none => .err s .eerror
    | some (s1, none) => .err s1 .terror
    | some (s1, some v) => cellRes s1 v

/-- The functions of `cellPrims` and `append`. -/
def qqPrims : Prims where
  run n args env s := if n = 0x20015 then cellAppend s args else cellPrims.run n args env s
  eq := cellPrims.eq

/-- The values are the trees. -/
inductive AllIs (s : St) : List V → List T → Prop
  | nil : AllIs s [] []
  | cons {r v rs vs} : Is s r v → AllIs s rs vs → AllIs s (r :: rs) (v :: vs)

/-- `list` and `append` build new lists. -/
structure Builders (P : Prims) : Prop where
  list : ∀ {s env rs vs}, AllIs s rs vs → ∃ s' w, P.run 0x20014 rs env s = .ok s' w ∧ Adds s s' ∧ Is s' w (T.ofList vs)
  append : ∀ {s env rs vs v}, AllIs s rs vs → Appended vs v → v.fine → ∃ s' w, P.run 0x20015 rs env s = .ok s' w ∧ Adds s s' ∧ Is s' w v

/-! ## Lemmas -/

theorem Keeps.refl (F : List Nat) (s : St) : Keeps F s s := ⟨Nat.le_refl _, fun _ _ _ => ⟨rfl, rfl⟩, rfl, rfl, rfl, rfl⟩

theorem Keeps.trans {F : List Nat} {s s1 s2 : St} (h : Keeps F s s1) (g : Adds s1 s2) : Keeps F s s2 where
  next := Nat.le_trans h.next g.next
  cells := fun i hi hf => by
    obtain ⟨a, b⟩ := h.cells i hi hf
    obtain ⟨c, d⟩ := g.cells i (Nat.lt_of_lt_of_le hi h.next) (by simp)
    exact ⟨c.trans a, d.trans b⟩
  globals := g.globals.trans h.globals
  atomic := g.atomic.trans h.atomic
  konts := g.konts.trans h.konts
  nk := g.nk.trans h.nk

theorem adds_cons (s : St) (a d : V) : Adds s (s.cons a d).1 where
  next := by simp [St.cons]
  cells := fun i hi _ => by simp [St.cons, Nat.ne_of_lt hi]
  globals := rfl
  atomic := rfl
  konts := rfl
  nk := rfl

theorem rep_adds {s s' : St} (h : Adds s s') {x : V} {t : T} {F : List Nat} (hr : Rep s x t F) (hF : ∀ i, i ∈ F → i < s.next) : Rep s' x t F := by
  induction hr with
  | leaf h => exact .leaf h
  | @cons a t1 t2 F1 F2 h1 h2 ih1 ih2 =>
    obtain ⟨e1, e2⟩ := h.cells a (hF a (by simp)) (by simp)
    have i1 := ih1 fun i hi => hF i (by simp [hi])
    have i2 := ih2 fun i hi => hF i (by simp [hi])
    rw [← e1] at i1
    rw [← e2] at i2
    exact .cons i1 i2

theorem Is.adds {s s' : St} {x : V} {t : T} (h : Is s x t) (g : Adds s s') : Is s' x t := by
  obtain ⟨F, h1, h2⟩ := h
  exact ⟨F, rep_adds g h1 h2, fun i hi => Nat.lt_of_lt_of_le (h2 i hi) g.next⟩

theorem is_leaf {s : St} {x v : V} : Is s x (.leaf v) → x = v := by
  rintro ⟨F, h, _⟩
  cases h; rfl

theorem is_leaf_of {s : St} {v : V} (h : ∀ a, v ≠ .cons a) : Is s v (.leaf v) := ⟨[], .leaf h, by simp⟩

theorem is_cons {s : St} {x : V} {a d : T} : Is s x (.cons a d) → ∃ p, x = .cons p ∧ p < s.next ∧ Is s (s.car p) a ∧ Is s (s.cdr p) d := by
  rintro ⟨F, h, hF⟩
  cases h with
  | @cons p _ _ F1 F2 h1 h2 => exact ⟨p, rfl, hF p (by simp), ⟨F1, h1, fun i hi => hF i (by simp [hi])⟩, ⟨F2, h2, fun i hi => hF i (by simp [hi])⟩⟩

theorem is_mk {s : St} {x y : V} {a d : T} (h1 : Is s x a) (h2 : Is s y d) : Is (s.cons x y).1 (s.cons x y).2 (.cons a d) := by
  obtain ⟨F1, r1, b1⟩ := h1.adds (adds_cons s x y)
  obtain ⟨F2, r2, b2⟩ := h2.adds (adds_cons s x y)
  refine ⟨s.next :: (F1 ++ F2), .cons (a := s.next) ?_ ?_, ?_⟩
  · simpa [St.cons] using r1
  · simpa [St.cons] using r2
  · intro i hi
    simp only [List.mem_cons, List.mem_append] at hi
    rcases hi with rfl | hi | hi
    · simp [St.cons]
    · exact b1 i hi
    · exact b2 i hi

theorem AllIs.adds {s s' : St} {rs : List V} {vs : List T} (h : AllIs s rs vs) (g : Adds s s') : AllIs s' rs vs := by
  induction h with
  | nil => exact .nil
  | cons h _ ih => exact .cons (h.adds g) ih

/-! ## The functions build new lists -/

theorem cellRes_fine {s : St} {x : V} {v : T} (h : Is s x v) (hv : v.fine) : cellRes s x = .ok s x := by
  unfold cellRes
  split
  · rename_i n
    have : v = .sym n := by
      obtain ⟨F, h, _⟩ := h
      cases h; rfl
    have := hv n this
    rw [if_neg (by omega)]
  · rfl

theorem onto_fine {xs : List T} {v : T} (h : v.fine) : (T.onto xs v).fine := by
  cases xs with
  | nil => exact h
  | cons => exact fun _ h => by cases h

theorem cellList_is {s : St} {rs : List V} {vs : List T} (h : AllIs s rs vs) : Adds s (cellList s rs).1 ∧ Is (cellList s rs).1 (cellList s rs).2 (T.ofList vs) := by
  induction h with
  | nil => exact ⟨.refl _ _, is_leaf_of fun _ h => by cases h⟩
  | cons h _ ih => exact ⟨ih.1.trans (adds_cons _ _ _), is_mk (h.adds ih.1) ih.2⟩

theorem cellIndex_is {s : St} {y : V} {x : T} : ∀ {xs : List T} {curr : V} {j : Nat}, Is s curr (T.onto xs (.leaf y)) → xs[j]? = some x → Is s (cellIndex s j curr) x
  | [], _, _, _, h => by simp at h
  | z :: xs, curr, 0, hc, h => by
    obtain ⟨p, rfl, _, h1, _⟩ := is_cons hc
    simp at h; subst h
    exact h1
  | z :: xs, curr, j + 1, hc, h => by
    obtain ⟨p, rfl, _, _, h2⟩ := is_cons hc
    exact cellIndex_is (xs := xs) (curr := s.cdr p) (j := j) h2 (by simpa using h)

theorem appendLoop_is {y : V} {xs : List T} {curr : V} : ∀ (j : Nat) {s : St} {res : V} {v : T}, j ≤ xs.length → Is s curr (T.onto xs (.leaf y)) → Is s res v →
    Adds s (appendLoop curr j s res).1 ∧ Is (appendLoop curr j s res).1 (appendLoop curr j s res).2 (T.onto (xs.take j) v)
  | 0, s, res, v, _, _, hr => ⟨.refl _ _, by simpa [T.onto, appendLoop] using hr⟩
  | j + 1, s, res, v, hj, hc, hr => by
    have hx : xs[j]? = some xs[j] := List.getElem?_eq_getElem (by omega)
    have h1 := is_mk (cellIndex_is hc hx) hr
    have ha := adds_cons s (cellIndex s j curr) res
    obtain ⟨h2, h3⟩ := appendLoop_is j (by omega) (hc.adds ha) h1
    refine ⟨ha.trans h2, ?_⟩
    rw [List.take_add_one, hx, onto_append]
    exact h3

theorem len_rep {s : St} {x : V} {t : T} {F : List Nat} (h : Rep s x t F) : ∀ {xs y}, t = T.onto xs (.leaf y) → ∀ f, xs.length < f → s.len f x = some xs.length := by
  induction h with
  | @leaf v h =>
    intro xs y e f hf
    cases xs with
    | nil =>
      cases f with
      | zero => omega
      | succ f => cases v <;> simp [St.len] at h ⊢
    | cons => cases e
  | @cons a t1 t2 F1 F2 h1 h2 ih1 ih2 =>
    intro xs y e f hf
    cases xs with
    | nil => cases e
    | cons z xs =>
      cases e
      cases f with
      | zero => omega
      | succ f => simp [St.len, ih2 rfl f (by simpa using hf)]

theorem rep_unique {s : St} {x : V} {t t' : T} {F F' : List Nat} (h : Rep s x t F) (g : Rep s x t' F') : t = t' := by
  induction h generalizing t' F' with
  | leaf h =>
    cases g with
    | leaf => rfl
    | cons => exact absurd rfl (h _)
  | cons h1 h2 ih1 ih2 =>
    cases g with
    | leaf g => exact absurd rfl (g _)
    | cons g1 g2 => rw [ih1 g1, ih2 g2]

theorem is_unique {s : St} {x : V} {t t' : T} (h : Is s x t) (g : Is s x t') : t = t' := by
  obtain ⟨_, h, _⟩ := h
  obtain ⟨_, g, _⟩ := g
  exact rep_unique h g

/-- The cells of a list. -/
theorem spine {s : St} {y : V} : ∀ {xs : List T} {x : V}, Is s x (T.onto xs (.leaf y)) → ∃ sp : List Nat, sp.length = xs.length ∧ sp.Nodup ∧ (∀ q, q ∈ sp → q < s.next) ∧
    ∀ q, q ∈ sp → ∃ zs : List T, zs.length ≤ xs.length ∧ Is s (.cons q) (T.onto zs (.leaf y))
  | [], _, _ => ⟨[], rfl, by simp, by simp, by simp⟩
  | z :: xs, x, h => by
    obtain ⟨p, rfl, hp, h1, h2⟩ := is_cons h
    obtain ⟨sp, e1, e2, e3, e4⟩ := spine (xs := xs) h2
    refine ⟨p :: sp, by simp [e1], List.nodup_cons.2 ⟨fun hm => ?_, e2⟩, ?_, ?_⟩
    · obtain ⟨zs, l1, l2⟩ := e4 p hm
      have := onto_inj (is_unique h l2)
      rw [← this] at l1
      simp at l1
      omega
    · intro q hq
      rcases List.mem_cons.1 hq with rfl | hq
      · exact hp
      · exact e3 q hq
    · intro q hq
      rcases List.mem_cons.1 hq with rfl | hq
      · exact ⟨z :: xs, Nat.le_refl _, h⟩
      · obtain ⟨zs, l1, l2⟩ := e4 q hq
        exact ⟨zs, by simp; omega, l2⟩

theorem len_is {s : St} {x y : V} {xs : List T} (h : Is s x (T.onto xs (.leaf y))) : s.len (s.next + 1) x = some xs.length := by
  obtain ⟨sp, e1, e2, e3, _⟩ := spine h
  obtain ⟨F, h, _⟩ := h
  refine len_rep h rfl _ ?_
  have := nodup_len e2 e3
  omega

/-- A list whose elements are given is accepted as such. -/
theorem elems_is {s : St} {x : V} {t : T} {xs : List T} (h : Is s x t) (he : Elems t xs) : (x.isCons || decide (x = .nil)) = true ∧ ∃ y, t = T.onto xs (.leaf y) := by
  rcases he with ⟨rfl, rfl⟩ | ⟨hx, y, rfl⟩
  · rw [is_leaf h]
    exact ⟨rfl, _, rfl⟩
  · cases xs with
    | nil => exact absurd rfl hx
    | cons z xs =>
      obtain ⟨p, rfl, _⟩ := is_cons h
      exact ⟨rfl, y, rfl⟩

/-- The trees in front of the last one, in the order of the arguments. -/
theorem appendArgs_is : ∀ {l : List V} {s : St} {res : V} {ts : List T} {w v : T}, AllIs s l ts → Is s res w → Joined (ts.reverse ++ [w]) v →
    ∃ s' x, appendArgs l s res = some (s', some x) ∧ Adds s s' ∧ Is s' x v
  | [], s, res, ts, w, v, hl, hr, hj => by
    cases hl
    cases hj with
    | last => exact ⟨s, res, rfl, .refl _ _, hr⟩
  | curr :: l, s, res, ts, w, v, hl, hr, hj => by
    cases hl with
    | @cons _ u _ us h1 h2 =>
      obtain ⟨xs, he, hj'⟩ : ∃ xs, Elems u xs ∧ Joined (us.reverse ++ [T.onto xs w]) v := by
        have gen : ∀ (us : List T) (v : T), Joined (us ++ [u, w]) v → ∃ xs, Elems u xs ∧ Joined (us ++ [T.onto xs w]) v := by
          intro us
          induction us with
          | nil =>
            intro v h
            cases h with
            | more h1 h2 =>
              cases h2
              exact ⟨_, h1, .last⟩
          | cons z us ih =>
            intro v h
            obtain ⟨y, ys, hy⟩ : ∃ y ys, us ++ [u, w] = y :: ys := by cases us <;> simp
            rw [List.cons_append, hy] at h
            cases h with
            | @more _ zs _ _ v' h1 h2 =>
              rw [← hy] at h2
              obtain ⟨xs, g1, g2⟩ := ih v' h2
              refine ⟨xs, g1, ?_⟩
              obtain ⟨y', ys', hy'⟩ : ∃ y ys, us ++ [T.onto xs w] = y :: ys := by cases us <;> simp
              rw [List.cons_append, hy']
              rw [hy'] at g2
              exact .more h1 g2
        exact gen us.reverse v (by simpa using hj)
      obtain ⟨hc, y, rfl⟩ := elems_is h1 he
      obtain ⟨a1, a2⟩ := appendLoop_is xs.length (Nat.le_refl _) h1 hr
      rw [List.take_length] at a2
      obtain ⟨s', x, b1, b2, b3⟩ := appendArgs_is (l := l) (h2.adds a1) a2 hj'
      refine ⟨s', x, ?_, a1.trans b2, b3⟩
      rw [appendArgs, if_pos hc, len_is h1]
      exact b1

theorem AllIs.append {s : St} {rs rs' : List V} {vs vs' : List T} (h : AllIs s rs vs) (g : AllIs s rs' vs') : AllIs s (rs ++ rs') (vs ++ vs') := by
  induction h with
  | nil => exact g
  | cons h _ ih => exact .cons h ih

theorem AllIs.reverse {s : St} {rs : List V} {vs : List T} (h : AllIs s rs vs) : AllIs s rs.reverse vs.reverse := by
  induction h with
  | nil => exact .nil
  | cons h _ ih => simpa using ih.append (.cons h .nil)

theorem cellAppend_is {s : St} {rs : List V} {vs : List T} {v : T} (h : AllIs s rs vs) (ha : Appended vs v) (hv : v.fine) :
    ∃ s' w, cellAppend s rs = .ok s' w ∧ Adds s s' ∧ Is s' w v := by
  rcases ha with ⟨rfl, rfl⟩ | ⟨xs, rfl, he⟩ | ⟨hl, hj⟩
  · cases h
    exact ⟨s, .nil, rfl, .refl _ _, is_leaf_of fun _ h => by cases h⟩
  · cases h with
    | cons h1 h2 =>
      cases h2
      refine ⟨s, _, ?_, .refl _ _, h1⟩
      simp only [cellAppend, List.reverse_cons, List.reverse_nil, List.nil_append, (elems_is h1 he).1, if_true]
      exact cellRes_fine h1 hv
  · have hr := h.reverse
    unfold cellAppend
    generalize hw : vs.reverse = ws at hr
    have hlen : 2 ≤ ws.length := by rw [← hw]; simpa using hl
    obtain rfl : vs = ws.reverse := by rw [← hw]; simp
    clear h hw hl
    generalize rs.reverse = rs' at hr
    cases hr with
    | nil => simp at hlen
    | @cons x w l ts h1 h2 =>
      cases h2 with
      | nil => simp at hlen
      | @cons y u l ts h3 h4 =>
        obtain ⟨s', z, b1, b2, b3⟩ := appendArgs_is (.cons h3 h4) h1 (v := v) (by simpa using hj)
        refine ⟨s', z, ?_, b2, b3⟩
        simp only [b1]
        exact cellRes_fine b3 hv

theorem qqPrims_build : Builders qqPrims where
  list := fun {s env rs vs} h => by
    obtain ⟨h1, h2⟩ := cellList_is h
    refine ⟨_, _, ?_, h1, h2⟩
    have : qqPrims.run 0x20014 rs env s = cellRes (cellList s rs).1 (cellList s rs).2 := by rfl
    rw [this]
    refine cellRes_fine h2 ?_
    cases vs with
    | nil => intro n hn; cases hn; decide
    | cons => exact fun _ h => by cases h
  append := fun h ha hv => cellAppend_is h ha hv

/-! ## Evaluation -/

/-- Expressions: `quote`, symbols below 0xFFFF, `list`, `append`, and others whose values are given by `B`. -/
inductive Val (B : T → T → Prop) : Unit → T → Unit → T → Prop
  | quote {x r} : Val B () (.cons .quote (.cons x r)) () x
  | self {n} : n < 0xFFFF → Val B () (.sym n) () (.sym n)
  | list {es vs} : Args (Val B) () es () vs → Val B () (.cons .list (T.ofList es)) () (T.ofList vs)
  | append {es vs v} : Args (Val B) () es () vs → Appended vs v → v.fine → Val B () (.cons .append (T.ofList es)) () v
  | base {e v} : (∀ n, e = .sym n → ¬ n < 0xFFFF) → (∀ x, e ≠ .cons .quote x ∧ e ≠ .cons .append x) → B e v → Val B () e () v

theorem val_laws (B : T → T → Prop) : Laws (Val B) where
  quote := by
    intro s x rest s' v
    constructor
    · intro h
      cases h with
      | quote => exact ⟨rfl, rfl⟩
      | base _ h _ => exact absurd rfl (h _).1
    · rintro ⟨rfl, rfl⟩; exact .quote
  self := by
    intro s n s' v hn
    constructor
    · intro h
      cases h with
      | self => exact ⟨rfl, rfl⟩
      | base h _ _ => exact absurd hn (h _ rfl)
    · rintro ⟨rfl, rfl⟩; exact .self hn
  list := fun h => .list h
  append := by
    intro s x s' v
    constructor
    · intro h
      generalize he : T.cons .append x = e at h
      cases h with
      | quote => cases he
      | self => cases he
      | list => cases he
      | append h1 h2 h3 => cases he; exact ⟨_, _, rfl, h1, h2, h3⟩
      | base _ h _ => exact absurd he.symm (h _).2
    · rintro ⟨es, vs, rfl, h2, h3, h4⟩; exact .append h2 h3 h4

variable {P : Prims} {env : V} {F : List Nat} {s0 : St}

/-- Arguments are evaluated in order, then the function is called. -/
theorem args_ev {n : Nat} (hn : n / 0x10000 = 1 ∨ n / 0x10000 = 2) : ∀ {es vs : List T} {v : T}, Args (fun _ e _ v => Pure P env F s0 e v) () es () vs →
    ∀ {s : St} {rest f : V} {vals pre : List V}, (f :: vals).reverse = .sym n :: pre → Keeps F s0 s → Is s rest (T.ofList es) →
    (∀ s' rs, Adds s s' → AllIs s' rs vs → ∃ s'' w, P.run n (pre ++ rs) env s' = .ok s'' w ∧ Adds s' s'' ∧ Is s'' w v) →
    ∃ s' r, Ev P false s none (.k (.args env vals rest) f) s' none (.ok r) ∧ Adds s s' ∧ Is s' r v := by
  intro es
  induction es with
  | nil =>
    intro vs v ha s rest f vals pre hf hk hr he
    cases ha
    obtain ⟨s', w, e1, e2, e3⟩ := he s [] (.refl _ _) .nil
    have : rest = .nil := is_leaf hr
    subst this
    exact ⟨s', w, .prim_ok rfl (by simpa using hf) hn (by simpa using e1), e2, e3⟩
  | cons e es ih =>
    intro vs v ha s rest f vals pre hf hk hr he
    cases ha with
    | @cons _ _ _ _ _ u us h1 h2 =>
      obtain ⟨p, rfl, _, r1, r2⟩ := is_cons hr
      obtain ⟨s1, x, g1, g2, g3⟩ := h1 s _ hk r1
      obtain ⟨s', r, e1, e2, e3⟩ := ih (v := v) h2 (s := s1) (rest := s.cdr p) (f := x) (vals := f :: vals) (pre := pre ++ [x]) (by rw [List.reverse_cons, hf]; rfl) (hk.trans g2)
        (r2.adds g2) (fun s2 rs a1 a2 => by
          obtain ⟨s3, w, b1, b2, b3⟩ := he s2 (x :: rs) (g2.trans a1) (.cons (g3.adds a1) a2)
          exact ⟨s3, w, by simpa using b1, b2, b3⟩)
      exact ⟨s', r, .args_more (.sub_ok g1 e1), g2.trans e2, e3⟩

/-- A call of a built-in function. -/
theorem call_ev {n : Nat} (hn : n / 0x10000 = 2) {es vs : List T} {v : T} (ha : Args (fun _ e _ v => Pure P env F s0 e v) () es () vs)
    (hp : ∀ s rs, AllIs s rs vs → ∃ s' w, P.run n rs env s = .ok s' w ∧ Adds s s' ∧ Is s' w v) : Pure P env F s0 (.cons (.sym n) (T.ofList es)) v := by
  intro s x hk hx
  obtain ⟨p, rfl, _, h1, h2⟩ := is_cons hx
  have h1 : s.car p = .sym n := is_leaf h1
  obtain ⟨s', r, e1, e2, e3⟩ := args_ev (.inr hn) ha (f := .sym n) (vals := []) (pre := []) rfl hk h2 (fun s' rs _ h => by simpa using hp s' rs h)
  refine ⟨s', r, .app ?_ (.sub_ok (s1 := s) (v := .sym n) ?_ (.start_sym e1)), e2, e3⟩
  · rw [h1]
    simp only [Verif.Eval.special]
    rw [if_neg (by omega)]
  · rw [h1]
    exact .name (by simp only [Verif.Eval.runtimeStart]; omega)

/-- Expressions built from `list`, `append` and `quote` have no effects if their parts have none. -/
theorem val_pure (hP : Builders P) {e v : T} (h : Val (Pure P env F s0) () e () v) : Pure P env F s0 e v := by
  refine Val.rec (motive_1 := fun _ e _ v _ => Pure P env F s0 e v) (motive_2 := fun _ es _ vs _ => Args (fun _ e _ v => Pure P env F s0 e v) () es () vs)
    ?_ ?_ ?_ ?_ ?_ ?_ ?_ h
  · intro y r s x hk hx
    obtain ⟨p, rfl, _, h1, h2⟩ := is_cons hx
    obtain ⟨q, e, _, h3, _⟩ := is_cons h2
    exact ⟨s, s.car q, .quote ⟨p, rfl, is_leaf h1⟩ (by simp [St.gcadr, e]), .refl _ _, h3⟩
  · intro n hn s x hk hx
    rw [is_leaf hx]
    exact ⟨s, .sym n, .name (by simp only [Verif.Eval.runtimeStart]; omega), .refl _ _, is_leaf_of fun _ h => by cases h⟩
  · intro es vs _ ih
    exact call_ev (by decide) ih (fun s rs h => hP.list h)
  · intro es vs v _ h1 h2 ih
    exact call_ev (by decide) ih (fun s rs h => hP.append h h1 h2)
  · intro e v _ _ h
    exact h
  · exact .nil
  · intro s s1 s2 e es v vs _ _ ih1 ih2
    exact .cons ih1 ih2

/-! ## The continuations of the reader change cells only -/

/-- The parts of a store other than its cells. -/
def Rest (s s' : St) : Prop := s'.globals = s.globals ∧ s'.atomic = s.atomic ∧ s'.konts = s.konts ∧ s'.nk = s.nk

theorem Rest.trans {s s1 s2 : St} (h : Rest s s1) (g : Rest s1 s2) : Rest s s2 :=
  ⟨g.1.trans h.1, g.2.1.trans h.2.1, g.2.2.1.trans h.2.2.1, g.2.2.2.trans h.2.2.2⟩

theorem rest_refl (s : St) : Rest s s := ⟨rfl, rfl, rfl, rfl⟩

theorem rest_cons (s : St) (a d : V) : Rest s (s.cons a d).1 := ⟨rfl, rfl, rfl, rfl⟩

theorem rest_setCar (s : St) (a d : V) : Rest s (s.setCar a d) := by
  unfold St.setCar
  split <;> exact ⟨rfl, rfl, rfl, rfl⟩

theorem rest_setCdr (s : St) (a d : V) : Rest s (s.setCdr a d) := by
  unfold St.setCdr
  split <;> exact ⟨rfl, rfl, rfl, rfl⟩

theorem rest_quoteIt (s : St) (v : V) : Rest s (quoteIt s v).1 := by
  unfold quoteIt
  split
  · split
    · exact rest_refl _
    · exact (rest_cons _ _ _).trans (rest_cons _ _ _)
  · exact (rest_cons _ _ _).trans (rest_cons _ _ _)

theorem rest_listAppend {s s1 : St} {a b v : V} (h : listAppend s a b = some (s1, v)) : Rest s s1 := by
  unfold listAppend at h
  dsimp only at h
  split at h
  · split at h
    · cases hl : lastCell s (s.next + 1) ‹Nat› with
      | none => rw [hl] at h; cases h
      | some c =>
        rw [hl] at h
        simp only [Option.map_some, Option.some.injEq, Prod.mk.injEq] at h
        rw [← h.1]
        exact rest_setCdr _ _ _
    · cases h; exact rest_refl _
  · cases h; exact rest_refl _

theorem rest_append {s s1 : St} {f b v : V} (h : append s f b = .ok s1 v) : Rest s s1 := by
  unfold append at h
  split at h
  · cases h; exact rest_refl _
  split at h
  · cases h; exact rest_refl _
  split at h
  · split at h
    · split at h
      · cases h
      · rename_i hl
        cases h
        exact (rest_listAppend hl).trans (rest_quoteIt _ _)
    · cases h
  split at h
  · split at h
    · cases h
    · split at h
      · split at h
        · split at h
          · cases h
          · rename_i hl
            split at h
            · cases h
              exact (rest_listAppend hl).trans (rest_setCar _ _ _)
            · cases h
        · cases h
      · split at h
        · cases h
        · cases h
          exact (rest_cons _ _ _).trans (rest_cons _ _ _)
  · cases h
    exact ((rest_cons _ _ _).trans (rest_cons _ _ _)).trans (rest_cons _ _ _)

theorem rest_go {s : St} {o : AOut} {K : List W} {m : M} (ho : ∀ s1 v, o = .ok s1 v → Rest s s1) (h : o.go K = .next m) : Rest s m.st := by
  cases o with
  | ok s1 v => cases h; exact ho _ _ rfl
  | err => cases h
  | ub => cases h

theorem rest_step {m m' : M} (h : step m = .next m') : Rest m.st m'.st := by
  unfold step at h
  split at h
  · cases h; exact rest_refl _
  · unfold expand at h
    split at h
    · split at h
      · split at h
        · cases h
        · exact rest_go (fun _ _ h => rest_append h) h
      · split at h
        · cases h
        · cases h; exact rest_refl _
    · exact rest_go (fun _ _ h => (rest_quoteIt _ _).trans (rest_append h)) h
  · exact rest_go (fun _ _ h => rest_append h) h
  · unfold expandList at h
    split at h
    · split at h
      · split at h
        · cases h
        · exact rest_go (fun _ _ h => ((rest_cons _ _ _).trans (rest_cons _ _ _)).trans (rest_append h)) h
      · split at h
        · split at h
          · cases h
          · cases h; exact rest_refl _
        · cases h; exact rest_refl _
    · exact rest_go (fun _ _ h => (((rest_cons _ _ _).trans (rest_cons _ _ _)).trans (rest_cons _ _ _)).trans (rest_append h)) h
  · cases h
    exact (rest_cons _ _ _).trans (rest_cons _ _ _)
  · cases h

theorem rest_steps : ∀ {n : Nat} {m m' : M}, steps n (.next m) = .next m' → Rest m.st m'.st
  | 0, m, m', h => by cases h; exact rest_refl _
  | n + 1, m, m', h => by
    simp only [steps] at h
    cases hs : step m with
    | next m1 =>
      rw [hs] at h
      exact (rest_step hs).trans (rest_steps h)
    | err e => rw [hs] at h; cases n <;> cases h
    | ub => rw [hs] at h; cases n <;> cases h

/-! ## C44 -/

/-- **C44 (partial), end to end.** The reader has read the template `t` after a backquote, as in `C44_template`. The unquoted expressions have no effects; they may use local and global variables, closures and anything else that
is not in the cells of the template. If the template builds the tree `v`, the reader turns it into code; and when the evaluator gets to evaluate this code, whatever has been added to the memory until then, the value is the tree
`v`, and nothing that was there before has changed. (Full property: also for unquoted expressions with effects, for which `C44_template` gives the order of the effects.) -/
theorem C44_evaluates_partial (hP : Builders P) {t v : T} {s : St} {x : V} (hx : Rep s x t F) (hn : F.Nodup) (hl : ∀ i, i ∈ F → i < s.next)
    (hb : Build (Val (Pure P env F s)) () t () v) (K : List W) :
    ∃ n s1 r, steps n (.next ⟨.k 32 :: K, x, s⟩) = .next ⟨K, r, s1⟩ ∧ Keeps F s s1 ∧
      ∀ s2, Adds s1 s2 → ∃ s3 w, Ev P false s2 none (.exp env r) s3 none (.ok w) ∧ Adds s2 s3 ∧ Is s3 w v := by
  obtain ⟨n, s1, r, c, F', h1, h2, h3, h4, h5, h6⟩ := C44_template (val_laws _) hb hx hn hl K
  have hs := rest_steps h1
  have hk : Keeps F s s1 := ⟨h5, h6, hs.1, hs.2.1, hs.2.2.1, hs.2.2.2⟩
  exact ⟨n, s1, r, h1, hk, fun s2 ha => val_pure hP h4 s2 r (hk.trans ha) (Is.adds ⟨F', h2, h3⟩ ha)⟩

/-- The same for the stack machine: it gets from the code to the value, in any context. -/
theorem C44_machine_partial (hP : Builders P) {t v : T} {s : St} {x : V} (hx : Rep s x t F) (hn : F.Nodup) (hl : ∀ i, i ∈ F → i < s.next)
    (hb : Build (Val (Pure P env F s)) () t () v) (K : List W) :
    ∃ n s1 r, steps n (.next ⟨.k 32 :: K, x, s⟩) = .next ⟨K, r, s1⟩ ∧ Keeps F s s1 ∧
      ∀ K' r' fl prog, Verif.Eval.flagTrap fl = false → Verif.Eval.flagConst fl = false → ∃ m w y env' s3,
        Verif.Eval.steps none P m (.next ⟨K', r', r, env, false, fl, prog, s1⟩) = .next ⟨K', w, y, env', true, fl, prog, s3⟩ ∧ Adds s1 s3 ∧ Is s3 w v := by
  obtain ⟨n, s1, r, h1, h2, h3⟩ := C44_evaluates_partial hP hx hn hl hb K
  refine ⟨n, s1, r, h1, h2, fun K' r' fl prog ht hc => ?_⟩
  obtain ⟨s3, w, e1, e2, e3⟩ := h3 s1 (.refl _ _)
  obtain ⟨m, y, env', hm⟩ := Verif.Eval.C39_value_partial e1 K' r' fl prog ht hc
  exact ⟨m, w, y, env', s3, hm, e2, e3⟩

/-! ## Examples -/

/-- A variable of a local environment that consists of one binding. -/
theorem pure_var {s : St} {c p n : Nat} {v : T} (hn : Verif.Eval.runtimeStart ≤ n) (hc : c < s.next) (hp : p < s.next) (hcF : c ∉ F) (hpF : p ∉ F) (h1 : s.car c = .cons p) (h2 : s.car p = .sym n)
    (h3 : ∀ s', Keeps F s s' → Is s' (s.cdr p) v) (h4 : s.cdr p ≠ .placeholder) : Pure P (.cons c) F s (.sym n) v := by
  intro s1 x hk hx
  rw [is_leaf hx]
  obtain ⟨e1, _⟩ := hk.cells c hc hcF
  obtain ⟨e2, e3⟩ := hk.cells p hp hpF
  refine ⟨s1, s.cdr p, .loc hn ?_, .refl _ _, h3 s1 hk⟩
  obtain ⟨k, e⟩ : ∃ k, s1.next + 1 = k + 1 := ⟨_, rfl⟩
  rw [e]
  simp [St.lookup, e1, e2, e3, h1, h2, h4]

/-- The template `(7 ,x 8 ,@x . 9)` in the cells 0 to 7, and the environment `((x . (1 2)))` in the cells 8 to 11. -/
def demoStore : St where
  car i := if i = 8 then .cons 9 else if i = 9 then .sym 0x40000 else if i = 10 then .atom 1 else if i = 11 then .atom 2 else demoTemplate.car i
  cdr i := if i = 8 then .nil else if i = 9 then .cons 10 else if i = 10 then .cons 11 else if i = 11 then .nil else demoTemplate.cdr i
  next := 12
  globals _ := .nil
  atomic := false
  konts _ := []
  nk := 0

theorem demoStore_rep : Rep demoStore (.cons 0) demoTree [0, 1, 4, 5, 2, 3, 6, 7] :=
  .cons (F1 := []) (F2 := [1, 4, 5, 2, 3, 6, 7]) (.leaf (fun _ h => by cases h)) <|
    .cons (a := 1) (F1 := [4, 5]) (F2 := [2, 3, 6, 7])
      (.cons (a := 4) (F1 := []) (F2 := [5]) (.leaf (fun _ h => by cases h)) (.cons (a := 5) (F1 := []) (F2 := []) (.leaf (fun _ h => by cases h)) (.leaf (fun _ h => by cases h)))) <|
    .cons (a := 2) (F1 := []) (F2 := [3, 6, 7]) (.leaf (fun _ h => by cases h)) <|
    .cons (a := 3) (F1 := [6, 7]) (F2 := [])
      (.cons (a := 6) (F1 := []) (F2 := [7]) (.leaf (fun _ h => by cases h)) (.cons (a := 7) (F1 := []) (F2 := []) (.leaf (fun _ h => by cases h)) (.leaf (fun _ h => by cases h))))
      (.leaf (fun _ h => by cases h))

/-- With `x` bound to `(1 2)`, evaluation of the template `(7 ,x 8 ,@x . 9)` gives `(7 (1 2) 8 1 2 . 9)`. -/
example : ∃ n s1 r, steps n (.next ⟨[.k 32], .cons 0, demoStore⟩) = .next ⟨[], r, s1⟩ ∧ ∃ s3 w, Ev qqPrims false s1 none (.exp (.cons 8) r) s3 none (.ok w) ∧
    Is s3 w (T.onto [.leaf (.atom 7), T.ofList [.leaf (.atom 1), .leaf (.atom 2)], .leaf (.atom 8), .leaf (.atom 1), .leaf (.atom 2)] (.leaf (.atom 9))) := by
  have hp : Pure qqPrims (.cons 8) [0, 1, 4, 5, 2, 3, 6, 7] demoStore (.sym 0x40000) (T.ofList [.leaf (.atom 1), .leaf (.atom 2)]) := by
    refine pure_var (c := 8) (p := 9) (by decide) (by decide) (by decide) (by decide) (by decide) rfl rfl (fun s' hk => ?_) (fun h => by cases h)
    obtain ⟨a1, a2⟩ := hk.cells 10 (by decide) (by decide)
    obtain ⟨b1, b2⟩ := hk.cells 11 (by decide) (by decide)
    have hb : ∀ i, i ∈ [10, 11] → i < s'.next := fun i hi => Nat.lt_of_lt_of_le (by revert i; decide) hk.next
    refine ⟨[10, 11], .cons (a := 10) (F1 := []) (F2 := [11]) ?_ (?_ : Rep s' (s'.cdr 10) _ [11]), hb⟩
    · rw [a1]; exact .leaf (fun _ h => by cases h)
    · rw [a2]
      refine .cons (a := 11) (F1 := []) (F2 := []) ?_ ?_
      · rw [b1]; exact .leaf (fun _ h => by cases h)
      · rw [b2]; exact .leaf (fun _ h => by cases h)
  have hv : Val (Pure qqPrims (.cons 8) [0, 1, 4, 5, 2, 3, 6, 7] demoStore) () (.sym 0x40000) () (T.ofList [.leaf (.atom 1), .leaf (.atom 2)]) :=
    .base (by intro n h; cases h; decide) (fun x => ⟨fun h => (by cases h), fun h => (by cases h)⟩) hp
  obtain ⟨n, s1, r, h1, _, h3⟩ := C44_evaluates_partial qqPrims_build demoStore_rep (by decide) (by decide)
    (.pair (by decide) (by decide) .atom (.pair (by decide) (by decide) (.unquote hv) (.pair (by decide) (by decide) .atom (.pair (by decide) (by decide) (.splice hv) .atom (fun _ h => by cases h)) (fun _ h => by cases h))
      (fun _ h => by cases h)) (fun _ h => by cases h)) []
  obtain ⟨s3, w, e1, _, e3⟩ := h3 s1 (.refl _ _)
  exact ⟨n, s1, r, h1, s3, w, e1, e3⟩

/-- **C44 fails for error symbols.** The template `(,@x . ,y)` becomes the code `(append x y)`. If `x` is nil and the value of `y` is an error symbol, it does not evaluate to this symbol: a function that returns an error symbol has failed. -/
theorem C44_error_symbol_violated (s : St) : qqPrims.run 0x20015 [.nil, .terror] .nil s = .err s .terror := by
  have h1 : s.len (s.next + 1) V.nil = some 0 := by simp [St.len]
  simp [qqPrims, cellAppend, appendArgs, appendLoop, cellRes, h1]

end Verif.QQ
