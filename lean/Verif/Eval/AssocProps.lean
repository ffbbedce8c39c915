import Verif.Eval.Builtin

/-!
# C123: association lists
-/

namespace Verif.Eval
namespace Builtin

/-- `v` is the list with the cells `l.map fst` whose elements are the cells `l.map snd`. -/
inductive AL (s : St) : V → List (Nat × Nat) → Prop
  | nil : AL s .nil []
  | cons {a p : Nat} {l : List (Nat × Nat)} (ha : a < s.next) (hp : p < s.next) (hc : s.car a = .cons p) (hl : AL s (s.cdr a) l) : AL s (.cons a) ((a, p) :: l)

/-- The keys and values of the elements. -/
def pairs (s : St) (l : List (Nat × Nat)) : List (V × V) := l.map fun e => (s.car e.2, s.cdr e.2)

/-- `v` is an association list of the keys and values `kvs`. -/
def Alist (s : St) (v : V) (kvs : List (V × V)) : Prop := ∃ l, AL s v l ∧ pairs s l = kvs

/-- Two values are the same structure. -/
inductive SEq (s : St) : V → V → Prop
  | leaf {v : V} (h : v.isCons = false) : SEq s v v
  | cell {a b : Nat} (hc : SEq s (s.car a) (s.car b)) (hd : SEq s (s.cdr a) (s.cdr b)) : SEq s (.cons a) (.cons b)

/-- The value is a tree of depth at most `d`. -/
inductive Tree (s : St) : Nat → V → Prop
  | leaf {d : Nat} {v : V} (h : v.isCons = false) : Tree s (d + 1) v
  | cell {d a : Nat} (hc : Tree s d (s.car a)) (hd : Tree s d (s.cdr a)) : Tree s (d + 1) (.cons a)

/-- `r` is the value of the first pair with the key, or `nil` if there is none. -/
inductive First (same : V → Prop) : List (V × V) → V → Prop
  | none : First same [] .nil
  | here {k x : V} {l : List (V × V)} (h : same k) : First same ((k, x) :: l) x
  | later {k x r : V} {l : List (V × V)} (h : ¬ same k) (hl : First same l r) : First same ((k, x) :: l) r

theorem structEq_iff {s : St} : ∀ (f : Nat) {d : Nat} {v w : V}, Tree s d v → d ≤ f → (structEq f s v w = true ↔ SEq s v w) := by
  intro f
  induction f with
  | zero => intro d v w h hd; cases h <;> omega
  | succ f ih =>
    intro d v w h hd
    cases h with
    | leaf hv =>
      have e : structEq (f + 1) s v w = decide (v = w) := by cases v <;> first | rfl | simp [V.isCons] at hv
      rw [e, decide_eq_true_iff]
      constructor
      · intro h; subst h; exact .leaf hv
      · intro h
        cases h with
        | leaf => rfl
        | cell => simp [V.isCons] at hv
    | @cell d' a hc hd' =>
      cases w with
      | cons b =>
        show (structEq f s _ _ && structEq f s _ _) = true ↔ _
        rw [Bool.and_eq_true, ih hc (by omega), ih hd' (by omega)]
        constructor
        · intro h; exact .cell h.1 h.2
        · intro h
          cases h with
          | leaf h => simp [V.isCons] at h
          | cell h1 h2 => exact ⟨h1, h2⟩
      | _ =>
        constructor
        · intro h; simp [structEq] at h
        · intro h; cases h

variable (nm : Nums)

/-- The result of a function for a value that is not an error; `no_match` is `nil` for `assoc` and `cossa`. -/
def found (v : V) : V := if v = .noMatch then .nil else v

theorem code8 : code nm 8 = ifCons 11 (.car 12 11 (ifCons 12 (.car 13 12 (.eqv 13 2 (.cdr 14 12 (.test [14] (fun l => decide (hd l = .noMatch)) (const .nil) (.ret 14))) (.cdr 11 11 (.goto 8)))) (const .eerror)))
      (const .nil) := rfl
theorem code9 : code nm 9 = ifCons 11 (.car 12 11 (.car 12 12 (.same 12 2 (.setCar 11 10 (.ret 1)) (.cdr 11 11 (.goto 9))))) (.cons 10 10 1 (.ret 10)) := rfl

theorem ifCons_cons {fuel : Nat} {args : List V} {j : Nat → (Nat → V) → St → PRes} {r a : Nat} {p q : FProg} {g : Nat → V} {s : St} (h : g r = .cons a) :
    execP fuel args j (ifCons r p q) g s = execP fuel args j p g s := by
  simp [ifCons, execP, h, hd, V.shape, V.isCons]

theorem ifCons_nil {fuel : Nat} {args : List V} {j : Nat → (Nat → V) → St → PRes} {r : Nat} {p q : FProg} {g : Nat → V} {s : St} (h : g r = .nil) :
    execP fuel args j (ifCons r p q) g s = execP fuel args j q g s := by
  simp [ifCons, execP, h, hd, V.shape, V.isCons]

theorem const_run {fuel : Nat} {args : List V} {j : Nat → (Nat → V) → St → PRes} {v : V} {g : Nat → V} {s : St} : execP fuel args j (const v) g s = cellRes s v.flat := by
  simp [const, execP, setReg]

theorem gcar_cons (s : St) (a : Nat) : (s.gcar (.cons a)).getD .terror = s.car a := rfl
theorem gcdr_cons (s : St) (a : Nat) : (s.gcdr (.cons a)).getD .terror = s.cdr a := rfl

theorem set_get {g : Nat → V} {d : Nat} {v : V} : setReg g d v d = v := by simp [setReg]
theorem set_other {g : Nat → V} {d i : Nat} {v : V} (h : i ≠ d) : setReg g d v i = g i := by simp [setReg, h]

theorem shape_sym {v : V} {n : Nat} : v.shape = .sym n ↔ v = .sym n := by cases v <;> simp [V.shape]

theorem loop8 {fuel : Nat} {args : List V} {s : St} {key : V} : ∀ {v : V} {l : List (Nat × Nat)}, AL s v l → ∀ {r : V}, First (fun k => structEq fuel s k key = true) (pairs s l) r →
    ∀ (n : Nat) (g : Nat → V), l.length < n → g 11 = v → g 2 = key → exec fuel (code nm) args n 8 g s = cellRes s (found r)
  | _, _, .nil, r, hf, n, g, hn, hv, hk => by
    cases hf
    obtain ⟨n, rfl⟩ : ∃ k, n = k + 1 := ⟨n - 1, by omega⟩
    show execP _ _ _ (code nm 8) g s = _
    rw [code8, ifCons_nil hv, const_run]
    rfl
  | _, _, @AL.cons _ a p l ha hp hc hl, r, hf, n, g, hn, hv, hk => by
    obtain ⟨n, rfl⟩ : ∃ k, n = k + 1 := ⟨n - 1, by omega⟩
    show execP _ _ _ (code nm 8) g s = _
    rw [code8, ifCons_cons hv]
    simp only [execP]
    rw [hv, gcar_cons, hc, ifCons_cons (a := p) set_get]
    simp only [execP, set_get, gcar_cons, gcdr_cons]
    rw [set_other (by decide), set_other (by decide), hk]
    cases hf with
    | here h =>
      rw [if_pos h]
      rw [set_other (by decide), set_get, gcdr_cons]
      simp only [List.map_cons, List.map_nil, set_get, hd, List.headD_cons, found]
      by_cases e : s.cdr p = .noMatch
      · rw [e]; simp [V.shape, V.noMatch, const_run, V.flat]
      · rw [if_neg e]
        have : ¬ (s.cdr p).shape = .noMatch := fun h => e (shape_sym.1 h)
        simp [this]
    | later h hl' =>
      rw [if_neg h]
      refine loop8 hl hl' n _ (by simp only [List.length_cons] at hn; omega) ?_ ?_
      · rw [set_get, set_other (by decide), set_other (by decide), hv, gcdr_cons]
      · rw [set_other (by decide), set_other (by decide), set_other (by decide), hk]

/-! ### assoc -/

theorem run_prog {fuel n : Nat} (hn : nm.fns n = none) (args : List V) (env : V) (s : St) :
    (prims nm (fuel + 1)).run n args env s = execP (fuel + 1) args (exec (fuel + 1) (code nm) args fuel) (code nm n) (startRegs args) s := by
  simp only [prims, hn]
  rfl

theorem nargs_pos {fuel : Nat} {args : List V} {j : Nat → (Nat → V) → St → PRes} {k : Nat} {p q : FProg} {g : Nat → V} {s : St} (h : g 0 = .u k) :
    execP fuel args j (nargs k p q) g s = execP fuel args j p g s := by
  simp [nargs, execP, h, hd, V.shape, cnt]

theorem nargs_neg {fuel : Nat} {args : List V} {j : Nat → (Nat → V) → St → PRes} {k m : Nat} {p q : FProg} {g : Nat → V} {s : St} (h : g 0 = .u m) (hm : m ≠ k) :
    execP fuel args j (nargs k p q) g s = execP fuel args j q g s := by
  simp [nargs, execP, h, hd, V.shape, cnt, hm]

theorem First.mono {same same' : V → Prop} {kvs : List (V × V)} {r : V} (h : First same kvs r) (hs : ∀ e ∈ kvs, (same e.1 ↔ same' e.1)) : First same' kvs r := by
  induction h with
  | none => exact .none
  | here h => exact .here ((hs _ List.mem_cons_self).1 h)
  | later h _ ih => exact .later (fun h' => h ((hs _ List.mem_cons_self).2 h')) (ih fun e he => hs e (List.mem_cons_of_mem _ he))

theorem al_nil {s : St} {l : List (Nat × Nat)} (h : AL s .nil l) : l = [] := by
  generalize e : V.nil = v at h
  cases h with
  | nil => rfl
  | cons => simp [V.nil] at e

theorem assoc_run {fuel : Nat} (hn : nm.fns 0x2001F = none) {s : St} {v key env r : V} {l : List (Nat × Nat)} (h : AL s v l)
    (hr : First (fun k => structEq (fuel + 1) s k key = true) (pairs s l) r) (hl : l.length < fuel) :
    (prims nm (fuel + 1)).run 0x2001F [v, key] env s = cellRes s (found r) := by
  rw [run_prog nm hn]
  show execP _ _ _ (nargs 2 (ifCons 1 (.move 11 1 (.goto 8)) (.test [1] (fun l => decide (hd l = .nil)) (.ret 1) (const .eerror))) (const .eerror)) _ _ = _
  rw [nargs_pos (k := 2) rfl]
  cases h with
  | nil =>
    rw [ifCons_nil (r := 1) (g := startRegs _) rfl]
    cases hr
    rfl
  | @cons a p l ha hp hc hl' =>
    rw [ifCons_cons (r := 1) (g := startRegs _) (a := a) rfl]
    exact loop8 nm (.cons ha hp hc hl') hr _ _ hl rfl rfl

/-- C123: `(assoc l key)` for an association list is the value of the first pair whose key has the same structure as `key`, and `nil` if there is none. Nothing is changed. (If the value is the symbol
`no_match`, the result is `nil`; if it is an error symbol, it is raised.) -/
theorem C123_assoc {fuel : Nat} (hn : nm.fns 0x2001F = none) {s : St} {v key env r : V} {kvs : List (V × V)} (h : Alist s v kvs) (hr : First (fun k => SEq s k key) kvs r)
    (hd : ∀ e ∈ kvs, Tree s fuel e.1) (hl : kvs.length < fuel) : (prims nm (fuel + 1)).run 0x2001F [v, key] env s = cellRes s (found r) := by
  obtain ⟨l, hal, rfl⟩ := h
  refine assoc_run nm hn hal (hr.mono fun e he => ?_) (by simpa [pairs] using hl)
  exact (structEq_iff _ (hd e he) (by omega)).symm

/-! ### setassoc and acons -/

/-- The list after the value of a key is set: the first pair with this key is replaced; if there is none, the pair is put in front. -/
def replace (k x : V) : List (V × V) → List (V × V)
  | [] => []
  | e :: l => if e.1 = k then (k, x) :: l else e :: replace k x l

def put (k x : V) (kvs : List (V × V)) : List (V × V) := if ∃ e ∈ kvs, e.1 = k then replace k x kvs else (k, x) :: kvs

theorem AL.det {s : St} : ∀ {v : V} {l l' : List (Nat × Nat)}, AL s v l → AL s v l' → l = l'
  | _, _, _, .nil, h => (al_nil h).symm
  | _, _, _, .cons _ _ hc hl, .cons _ _ hc' hl' => by
    rw [hc] at hc'
    injection hc' with e
    subst e
    rw [AL.det hl hl']

theorem AL.suffix {s : St} : ∀ {v : V} {l : List (Nat × Nat)}, AL s v l → ∀ l1 a p l2, l = l1 ++ (a, p) :: l2 → AL s (.cons a) ((a, p) :: l2)
  | _, _, .nil, l1, a, p, l2, e => by cases l1 <;> simp at e
  | _, _, .cons ha hp hc hl, [], a, p, l2, e => by
    simp only [List.nil_append, List.cons.injEq, Prod.mk.injEq] at e
    obtain ⟨⟨rfl, rfl⟩, rfl⟩ := e
    exact .cons ha hp hc hl
  | _, _, .cons ha hp hc hl, _ :: l1, a, p, l2, e => by
    simp only [List.cons_append, List.cons.injEq] at e
    exact AL.suffix hl l1 a p l2 e.2

/-- The cells of a list are all different. -/
theorem AL.fresh {s : St} {a p : Nat} {l : List (Nat × Nat)} (h : AL s (.cons a) ((a, p) :: l)) : ∀ e ∈ l, e.1 ≠ a := by
  rintro ⟨b, q⟩ he rfl
  obtain ⟨l1, l2, e⟩ := List.append_of_mem he
  have h2 := h.suffix (((b, p)) :: l1) b q l2 (by rw [e]; rfl)
  have := congrArg List.length (h.det h2)
  rw [e] at this
  simp only [List.length_cons, List.length_append] at this
  omega

/-- The elements of the list are not cells of the list. -/
def Apart2 (l : List (Nat × Nat)) : Prop := ∀ e ∈ l, ∀ e' ∈ l, e.2 ≠ e'.1

/-- The cells with the first pair with the key replaced. -/
def replaceC (s : St) (k : V) (p : Nat) : List (Nat × Nat) → List (Nat × Nat)
  | [] => []
  | e :: l => if s.car e.2 = k then (e.1, p) :: l else e :: replaceC s k p l

/-- The cell of the list with the first pair with the key. -/
def cellOf (s : St) (k : V) : List (Nat × Nat) → Option Nat
  | [] => none
  | e :: l => if s.car e.2 = k then some e.1 else cellOf s k l

theorem cellOf_none {s : St} {k : V} : ∀ {l : List (Nat × Nat)}, cellOf s k l = none ↔ ¬ ∃ e ∈ pairs s l, e.1 = k
  | [] => by simp [cellOf, pairs]
  | e :: l => by
    have ih := @cellOf_none s k l
    simp only [cellOf]
    by_cases h : s.car e.2 = k
    · rw [if_pos h]
      simp [pairs, h]
    · rw [if_neg h, ih]
      simp [pairs, h]

theorem cellOf_mem {s : St} {k : V} {c : Nat} : ∀ {l : List (Nat × Nat)}, cellOf s k l = some c → ∃ e ∈ l, e.1 = c
  | [], h => by simp [cellOf] at h
  | e :: l, h => by
    simp only [cellOf] at h
    split at h
    · injection h with h; exact ⟨e, List.mem_cons_self, h⟩
    · obtain ⟨e', he', h'⟩ := cellOf_mem h; exact ⟨e', List.mem_cons_of_mem _ he', h'⟩

theorem loop9 {fuel : Nat} {args : List V} {s : St} {key v0 x : V} : ∀ {v : V} {l : List (Nat × Nat)}, AL s v l →
    ∀ (n : Nat) (g : Nat → V), l.length < n → g 11 = v → g 2 = key → g 1 = v0 → g 10 = x → exec fuel (code nm) args n 9 g s =
      match cellOf s key l with
      | some a => cellRes (s.setCar (.cons a) x) v0
      | none => cellRes (s.cons x v0).1 (s.cons x v0).2
  | _, _, .nil, n, g, hn, hv, hk, h1, hx => by
    obtain ⟨n, rfl⟩ : ∃ k, n = k + 1 := ⟨n - 1, by omega⟩
    show execP _ _ _ (code nm 9) g s = _
    rw [code9, ifCons_nil hv]
    simp only [execP, set_get, hx, h1, cellOf]
  | _, _, @AL.cons _ a p l ha hp hc hl, n, g, hn, hv, hk, h1, hx => by
    obtain ⟨n, rfl⟩ : ∃ k, n = k + 1 := ⟨n - 1, by omega⟩
    show execP _ _ _ (code nm 9) g s = _
    rw [code9, ifCons_cons hv]
    simp only [execP]
    rw [hv, gcar_cons, hc]
    simp only [set_get, gcar_cons]
    rw [set_other (show (2 : Nat) ≠ 12 by decide), set_other (show (2 : Nat) ≠ 12 by decide), hk]
    simp only [cellOf]
    by_cases h : s.car p = key
    · rw [if_pos h, if_pos h]
      simp only [set_other (show (11 : Nat) ≠ 12 by decide), set_other (show (10 : Nat) ≠ 12 by decide), set_other (show (1 : Nat) ≠ 12 by decide), hv, hx, h1]
    · rw [if_neg h, if_neg h]
      refine loop9 hl n _ (by simp only [List.length_cons] at hn; omega) ?_ ?_ ?_ ?_
      · rw [set_get, set_other (by decide), set_other (by decide), hv, gcdr_cons]
      all_goals rw [set_other (by decide), set_other (by decide), set_other (by decide)]; assumption

theorem AL.keep {s s' : St} (hn : s.next ≤ s'.next) : ∀ {v : V} {l : List (Nat × Nat)}, AL s v l → (∀ e ∈ l, s'.car e.1 = s.car e.1 ∧ s'.cdr e.1 = s.cdr e.1) → AL s' v l
  | _, _, .nil, _ => .nil
  | _, _, @AL.cons _ a p l ha hp hc hl, h => by
    have h1 := h (a, p) List.mem_cons_self
    refine .cons (by omega) (by omega) (h1.1.trans hc) ?_
    rw [h1.2]
    exact AL.keep hn hl fun e he => h e (List.mem_cons_of_mem _ he)

theorem AL.set {s s' : St} (hn : s.next ≤ s'.next) {k : V} {p : Nat} (hp : p < s'.next) : ∀ {v : V} {l : List (Nat × Nat)}, AL s v l → ∀ {c : Nat}, cellOf s k l = some c →
    s'.car c = .cons p → (∀ e ∈ l, (e.1 ≠ c → s'.car e.1 = s.car e.1) ∧ s'.cdr e.1 = s.cdr e.1) → AL s' v (replaceC s k p l)
  | _, _, .nil, c, h, _, _ => by simp [cellOf] at h
  | _, _, @AL.cons _ a q l ha hq hc hl, c, h, hcar, he => by
    have hfr := (AL.cons ha hq hc hl).fresh
    have h1 := he (a, q) List.mem_cons_self
    simp only [cellOf] at h
    simp only [replaceC]
    by_cases hk : s.car q = k
    · rw [if_pos hk] at h ⊢
      injection h with h
      subst h
      refine .cons (by omega) hp hcar ?_
      rw [h1.2]
      refine hl.keep hn fun e he' => ?_
      have := he e (List.mem_cons_of_mem _ he')
      exact ⟨this.1 (hfr e he'), this.2⟩
    · rw [if_neg hk] at h ⊢
      have hmem := cellOf_mem h
      obtain ⟨e0, he0, rfl⟩ := hmem
      refine .cons (by omega) (by omega) ((h1.1 (fun h' => hfr e0 he0 h'.symm)).trans hc) ?_
      rw [h1.2]
      exact AL.set hn hp hl h hcar fun e he' => he e (List.mem_cons_of_mem _ he')

theorem pairs_replace {s s' : St} {k x : V} {p : Nat} (hp : s'.car p = k ∧ s'.cdr p = x) : ∀ {l : List (Nat × Nat)}, (∀ e ∈ l, s'.car e.2 = s.car e.2 ∧ s'.cdr e.2 = s.cdr e.2) →
    pairs s' (replaceC s k p l) = replace k x (pairs s l)
  | [], _ => rfl
  | e :: l, h => by
    have h1 := h e List.mem_cons_self
    have hl : pairs s' l = pairs s l := List.map_congr_left fun e' he' => by
      have := h e' (List.mem_cons_of_mem _ he'); rw [this.1, this.2]
    have ih := @pairs_replace s s' k x p hp l fun e' he' => h e' (List.mem_cons_of_mem _ he')
    simp only [replaceC]
    by_cases hk : s.car e.2 = k
    · rw [if_pos hk]
      show (s'.car p, s'.cdr p) :: pairs s' l = replace k x ((s.car e.2, s.cdr e.2) :: pairs s l)
      rw [replace, if_pos hk, hp.1, hp.2, hl]
    · rw [if_neg hk]
      show (s'.car e.2, s'.cdr e.2) :: pairs s' (replaceC s k p l) = replace k x ((s.car e.2, s.cdr e.2) :: pairs s l)
      rw [replace, if_neg hk, ih, h1.1, h1.2]

theorem al_lt {s : St} : ∀ {v : V} {l : List (Nat × Nat)}, AL s v l → ∀ e ∈ l, e.1 < s.next ∧ e.2 < s.next
  | _, _, .nil, e, he => by simp at he
  | _, _, .cons ha hp hc hl, e, he => by
    rcases List.mem_cons.1 he with rfl | he
    · exact ⟨ha, hp⟩
    · exact al_lt hl e he

/-- `v` is an association list whose pairs are not themselves cells of the list. -/
def PlainAlist (s : St) (v : V) (kvs : List (V × V)) : Prop := ∃ l, AL s v l ∧ Apart2 l ∧ pairs s l = kvs

theorem PlainAlist.alist {s : St} {v : V} {kvs : List (V × V)} (h : PlainAlist s v kvs) : Alist s v kvs := by
  obtain ⟨l, h1, _, h2⟩ := h; exact ⟨l, h1, h2⟩

theorem cons_old {s : St} {x y : V} {a : Nat} (ha : a < s.next) : (s.cons x y).1.car a = s.car a ∧ (s.cons x y).1.cdr a = s.cdr a := by
  simp only [St.cons]
  constructor <;> (rw [if_neg]; omega)

/-- C123: `(setassoc l k x)` gives the association list with `x` for the first key that is identical to `k`; if there is none, the pair is added in front, and then the old list is as it was. -/
theorem C123_set_assoc {fuel : Nat} (hn : nm.fns 0x20021 = none) {s : St} {v k x env : V} {kvs : List (V × V)} (h : PlainAlist s v kvs) (hl : kvs.length < fuel) :
    ∃ s' v', (prims nm (fuel + 1)).run 0x20021 [v, k, x] env s = .ok s' v' ∧ PlainAlist s' v' (put k x kvs) ∧
      ((∃ e ∈ kvs, e.1 = k) → v' = v) ∧ ((¬ ∃ e ∈ kvs, e.1 = k) → ∀ a, a < s.next → s'.car a = s.car a ∧ s'.cdr a = s.cdr a) := by
  obtain ⟨l, hal, hap, rfl⟩ := h
  have hlen : l.length < fuel := by simpa [pairs] using hl
  have hlt := al_lt hal
  have hrun : (prims nm (fuel + 1)).run 0x20021 [v, k, x] env s =
      match cellOf (s.cons k x).1 k l with
      | some a => cellRes ((s.cons k x).1.setCar (.cons a) (s.cons k x).2) v
      | none => cellRes ((s.cons k x).1.cons (s.cons k x).2 v).1 ((s.cons k x).1.cons (s.cons k x).2 v).2 := by
    rw [run_prog nm hn]
    show execP _ _ _ (nargs 3 (.cons 10 2 3 (.move 11 1 (.goto 9))) (nargs 2 (ifCons 2 (.car 3 2 (.cdr 4 2 (.move 11 1 (.goto 10)))) (const .eerror)) (const .eerror))) _ _ = _
    rw [nargs_pos (k := 3) rfl]
    simp only [execP]
    refine loop9 nm (hal.keep ?_ fun e he => ?_) fuel _ hlen ?_ ?_ ?_ ?_
    · exact Nat.le_succ _
    · have := hlt e he
      simp only [St.cons]
      constructor <;> (rw [if_neg]; omega)
    all_goals rfl
  have hcell : cellOf (s.cons k x).1 k l = cellOf s k l := by
    have : ∀ e ∈ l, (s.cons k x).1.car e.2 = s.car e.2 := fun e he => by
      have := hlt e he
      simp only [St.cons]; rw [if_neg]; omega
    clear hrun hlt hlen hap hal hl
    induction l with
    | nil => rfl
    | cons e l ih =>
      simp only [cellOf]
      rw [this e List.mem_cons_self, ih fun e he => this e (List.mem_cons_of_mem _ he)]
  rw [hcell] at hrun
  have hold : ∀ a, a < s.next → (s.cons k x).1.car a = s.car a ∧ (s.cons k x).1.cdr a = s.cdr a := fun a ha => by
    simp only [St.cons]
    constructor <;> (rw [if_neg]; omega)
  have hnew : (s.cons k x).1.car s.next = k ∧ (s.cons k x).1.cdr s.next = x := by simp [St.cons]
  cases hc : cellOf s k l with
  | none =>
    rw [hc] at hrun
    have hno := cellOf_none.1 hc
    have hold2 : ∀ a, a < s.next → ((s.cons k x).1.cons (s.cons k x).2 v).1.car a = s.car a ∧ ((s.cons k x).1.cons (s.cons k x).2 v).1.cdr a = s.cdr a := fun a ha => by
      rw [← (hold a ha).1, ← (hold a ha).2]
      exact cons_old (show a < s.next + 1 by omega)
    have hnew2 : ((s.cons k x).1.cons (s.cons k x).2 v).1.car s.next = k ∧ ((s.cons k x).1.cons (s.cons k x).2 v).1.cdr s.next = x := by simp [St.cons]
    refine ⟨_, _, hrun, ⟨(s.next + 1, s.next) :: l, ?_, ?_, ?_⟩, fun h => absurd h hno, fun _ a ha => hold2 a ha⟩
    · refine .cons ?_ ?_ ?_ ?_
      · simp [St.cons]
      · simp [St.cons]; omega
      · simp [St.cons]
      · have e : ((s.cons k x).1.cons (s.cons k x).2 v).1.cdr (s.next + 1) = v := by simp [St.cons]
        show AL _ (((s.cons k x).1.cons (s.cons k x).2 v).1.cdr (s.next + 1)) l
        rw [e]
        exact hal.keep (by simp [St.cons]; omega) fun e he => hold2 _ (hlt e he).1
    · intro e he e' he'
      rcases List.mem_cons.1 he with rfl | he <;> rcases List.mem_cons.1 he' with rfl | he'
      · simp
      · have := hlt e' he'; simp only; omega
      · have := hlt e he; simp only; omega
      · exact hap e he e' he'
    · rw [put, if_neg hno]
      show (_, _) :: pairs _ l = _
      rw [hnew2.1, hnew2.2]
      congr 1
      exact List.map_congr_left fun e he => by rw [(hold2 _ (hlt e he).2).1, (hold2 _ (hlt e he).2).2]
  | some a =>
    rw [hc] at hrun
    have hyes : ∃ e ∈ pairs s l, e.1 = k := Classical.byContradiction fun h => by rw [cellOf_none.2 h] at hc; cases hc
    have hmem := cellOf_mem hc
    obtain ⟨e0, he0, rfl⟩ := hmem
    have hlt0 := hlt e0 he0
    have hcar : ∀ b, ((s.cons k x).1.setCar (.cons e0.1) (s.cons k x).2).car b = if b = e0.1 then .cons s.next else (s.cons k x).1.car b := fun b => rfl
    have hcdr : ∀ b, ((s.cons k x).1.setCar (.cons e0.1) (s.cons k x).2).cdr b = (s.cons k x).1.cdr b := fun b => rfl
    have hres : cellRes ((s.cons k x).1.setCar (.cons e0.1) (s.cons k x).2) v = .ok ((s.cons k x).1.setCar (.cons e0.1) (s.cons k x).2) v := by
      cases hal <;> rfl
    refine ⟨_, _, hrun.trans hres, ⟨replaceC s k s.next l, ?_, ?_, ?_⟩, fun _ => rfl, fun h => absurd hyes h⟩
    · refine hal.set (s' := (s.cons k x).1.setCar (.cons e0.1) (s.cons k x).2) (Nat.le_succ _) (Nat.lt_succ_self _) hc ?_ fun e he => ⟨fun hne => ?_, ?_⟩
      · rw [hcar, if_pos rfl]
      · rw [hcar, if_neg hne, (hold _ (hlt e he).1).1]
      · rw [hcdr, (hold _ (hlt e he).1).2]
    · have hsub : ∀ l' : List (Nat × Nat), ∀ e ∈ replaceC s k s.next l', (∃ e' ∈ l', e'.1 = e.1) ∧ (e.2 = s.next ∨ e ∈ l') := by
        intro l'
        induction l' with
        | nil => intro e he; simp [replaceC] at he
        | cons e1 l' ih =>
          intro e he
          simp only [replaceC] at he
          split at he
          · rcases List.mem_cons.1 he with rfl | he
            · exact ⟨⟨e1, List.mem_cons_self, rfl⟩, .inl rfl⟩
            · exact ⟨⟨e, List.mem_cons_of_mem _ he, rfl⟩, .inr (List.mem_cons_of_mem _ he)⟩
          · rcases List.mem_cons.1 he with rfl | he
            · exact ⟨⟨e, List.mem_cons_self, rfl⟩, .inr List.mem_cons_self⟩
            · obtain ⟨⟨e', h1, h2⟩, h3⟩ := ih e he
              exact ⟨⟨e', List.mem_cons_of_mem _ h1, h2⟩, h3.imp id (List.mem_cons_of_mem _)⟩
      intro e he e' he'
      obtain ⟨⟨e1, h1, h1'⟩, _⟩ := hsub l e' he'
      rw [← h1']
      rcases (hsub l e he).2 with h2 | h2
      · rw [h2]; have := (hlt e1 h1).1; omega
      · exact hap e h2 e1 h1
    · rw [put, if_pos hyes]
      refine pairs_replace ?_ fun e he => ?_
      · rw [hcar, hcdr, if_neg (by omega)]; exact hnew
      · rw [hcar, hcdr, if_neg (hap e he e0 he0)]; exact hold _ (hlt e he).2

/-- C123: `(acons k x l)` is the association list with the pair in front; nothing else changes. -/
theorem C123_acons {fuel : Nat} (hn : nm.fns 0x20020 = none) {s : St} {v k x env : V} {kvs : List (V × V)} (h : PlainAlist s v kvs) :
    ∃ s' v', (prims nm (fuel + 1)).run 0x20020 [k, x, v] env s = .ok s' v' ∧ PlainAlist s' v' ((k, x) :: kvs) ∧ ∀ a, a < s.next → s'.car a = s.car a ∧ s'.cdr a = s.cdr a := by
  obtain ⟨l, hal, hap, rfl⟩ := h
  have hlt := al_lt hal
  have hrun : (prims nm (fuel + 1)).run 0x20020 [k, x, v] env s = .ok ((s.cons k x).1.cons (s.cons k x).2 v).1 ((s.cons k x).1.cons (s.cons k x).2 v).2 := by
    rw [run_prog nm hn]
    show execP _ _ _ (nargs 3 (.cons 10 1 2 (.cons 10 10 3 (.ret 10))) (nargs 2 (.cons 10 1 2 (.ret 10)) (const .eerror))) _ _ = _
    rw [nargs_pos (k := 3) rfl]
    rfl
  have hold2 : ∀ a, a < s.next → ((s.cons k x).1.cons (s.cons k x).2 v).1.car a = s.car a ∧ ((s.cons k x).1.cons (s.cons k x).2 v).1.cdr a = s.cdr a := fun a ha => by
    rw [← (cons_old (x := k) (y := x) ha).1, ← (cons_old (x := k) (y := x) ha).2]
    exact cons_old (show a < s.next + 1 by omega)
  have hnew2 : ((s.cons k x).1.cons (s.cons k x).2 v).1.car s.next = k ∧ ((s.cons k x).1.cons (s.cons k x).2 v).1.cdr s.next = x := by simp [St.cons]
  refine ⟨_, _, hrun, ⟨(s.next + 1, s.next) :: l, ?_, ?_, ?_⟩, hold2⟩
  · refine .cons ?_ ?_ ?_ ?_
    · simp [St.cons]
    · simp [St.cons]; omega
    · simp [St.cons]
    · have e : ((s.cons k x).1.cons (s.cons k x).2 v).1.cdr (s.next + 1) = v := by simp [St.cons]
      show AL _ (((s.cons k x).1.cons (s.cons k x).2 v).1.cdr (s.next + 1)) l
      rw [e]
      exact hal.keep (by simp [St.cons]; omega) fun e he => hold2 _ (hlt e he).1
  · intro e he e' he'
    rcases List.mem_cons.1 he with rfl | he <;> rcases List.mem_cons.1 he' with rfl | he'
    · simp
    · have := hlt e' he'; simp only; omega
    · have := hlt e he; simp only; omega
    · exact hap e he e' he'
  · show (_, _) :: pairs _ l = _
    rw [hnew2.1, hnew2.2]
    congr 1
    exact List.map_congr_left fun e he => by rw [(hold2 _ (hlt e he).2).1, (hold2 _ (hlt e he).2).2]

/-! ### What is set is found -/

theorem replace_first {k x : V} : ∀ {kvs : List (V × V)}, (∃ e ∈ kvs, e.1 = k) → First (fun y => y = k) (replace k x kvs) x
  | [], h => by simp at h
  | e :: l, h => by
    simp only [replace]
    by_cases he : e.1 = k
    · rw [if_pos he]; exact .here rfl
    · rw [if_neg he]
      refine .later he (replace_first ?_)
      obtain ⟨e', h1, h2⟩ := h
      rcases List.mem_cons.1 h1 with rfl | h1
      · exact absurd h2 he
      · exact ⟨e', h1, h2⟩

theorem replace_other {k x k' r : V} (hk : k' ≠ k) : ∀ {kvs : List (V × V)}, First (fun y => y = k') kvs r → First (fun y => y = k') (replace k x kvs) r
  | [], h => h
  | e :: l, h => by
    simp only [replace]
    by_cases he : e.1 = k
    · rw [if_pos he]
      cases h with
      | here h => exact absurd (h.symm.trans he) hk
      | later _ h => exact .later (fun h' => hk h'.symm) h
    · rw [if_neg he]
      cases h with
      | here h => exact .here h
      | later h h' => exact .later h (replace_other hk h')

theorem put_first (k x : V) (kvs : List (V × V)) : First (fun y => y = k) (put k x kvs) x := by
  unfold put
  split
  · rename_i h; exact replace_first h
  · exact .here rfl

theorem put_other {k x k' r : V} (hk : k' ≠ k) {kvs : List (V × V)} (h : First (fun y => y = k') kvs r) : First (fun y => y = k') (put k x kvs) r := by
  unfold put
  split
  · exact replace_other hk h
  · exact .later (fun h' => hk h'.symm) h

theorem seq_leaf {s : St} {y k : V} (hk : k.isCons = false) : SEq s y k ↔ y = k := by
  constructor
  · intro h
    cases h with
    | leaf => rfl
    | cell => simp [V.isCons] at hk
  · intro h; subst h; exact .leaf hk

theorem structEq_leaf {f : Nat} {s : St} {y k : V} (hk : k.isCons = false) : structEq (f + 1) s y k = true ↔ y = k := by
  cases y <;> cases k <;> simp_all [structEq, V.isCons]

/-- C123: after `(setassoc l k x)` with a key that is not a list, `assoc` finds `x` for `k`, and for every other key that is not a list what it found before. Only for such keys: see
`C123_set_list_key_violated`. -/
theorem C123_get_set_partial {fuel : Nat} (hn : nm.fns 0x20021 = none) (hn' : nm.fns 0x2001F = none) {s : St} {v k x env : V} {kvs : List (V × V)} (h : PlainAlist s v kvs)
    (hl : kvs.length + 1 < fuel) (hk : k.isCons = false) :
    ∃ s' v', (prims nm (fuel + 1)).run 0x20021 [v, k, x] env s = .ok s' v' ∧ (prims nm (fuel + 1)).run 0x2001F [v', k] env s' = cellRes s' (found x) ∧
      ∀ k' r, k'.isCons = false → k' ≠ k → First (fun y => y = k') kvs r →
        (prims nm (fuel + 1)).run 0x2001F [v, k'] env s = cellRes s (found r) ∧ (prims nm (fuel + 1)).run 0x2001F [v', k'] env s' = cellRes s' (found r) := by
  have h0 := h.alist
  obtain ⟨s', v', h1, h2, _, _⟩ := C123_set_assoc nm (fuel := fuel) (k := k) (x := x) (env := env) hn h (by omega)
  have hlen : (put k x kvs).length ≤ kvs.length + 1 := by
    have hr : ∀ l : List (V × V), (replace k x l).length = l.length := by
      intro l
      induction l with
      | nil => rfl
      | cons e l ih => simp only [replace]; split <;> simp [ih]
    unfold put
    split
    · rw [hr]; omega
    · simp
  obtain ⟨l, hal, _, hp⟩ := h2
  have hll : l.length < fuel := by
    have : (pairs s' l).length = l.length := by simp [pairs]
    rw [hp] at this; omega
  refine ⟨s', v', h1, ?_, fun k' r hk' hne hf => ⟨?_, ?_⟩⟩
  · refine assoc_run nm hn' hal ?_ hll
    rw [hp]
    exact (put_first k x kvs).mono fun e _ => (structEq_leaf hk).symm
  · obtain ⟨l0, hal0, rfl⟩ := h0
    exact assoc_run nm hn' hal0 (hf.mono fun e _ => (structEq_leaf hk').symm) (by simp only [pairs, List.length_map] at hl; omega)
  · refine assoc_run nm hn' hal ?_ hll
    rw [hp]
    exact (put_other hne hf).mono fun e _ => (structEq_leaf hk').symm

/-! ### A list as a key -/

/-- Two keys `(x)` that are different cells, in a list of two pairs: `(((x) . 1) ((x) . 2))`. -/
def twice : St :=
  { car := fun i => match i with | 0 => .sym 0x40000 | 1 => .sym 0x40000 | 2 => .cons 0 | 3 => .cons 1 | 4 => .cons 2 | 5 => .cons 3 | _ => .nil
    cdr := fun i => match i with | 2 => .atom 1 | 3 => .atom 2 | 4 => .cons 5 | _ => .nil
    next := 6, globals := fun _ => .nil, atomic := false, konts := fun _ => [], nk := 0 }

theorem twice_alist : PlainAlist twice (.cons 4) [(.cons 0, .atom 1), (.cons 1, .atom 2)] :=
  ⟨[(4, 2), (5, 3)], .cons (by decide) (by decide) rfl (.cons (by decide) (by decide) rfl .nil), by unfold Apart2; decide, rfl⟩

def noNums : Nums := { isNum := fun v => match v with | .atom _ => true | _ => false, i32 := fun v => match v with | .atom n => n | _ => 0, u32 := fun v => match v with | .atom n => n | _ => 0,
                       enc := .atom, fns := fun _ => none }

/-- What has been set is not always found: `setassoc` compares the keys by identity and `assoc` by structure. In `(((x) . 1) ((x) . 2))` the value of the second key is set to 3; `assoc` for this key
then gives 1. -/
theorem C123_set_list_key_violated : ∃ (s : St) (v k : V) (kvs : List (V × V)), PlainAlist s v kvs ∧ (∃ e ∈ kvs, e.1 = k) ∧
    ∃ s' v', (prims noNums 9).run 0x20021 [v, k, .atom 3] .nil s = .ok s' v' ∧ (prims noNums 9).run 0x2001F [v', k] .nil s' = .ok s' (.atom 1) :=
  ⟨twice, .cons 4, .cons 1, _, twice_alist, ⟨(.cons 1, .atom 2), by decide, rfl⟩, _, _, rfl, rfl⟩

/-! ### Examples -/

/-- The conditions are met: `assoc` in that list. -/
example : ∃ v, (prims noNums 9).run 0x2001F [.cons 4, .cons 1] .nil twice = .ok twice v ∧ First (fun k => SEq twice k (.cons 1)) [(.cons 0, .atom 1), (.cons 1, .atom 2)] v :=
  ⟨.atom 1, rfl, .here (.cell (.leaf rfl) (.leaf rfl))⟩

example : (prims noNums 9).run 0x2001F [.cons 4, .cons 1] .nil twice = cellRes twice (.atom 1) :=
  C123_assoc noNums (fuel := 8) (env := .nil) (key := .cons 1) rfl twice_alist.alist (.here (.cell (.leaf rfl) (.leaf rfl)))
    (by
      intro e he
      simp only [List.mem_cons, List.not_mem_nil, or_false] at he
      rcases he with rfl | rfl <;> exact .cell (.leaf rfl) (.leaf rfl))
    (by decide)

/-- A symbol as the key: it is set and found. -/
example : ∃ s' v', (prims noNums 9).run 0x20021 [.cons 4, .sym 0x40001, .atom 7] .nil twice = .ok s' v' ∧ (prims noNums 9).run 0x2001F [v', .sym 0x40001] .nil s' = .ok s' (.atom 7) ∧
    (prims noNums 9).run 0x2001F [v', .cons 0] .nil s' = .ok s' (.atom 1) := ⟨_, _, rfl, rfl, rfl⟩

end Builtin
end Verif.Eval
