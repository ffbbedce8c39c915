import Verif.Host.Spec
import Verif.Env.Props
import Verif.Heap.Props
import Verif.Sym.Props

namespace Verif.Host

open Verif.Heap

/-! ## Building -/

/-- Some of the free cells `fl` have been used, `l` are left, and the values `code` are at `v`; or there were not enough cells and `v` is `merror`. `n` is the number of cells that were asked for. -/
structure Part (h : Heap) (fl : List Nat) (n : Nat) (h' : Heap) (l : List Nat) : Prop where
  free : FreeOK h' l
  left : l = fl.drop n
  others : ∀ j, j ∉ fl → h'.cells j = h.cells j
  consts : h'.consts = h.consts
  size : h'.size = h.size

/-- A value of this code that no later allocation changes; `merror` if it did not fit. -/
def Has (fl l : List Nat) (n : Nat) (h' : Heap) (v : Val) (c : Code) : Prop :=
  if n ≤ fl.length then Is h' (fun i => i ∈ fl ∧ i ∉ l) v c else v = merror

theorem is_mono {h h' : Heap} {P Q : Nat → Prop} (hc : ∀ i, P i → h'.cells i = h.cells i) (hq : ∀ i, P i → Q i) : ∀ {c : Code} {v : Val}, Is h P v c → Is h' Q v c
  | .sym _, _, hv => hv
  | .text _, _, ⟨i, hp, hv, hi⟩ => ⟨i, hq i hp, hv, by rw [hc i hp]; exact hi⟩
  | .pair _ _, _, ⟨i, x, y, hp, hv, hi, h1, h2⟩ => ⟨i, x, y, hq i hp, hv, by rw [hc i hp]; exact hi, is_mono hc hq h1, is_mono hc hq h2⟩

theorem part_alloc {h h' : Heap} {fl l : List Nat} {n : Nat} (hp : Part h fl n h' l) (hnd : fl.Nodup) (t : PTy) (c : Content) {h'' : Heap} {v : Val} (e : allocateCell h' t c = (h'', v)) :
    ∃ l', Part h fl (n + 1) h'' l' ∧ (∀ j, j ∈ l' → j ∈ l) ∧
      (if n + 1 ≤ fl.length then ∃ i, v = .ptr t false i ∧ (h''.cells i).content = c ∧ i ∈ fl ∧ i ∉ l' ∧ (∀ j, j ∈ fl → j ∉ l → h''.cells j = h'.cells j) else v = merror) := by
  obtain ⟨hf, hl, ho, hc, hs⟩ := hp
  cases l with
  | nil =>
    rw [allocateCell_full hf] at e
    cases e
    have hlen : fl.length ≤ n := List.drop_eq_nil_iff.1 hl.symm
    refine ⟨[], ⟨hf, (List.drop_eq_nil_iff.2 (by omega)).symm, ho, hc, hs⟩, fun _ h => h, ?_⟩
    rw [if_neg (by omega)]
  | cons i l =>
    obtain ⟨h2, e1, e2, e3, e4, _, _, _, e8, e9⟩ := allocateCell_spec hf t c
    rw [e1] at e
    cases e
    have hlen : n < fl.length := by
      have := congrArg List.length hl
      rw [List.length_drop, List.length_cons] at this
      omega
    have hi : i ∈ fl := List.mem_of_mem_drop (hl ▸ List.mem_cons_self)
    have hnd' : (i :: l).Nodup := by rw [hl]; exact List.Nodup.sublist (List.drop_sublist _ _) hnd
    have hl' : l = fl.drop (n + 1) := by rw [← List.tail_drop, ← hl]; rfl
    refine ⟨l, ⟨e2, hl', ?_, by rw [e4, hc], by rw [e3, hs]⟩, fun j hj => List.mem_cons_of_mem _ hj, ?_⟩
    · intro j hj
      rw [e9 j (by rintro rfl; exact hj hi)]
      exact ho j hj
    · rw [if_pos (by omega)]
      refine ⟨i, rfl, by rw [e8], hi, (List.nodup_cons.1 hnd').1, ?_⟩
      intro j _ hj
      exact e9 j (by rintro rfl; exact hj List.mem_cons_self)

/-- A value that is there stays. -/
theorem Has.mono {fl l l' : List Nat} {n m : Nat} {h h' : Heap} {v : Val} {c : Code} (hv : Has fl l n h v c) (hl : ∀ j, j ∈ l' → j ∈ l)
    (hk : ∀ j, j ∈ fl → j ∉ l → h'.cells j = h.cells j) (hnm : n ≤ m) (hm : m ≤ fl.length) : Is h' (fun i => i ∈ fl ∧ i ∉ l') v c := by
  rw [Has, if_pos (by omega)] at hv
  exact is_mono (fun i hi => hk i hi.1 hi.2) (fun i hi => ⟨hi.1, fun hj => hi.2 (hl i hj)⟩) hv

theorem has_sym {fl l : List Nat} {n : Nat} {h : Heap} {s : Nat} (hn : n ≤ fl.length) : Has fl l n h (.sym s) (.sym s) := by
  rw [Has, if_pos hn]
  exact rfl

/-- One more pair. -/
theorem part_cons {h h' : Heap} {fl l : List Nat} {n : Nat} (hp : Part h fl n h' l) (hnd : fl.Nodup) {a d : Val} {ca cd : Code}
    (ha : n ≤ fl.length → Has fl l n h' a ca) (hd : n ≤ fl.length → Has fl l n h' d cd) {h'' : Heap} {v : Val} (e : Env.cons h' a d = (h'', v)) :
    ∃ l', Part h fl (n + 1) h'' l' ∧ Has fl l' (n + 1) h'' v (.pair ca cd) := by
  obtain ⟨l', h1, h2, h3⟩ := part_alloc hp hnd _ _ e
  refine ⟨l', h1, ?_⟩
  unfold Has
  split at h3
  · rename_i hn
    obtain ⟨i, rfl, hi, hm, hm', hk⟩ := h3
    rw [if_pos hn]
    exact ⟨i, a, d, ⟨hm, hm'⟩, rfl, hi, (ha (by omega)).mono h2 hk (Nat.le_refl _) (by omega), (hd (by omega)).mono h2 hk (Nat.le_refl _) (by omega)⟩
  · rename_i hn
    rw [if_neg hn]
    exact h3

/-- The same, for the pairs around a value. -/
theorem part_snd {h h' : Heap} {fl l : List Nat} {n : Nat} (hp : Part h fl n h' l) (hnd : fl.Nodup) {s : Nat} {d : Val} {cd : Code}
    (hd : Has fl l n h' d cd) {h'' : Heap} {v : Val} (e : Env.cons h' (.sym s) d = (h'', v)) :
    ∃ l', Part h fl (n + 1) h'' l' ∧ Has fl l' (n + 1) h'' v (.pair (.sym s) cd) := part_cons hp hnd has_sym (fun _ => hd) e

theorem part_fst {h h' : Heap} {fl l : List Nat} {n : Nat} (hp : Part h fl n h' l) (hnd : fl.Nodup) {a : Val} {ca : Code}
    (ha : Has fl l n h' a ca) {h'' : Heap} {v : Val} (e : Env.cons h' a nil = (h'', v)) :
    ∃ l', Part h fl (n + 1) h'' l' ∧ Has fl l' (n + 1) h'' v (.pair ca (.sym 0)) := part_cons hp hnd (fun _ => ha) has_sym e

theorem has_cons {fl l : List Nat} {n : Nat} {h : Heap} {v : Val} {a d : Code} (hv : Has fl l n h v (.pair a d)) : Env.isConsRW v = decide (n ≤ fl.length) := by
  unfold Has at hv
  split at hv
  · rename_i hn
    obtain ⟨i, x, y, _, rfl, _⟩ := hv
    simp [Env.isConsRW, hn]
  · rename_i hn
    rw [hv]
    simp [Env.isConsRW, merror, hn]

/-- The end. -/
theorem part_built {h h' : Heap} {fl l : List Nat} {n : Nat} {c : Code} {v : Val} (hp : Part h fl n h' l) (hv : Has fl l n h' v c) (hn : n = c.cells) :
    Built h fl c h' (if n ≤ fl.length then some v else none) := by
  subst hn
  refine ⟨?_, ?_, hp.others, hp.consts, hp.size⟩
  · intro hl
    rw [if_pos hl]
    rw [Has, if_pos hl] at hv
    exact ⟨v, rfl, is_mono (fun _ _ => rfl) (fun _ h => h.1) hv, hp.left ▸ hp.free⟩
  · intro hl
    rw [if_neg (by omega)]
    have : l = [] := hp.left.trans (List.drop_eq_nil_iff.2 (by omega))
    exact ⟨rfl, this ▸ hp.free⟩

/-- The cell for the text. -/
theorem part_lift {h h0 : Heap} {fl : List Nat} (hf : FreeOK h fl) {chan : Nat × Nat} {r : Option Val} (e : liftChannel h chan = (h0, r)) :
    ∃ l, Part h fl 1 h0 l ∧ (1 ≤ fl.length → ∃ v, r = some v ∧ Env.isSymbol v = false ∧ Has fl l 1 h0 v (.text chan)) ∧ (fl.length < 1 → r = none) := by
  unfold liftChannel at e
  generalize ha : allocateCell h .channel (.channel (some chan) nil) = p at e
  obtain ⟨h1, v⟩ := p
  obtain ⟨l, h2, _, h3⟩ := part_alloc (fl := fl) (n := 0) ⟨hf, rfl, fun _ _ => rfl, rfl, rfl⟩ hf.2.1 _ _ ha
  split at h3
  · rename_i hn
    obtain ⟨i, rfl, hi, hm, hm', _⟩ := h3
    simp only [merror, reduceCtorEq, if_false] at e
    cases e
    refine ⟨l, h2, fun _ => ⟨_, rfl, rfl, ?_⟩, fun h => by omega⟩
    rw [Has, if_pos (by omega)]
    exact ⟨i, ⟨hm, hm'⟩, rfl, hi⟩
  · rename_i hn
    subst h3
    simp only [if_true] at e
    cases e
    exact ⟨l, h2, fun h => by omega, fun _ => rfl⟩

theorem le_of_has {b1 b2 b3 : Bool} {x y z n : Nat} (h1 : b1 = decide (x ≤ n)) (h2 : b2 = decide (y ≤ n)) (h3 : b3 = decide (z ≤ n)) (hx : x ≤ z) (hy : y ≤ z) :
    (b1 && b2 && b3) = decide (z ≤ n) := by
  subst h1 h2 h3
  simp only [← Bool.decide_and]
  exact decide_eq_decide.2 ⟨fun h => h.2, fun h => ⟨⟨by omega, by omega⟩, h⟩⟩

/-! ## The property -/

/-- Starting a text: with enough free cells the program `((eval (read text)))`, or the one of the other modes, is started; with fewer nothing is started. Nothing else in the heap changes. -/
theorem C106_load {h : Heap} {fl : List Nat} (hf : FreeOK h fl) (mode : Mode) (chan : Nat × Nat) :
    Built h fl (mode.code chan) (loadAndEval h mode chan).1 (loadAndEval h mode chan).2 := by
  have hnd := hf.2.1
  generalize hL : liftChannel h chan = p
  obtain ⟨h0, r⟩ := p
  obtain ⟨l, hp, hr1, hr2⟩ := part_lift hf hL
  unfold loadAndEval
  rw [hL]
  by_cases h1 : 1 ≤ fl.length
  · obtain ⟨stream, rfl, hs, hv⟩ := hr1 h1
    simp only [hs, Bool.false_eq_true, if_false]
    generalize e1 : Env.cons h0 stream nil = p1
    obtain ⟨k1, v1⟩ := p1
    obtain ⟨l1, p1, q1⟩ := part_fst hp hnd hv e1
    simp only
    generalize e2 : Env.cons k1 (.sym mode.reader) v1 = p2
    obtain ⟨k2, v2⟩ := p2
    obtain ⟨l2, p2, q2⟩ := part_snd p1 hnd q1 e2
    simp only
    generalize e3 : Env.cons k2 v2 nil = p3
    obtain ⟨k3, v3⟩ := p3
    obtain ⟨l3, p3, q3⟩ := part_fst p2 hnd q2 e3
    cases mode with
    | incremental =>
      simp only [le_of_has (has_cons q2) (has_cons q2) (has_cons q3) (by omega) (by omega), decide_eq_true_eq]
      have := part_built p3 q3 (c := Mode.code chan .incremental) rfl
      split <;> simp_all
    | expression =>
      simp only
      generalize e4 : Env.cons k3 (.sym symEval) v3 = p4
      obtain ⟨k4, v4⟩ := p4
      obtain ⟨l4, p4, q4⟩ := part_snd p3 hnd q3 e4
      simp only
      generalize e5 : Env.cons k4 v4 nil = p5
      obtain ⟨k5, v5⟩ := p5
      obtain ⟨l5, p5, q5⟩ := part_fst p4 hnd q4 e5
      simp only [le_of_has (has_cons q2) (has_cons q4) (has_cons q5) (by omega) (by omega), decide_eq_true_eq]
      have := part_built p5 q5 (c := Mode.code chan .expression) rfl
      split <;> simp_all
    | program =>
      simp only
      generalize e4 : Env.cons k3 (.sym symEvalProgram) v3 = p4
      obtain ⟨k4, v4⟩ := p4
      obtain ⟨l4, p4, q4⟩ := part_snd p3 hnd q3 e4
      simp only
      generalize e5 : Env.cons k4 v4 nil = p5
      obtain ⟨k5, v5⟩ := p5
      obtain ⟨l5, p5, q5⟩ := part_fst p4 hnd q4 e5
      simp only [le_of_has (has_cons q2) (has_cons q4) (has_cons q5) (by omega) (by omega), decide_eq_true_eq]
      have := part_built p5 q5 (c := Mode.code chan .program) rfl
      split <;> simp_all
  · have hn := hr2 (by omega)
    subst hn
    have h4 : 4 ≤ (mode.code chan).cells := by cases mode <;> simp [Mode.code, Code.list, Code.cells]
    refine ⟨fun h => by omega, fun _ => ⟨rfl, ?_⟩, hp.others, hp.consts, hp.size⟩
    have : l = [] := hp.left.trans (List.drop_eq_nil_iff.2 (by omega))
    exact this ▸ hp.free

/-- Defining a symbol to be what a text says. Where the name is a string of 1 to 256 characters and there is memory for it if it is new, `((define s (read text)))` is started, with `s` the symbol of that name;
if the cells do not suffice nothing is started. -/
theorem C106_define {h : Heap} {fl : List Nat} (hf : FreeOK h fl) {extMax : Nat} (hm : extMax ≤ 0x10000) {tab : Sym.Tab} (hr : Sym.Reach extMax tab) (program : Bool) {name : Sym.Name} (hn : Sym.CStr name)
    (hl : 1 ≤ name.length ∧ name.length ≤ 256) (chan : Nat × Nat) {h' : Heap} {tab' : Sym.Tab} {res : Option Val} (e : loadAndDefine h tab program name true chan = (h', tab', res)) :
    ∃ s, Built h fl (defineCode program s chan) h' res ∧ (tab' = tab ∨ tab' = (Sym.addSymbol tab name true).1) ∧ (res ≠ none → Sym.getByName tab' name = some s) := by
  have hnd := hf.2.1
  obtain ⟨s, hs1, hs2, _⟩ := Sym.C25_intern hm hr hn hl
  generalize hL : liftChannel h chan = p
  obtain ⟨h0, r⟩ := p
  obtain ⟨l, hp, hr1, hr2⟩ := part_lift hf hL
  unfold loadAndDefine at e
  rw [hL] at e
  by_cases h1 : 1 ≤ fl.length
  · obtain ⟨stream, rfl, hs, hv⟩ := hr1 h1
    have hadd : Sym.addSymbol tab name true = ((Sym.addSymbol tab name true).1, some s) := by rw [← hs1]
    simp only [hs, Bool.false_eq_true, if_false] at e
    rw [hadd] at e
    simp only at e
    generalize e1 : Env.cons h0 stream nil = p1 at e
    obtain ⟨k1, v1⟩ := p1
    obtain ⟨l1, p1, q1⟩ := part_fst hp hnd hv e1
    simp only at e
    generalize e2 : Env.cons k1 (.sym (if program = true then symReadProgram else symRead)) v1 = p2 at e
    obtain ⟨k2, v2⟩ := p2
    obtain ⟨l2, p2, q2⟩ := part_snd p1 hnd q1 e2
    simp only at e
    generalize e3 : Env.cons k2 v2 nil = p3 at e
    obtain ⟨k3, v3⟩ := p3
    obtain ⟨l3, p3, q3⟩ := part_fst p2 hnd q2 e3
    simp only at e
    generalize e4 : Env.cons k3 (.sym s) v3 = p4 at e
    obtain ⟨k4, v4⟩ := p4
    obtain ⟨l4, p4, q4⟩ := part_snd p3 hnd q3 e4
    simp only at e
    generalize e5 : Env.cons k4 (.sym symDefine) v4 = p5 at e
    obtain ⟨k5, v5⟩ := p5
    obtain ⟨l5, p5, q5⟩ := part_snd p4 hnd q4 e5
    simp only at e
    generalize e6 : Env.cons k5 v5 nil = p6 at e
    obtain ⟨k6, v6⟩ := p6
    obtain ⟨l6, p6, q6⟩ := part_fst p5 hnd q5 e6
    simp only [le_of_has (has_cons q2) (has_cons q4) (has_cons q6) (by omega) (by omega), decide_eq_true_eq] at e
    have := part_built p6 q6 (c := defineCode program s chan) rfl
    refine ⟨s, ?_⟩
    split at e <;> rename_i hc
    · cases e
      rw [if_pos hc] at this
      exact ⟨this, .inr rfl, fun _ => hs2⟩
    · cases e
      rw [if_neg hc] at this
      exact ⟨this, .inr rfl, fun h => absurd rfl h⟩
  · have hn := hr2 (by omega)
    subst hn
    cases e
    refine ⟨s, ⟨fun h => ?_, fun _ => ⟨rfl, ?_⟩, hp.others, hp.consts, hp.size⟩, .inl rfl, fun h => absurd rfl h⟩
    · simp only [defineCode, Code.list, Code.cells] at h
      omega
    · have : l = [] := hp.left.trans (List.drop_eq_nil_iff.2 (by omega))
      exact this ▸ hp.free

/-- Without memory for a new name, or with a name that is empty or too long, nothing is started and no symbol is added. -/
theorem C106_define_refused {h : Heap} {fl : List Nat} (hf : FreeOK h fl) {tab : Sym.Tab} (program : Bool) {name : Sym.Name} (hn : Sym.getByName tab name = none) {mem : Bool}
    (hl : mem = false ∨ name.length = 0 ∨ 256 < name.length) (chan : Nat × Nat) {h' : Heap} {tab' : Sym.Tab} {res : Option Val} (e : loadAndDefine h tab program name mem chan = (h', tab', res)) :
    res = none ∧ tab' = tab ∧ ∀ j, j ∉ fl → h'.cells j = h.cells j := by
  generalize hL : liftChannel h chan = p
  obtain ⟨h0, r⟩ := p
  obtain ⟨l, hp, hr1, hr2⟩ := part_lift hf hL
  unfold loadAndDefine at e
  rw [hL] at e
  have hadd : Sym.addSymbol tab name mem = (tab, none) := by
    unfold Sym.addSymbol Sym.addBaseRam
    rw [hn]
    simp only
    rw [if_neg]
    rintro ⟨a, b, c⟩
    rcases hl with rfl | hl | hl
    · cases c
    · omega
    · omega
  cases r with
  | none => cases e; exact ⟨rfl, rfl, hp.others⟩
  | some v =>
    simp only [hadd] at e
    split at e <;> cases e <;> exact ⟨rfl, rfl, hp.others⟩

/-- Evaluating what a symbol is bound to: `((eval s))` is started exactly if the name has a symbol that is bound, and there are three free cells. -/
theorem C106_eval_defined {st : Env.GState} {m : Nat → Option Val} (hh : Env.GHist st m) (tab : Sym.Tab) (program : Bool) (name : Sym.Name) :
    ∃ n fl h' res, FreeOK st.heap fl ∧ (∀ f, n ≤ f → evalDefined f st tab program name = some (h', res)) ∧
      (∀ s v, Sym.getByName tab name = some s → m s = some v → Built st.heap fl (evalCode program s) h' res) ∧
      ((∀ s, Sym.getByName tab name = some s → m s = none) → res = none ∧ h' = st.heap) := by
  obtain ⟨L, fl, rep⟩ := Env.hist_rep hh
  have hf := rep.free
  have hnd := hf.2.1
  cases hg : Sym.getByName tab name with
  | none =>
    refine ⟨0, fl, st.heap, none, hf, fun f _ => ?_, fun s v h _ => (by cases h), fun _ => ⟨rfl, rfl⟩⟩
    unfold evalDefined
    rw [hg]
  | some s =>
    obtain ⟨n, hlook⟩ := Env.C20_global_map hh s
    cases hm : m s with
    | none =>
      refine ⟨n, fl, st.heap, none, hf, fun f hfn => ?_, fun s' v h1 h2 => ?_, fun _ => ⟨rfl, rfl⟩⟩
      · unfold evalDefined
        rw [hg]
        simp only [hlook f hfn, hm]
      · cases h1
        rw [hm] at h2
        cases h2
    | some w =>
      have p0 : Part st.heap fl 0 st.heap fl := ⟨hf, rfl, fun _ _ => rfl, rfl, rfl⟩
      generalize e1 : Env.cons st.heap (.sym s) nil = x1
      obtain ⟨k1, v1⟩ := x1
      obtain ⟨l1, p1, q1⟩ := part_fst p0 hnd (has_sym (Nat.zero_le _)) e1
      generalize e2 : Env.cons k1 (.sym (if program = true then symEvalProgram else symEval)) v1 = x2
      obtain ⟨k2, v2⟩ := x2
      obtain ⟨l2, p2, q2⟩ := part_snd p1 hnd q1 e2
      generalize e3 : Env.cons k2 v2 nil = x3
      obtain ⟨k3, v3⟩ := x3
      obtain ⟨l3, p3, q3⟩ := part_fst p2 hnd q2 e3
      refine ⟨n, fl, k3, if 3 ≤ fl.length then some v3 else none, hf, fun f hfn => ?_, fun s' v h1 h2 => ?_, fun h => ?_⟩
      · unfold evalDefined
        rw [hg]
        simp only [hlook f hfn, hm, e1, e2, e3, le_of_has (has_cons q1) (has_cons q2) (has_cons q3) (by omega) (by omega), decide_eq_true_eq]
        split <;> rfl
      · cases h1
        exact part_built p3 q3 (c := evalCode program s) rfl
      · have := h s rfl
        rw [hm] at this
        cases this

/-! ## Witnesses -/

/-- A heap of six cells, all of them in use and none of them needed. -/
def fullHeap : Heap := (List.range 6).foldl (fun h _ => (Env.cons h nil nil).1) (init 6 20)

/-- Nothing is started although a collection would give all the cells that are needed: no collection is tried. -/
theorem C106_no_collection_violated : (loadAndEval fullHeap .program (1, 2)).2 = none ∧
    (match gc 100 fullHeap [] [] [] with
      | some (.ok (h', _)) => (loadAndEval h' .program (1, 2)).2.isSome
      | _ => false) = true := by
  decide +kernel

/-- A heap with six free cells suffices for a program, one with five does not, and all five are used up. -/
example : (loadAndEval (init 6 20) .program (1, 2)).2.isSome = true ∧ (loadAndEval (init 5 20) .program (1, 2)).2 = none ∧ numFree (loadAndEval (init 5 20) .program (1, 2)).1 = 0 := by
  decide +kernel

example : Built (init 6 20) (List.range 6) (Mode.code (1, 2) .program) (loadAndEval (init 6 20) .program (1, 2)).1 (loadAndEval (init 6 20) .program (1, 2)).2 :=
  C106_load (init_chain 6 20 (by decide)) .program (1, 2)

example := C106_define (init_chain 7 20 (by decide)) (extMax := 100) (by decide) ⟨true, true, .refl _⟩ true (name := Sym.str "main") (by unfold Sym.CStr; decide) (by decide) (1, 2) rfl

/-- A state in which the symbol `x` is bound. -/
def boundState : Env.GState := (Env.cDefine 10 ⟨init 8 20, Env.initEnv⟩ 0x40000 (.imm 0 5)).getD ⟨init 8 20, Env.initEnv⟩

theorem boundState_hist : Env.GHist boundState (Env.upd (fun _ => none) 0x40000 (some (.imm 0 5))) :=
  .cDefine (f := 10) (.init (init_chain 8 20 (by decide))) (by decide) rfl

example : ∃ h v, evalDefined 10 boundState (Sym.init 100 true true) false (Sym.str "x") = some (h, some v) := ⟨_, _, rfl⟩

example : evalDefined 10 boundState (Sym.init 100 true true) false (Sym.str "y") = some (boundState.heap, none) := rfl

example := C106_eval_defined boundState_hist (Sym.init 100 true true) false (Sym.str "x")

end Verif.Host
