import Verif.Heap.Gc2

/-
Model of the pointer reversal mark phase (`USE_GC_PTR_REV` in `src/heap.c`). Same simplifications as in `Verif.Heap.Model`; in addition the recursive calls of
the C function for the elements of lisp arrays are an explicit stack of calls, which has no limit.
-/

namespace Verif.Heap

/-- The places in `lbm_gc_mark_phase_nm`: the first inner loop, the second inner loop with the test after it, the loop over the elements of an array. -/
inductive DPh
  | adv | ret | elems
deriving DecidableEq, Repr

/-- The state of `lbm_gc_mark_phase_nm`, `src/heap.c:678-741`. `flag` is the bit `lbm_get_gc_flag` of the `car` of each cell. An element of `calls` is a call that
waits for the mark of an array element: `curr`, `prev` and the elements that remain. -/
structure DSt where
  h : Heap
  flag : Nat → Bool
  curr : Val
  prev : Val
  ph : DPh
  calls : List (Val × Val × List Val)

/-- The cell of a pointer as `lbm_dec_ptr` gives it, with its type; internal continuation markers count as pointers (`lbm_is_ptr`), their number is taken for the index of
a cell (`CONTINUATION`, `src/eval_cps.c:48`). Pointers to the constant heap and what is not a pointer have no cell. -/
def Val.cell : Val → Option (Option PTy × Nat)
  | .ptr t false i => some (some t, i)
  | .cont n => some (none, n)
  | _ => none

/-- Set a flag. -/
def setFlag (f : Nat → Bool) (i : Nat) (b : Bool) : Nat → Bool := fun j => if j = i then b else f j

/-- `lbm_enc_cons_ptr(LBM_PTR_NULL)`; `null` is `LBM_PTR_NULL`, `include/lbm_defines.h:35,93`. -/
def nullPtr (null : Nat) : Val := .ptr .cons false null

/-- The first inner loop, `src/heap.c:687-710`. -/
def dswAdv (null : Nat) (m : DSt) : Out (DSt ⊕ Heap) :=
  match m.curr.cell with
  | none => .ok (.inl { m with ph := .ret })
  | some (t, i) =>
    if i = null then .ok (.inl { m with ph := .ret })
    else if m.h.size ≤ i then .ub
    else
      let c := m.h.cells i
      if c.mark then .ok (.inl { m with ph := .ret })
      else
        match t with
        | some .cons =>
          match c.content with
          | .pair a d => .ok (.inl { m with h := m.h.setCell i { c with content := .pair m.prev d, mark := true }, prev := m.curr, curr := a })
          | _ => .ub
        | some .lispArray =>
          match c.content with
          | .lispArr _ _ es => .ok (.inl { m with h := m.h.setCell i { c with mark := true }, ph := .elems, calls := (m.curr, m.prev, es) :: m.calls })
          | _ => .ub
        | _ => .ok (.inl { m with h := m.h.setCell i { c with mark := true } })

/-- The second inner loop and the test after it, `src/heap.c:711-739`. -/
def dswRet (null : Nat) (m : DSt) : Out (DSt ⊕ Heap) :=
  match m.prev with
  | .ptr _ false i =>
    if i = null then
      match m.calls with
      | [] => .ok (.inr m.h)
      | _ => .ok (.inl { m with ph := .elems })
    else if m.h.size ≤ i then .ub
    else
      let c := m.h.cells i
      match c.content with
      | .pair a d =>
        if m.flag i then
          .ok (.inl { m with h := m.h.setCell i { c with content := .pair a m.curr }, flag := setFlag m.flag i false, curr := m.prev, prev := d })
        else
          .ok (.inl { m with h := m.h.setCell i { c with content := .pair m.curr a }, flag := setFlag m.flag i true, curr := d, ph := .adv })
      | _ => .ub
  | _ => .ub

/-- The loop over the elements of a lisp array, `src/heap.c:706-708`, with the start of the function, `src/heap.c:679-683`. -/
def dswElems (null : Nat) (m : DSt) : Out (DSt ⊕ Heap) :=
  match m.calls with
  | [] => .ub
  | (c, p, []) :: cs => .ok (.inl { m with curr := c, prev := p, ph := .adv, calls := cs })
  | (c, p, e :: es) :: cs =>
    if e.isPtr then .ok (.inl { m with curr := e, prev := nullPtr null, ph := .adv, calls := (c, p, es) :: cs })
    else .ok (.inl { m with calls := (c, p, es) :: cs })

/-- One iteration of one of the loops. -/
def dswStep (null : Nat) (m : DSt) : Out (DSt ⊕ Heap) :=
  match m.ph with
  | .adv => dswAdv null m
  | .ret => dswRet null m
  | .elems => dswElems null m

/-- Iterate; `none` when the fuel runs out. -/
def dswRun (null : Nat) : Nat → DSt → Option (Out Heap)
  | 0, _ => none
  | n + 1, m =>
    match dswStep null m with
    | .ok (.inl m') => dswRun null n m'
    | .ok (.inr h) => some (.ok h)
    | .critical => some .critical
    | .ub => some .ub

/-- `lbm_gc_mark_phase`, `src/heap.c:743-747`. Between collections no flag is set. -/
def dswPhase (null fuel : Nat) (h : Heap) (root : Val) : Option (Out Heap) :=
  if root.isPtr then dswRun null fuel { h := h, flag := fun _ => false, curr := root, prev := nullPtr null, ph := .adv, calls := [] }
  else some (.ok h)

/-! ### Proof -/

/-- From `m` the loops come to `m'`. -/
def DReach (null : Nat) (m m' : DSt) : Prop := ∃ k, ∀ n, dswRun null (n + k) m = dswRun null n m'

theorem DReach.refl {null : Nat} (m : DSt) : DReach null m m := ⟨0, fun _ => rfl⟩

theorem DReach.trans {null : Nat} {a b c : DSt} (h1 : DReach null a b) (h2 : DReach null b c) : DReach null a c := by
  obtain ⟨k1, h1⟩ := h1
  obtain ⟨k2, h2⟩ := h2
  exact ⟨k2 + k1, fun n => by rw [← Nat.add_assoc, h1, h2]⟩

theorem DReach.step {null : Nat} {a b c : DSt} (h1 : dswStep null a = .ok (.inl b)) (h2 : DReach null b c) : DReach null a c :=
  .trans ⟨1, fun n => by rw [dswRun, h1]⟩ h2

/-- The references that this marker follows. -/
def Content.refsD : Content → List Val
  | .pair a d => [a, d]
  | .lispArr _ _ es => es
  | _ => []

/-- What a heap has to be like for this marker: pointers are typed, no continuation markers. Lisp arrays may be empty. -/
structure DTyped (h : Heap) : Prop where
  pair : ∀ i < h.size, ∀ a d, (h.cells i).content = .pair a d → OkRef h a ∧ OkRef h d
  arr : ∀ i < h.size, ∀ hd da es, (h.cells i).content = .lispArr hd da es → ∀ e ∈ es, OkRef h e

/-- Cells that are not marked are as at the beginning. -/
structure DInv (h0 h : Heap) (f : Nat → Bool) : Prop where
  size : h.size = h0.size
  content : ∀ i, (h.cells i).mark = false → (h.cells i).content = (h0.cells i).content
  flag : ∀ i, (h.cells i).mark = false → f i = false

/-- The reference leads to a cell that is marked. -/
def Reached (h : Heap) (v : Val) : Prop := ∀ t i, v = .ptr t false i → (h.cells i).mark = true

/-- What marking from the values `vs` does. -/
structure DPost (h0 h : Heap) (f : Nat → Bool) (vs : List Val) (h' : Heap) (f' : Nat → Bool) : Prop where
  eq : h' = { h with cells := h'.cells }
  flags : f' = f
  cell : ∀ i, h'.cells i = { h.cells i with mark := (h'.cells i).mark }
  mono : ∀ i, (h.cells i).mark = true → (h'.cells i).mark = true
  bound : ∀ i, h.size ≤ i → h'.cells i = h.cells i
  reached : ∀ v ∈ vs, Reached h' v
  closed : ∀ i, (h.cells i).mark = false → (h'.cells i).mark = true → ∀ v ∈ (h0.cells i).content.refsD, Reached h' v
  path : ∀ P : Nat → Prop, (∀ v ∈ vs, ∀ t i, v = .ptr t false i → (h.cells i).mark = false → P i) →
    (∀ i, P i → ∀ v ∈ (h0.cells i).content.refsD, ∀ t j, v = .ptr t false j → (h.cells j).mark = false → P j) →
    ∀ i, (h.cells i).mark = false → (h'.cells i).mark = true → P i

theorem DPost.none {h0 h : Heap} {f : Nat → Bool} {vs : List Val} (hv : ∀ v ∈ vs, Reached h v) : DPost h0 h f vs h f :=
  ⟨rfl, rfl, fun _ => rfl, fun _ h => h, fun _ _ => rfl, hv, fun i h1 h2 => (by rw [h1] at h2; cases h2), fun _ _ _ i h1 h2 => (by rw [h1] at h2; cases h2)⟩

theorem DPost.seq {h0 h h1 h2 : Heap} {f f1 f2 : Nat → Bool} {as bs : List Val} (p : DPost h0 h f as h1 f1) (q : DPost h0 h1 f1 bs h2 f2) :
    DPost h0 h f (as ++ bs) h2 f2 := by
  have up : ∀ v, Reached h1 v → Reached h2 v := fun v hv t i e => q.mono i (hv t i e)
  refine ⟨?_, q.flags.trans p.flags, fun i => ?_, fun i h => q.mono i (p.mono i h), fun i hi => ?_, fun v hv => ?_, fun i h1' h2' v hv => ?_, fun P hr hc i h1' h2' => ?_⟩
  · rw [q.eq, p.eq]
  · rw [q.cell i, p.cell i]
  · rw [q.bound i (by rw [p.eq]; exact hi), p.bound i hi]
  · rcases List.mem_append.1 hv with hv | hv
    · exact up v (p.reached v hv)
    · exact q.reached v hv
  · by_cases hm : (h1.cells i).mark = true
    · exact up v (p.closed i h1' hm v hv)
    · exact q.closed i (by simpa using hm) h2' v hv
  · have down : ∀ j, (h1.cells j).mark = false → (h.cells j).mark = false := fun j hj => by
      by_cases hx : (h.cells j).mark = true
      · rw [p.mono j hx] at hj; cases hj
      · simpa using hx
    by_cases hm : (h1.cells i).mark = true
    · exact p.path P (fun v hv => hr v (List.mem_append_left _ hv)) hc i h1' hm
    · exact q.path P (fun v hv t j e hj => hr v (List.mem_append_right _ hv) t j e (down j hj)) (fun j hj v hv t k e hk => hc j hj v hv t k e (down k hk)) i
        (by simpa using hm) h2'

theorem DInv.post {h0 h h' : Heap} {f f' : Nat → Bool} {vs : List Val} (hi : DInv h0 h f) (p : DPost h0 h f vs h' f') : DInv h0 h' f' := by
  have down : ∀ j, (h'.cells j).mark = false → (h.cells j).mark = false := fun j hj => by
    by_cases hx : (h.cells j).mark = true
    · rw [p.mono j hx] at hj; cases hj
    · simpa using hx
  refine ⟨by rw [p.eq]; exact hi.size, fun i hm => ?_, fun i hm => ?_⟩
  · rw [p.cell i]; exact hi.content i (down i hm)
  · rw [p.flags]; exact hi.flag i (down i hm)

/-- The number of cells that are not marked. -/
def unmarked (h : Heap) : Nat := (unmarkedTo h h.size).length

theorem unmarkedTo_le {h h' : Heap} (hm : ∀ i, (h.cells i).mark = true → (h'.cells i).mark = true) : ∀ n, (unmarkedTo h' n).length ≤ (unmarkedTo h n).length
  | 0 => Nat.le_refl _
  | n + 1 => by
    have := unmarkedTo_le hm n
    simp only [unmarkedTo]
    by_cases e : (h.cells n).mark = true
    · rw [if_pos e, if_pos (hm n e)]; exact this
    · rw [if_neg e]
      split
      · simp only [List.length_cons]; omega
      · simp only [List.length_cons]; omega

theorem unmarkedTo_lt {h h' : Heap} (hm : ∀ i, (h.cells i).mark = true → (h'.cells i).mark = true) {i : Nat} (h1 : (h.cells i).mark = false)
    (h2 : (h'.cells i).mark = true) : ∀ n, i < n → (unmarkedTo h' n).length < (unmarkedTo h n).length
  | 0, hi => absurd hi (Nat.not_lt_zero _)
  | n + 1, hi => by
    simp only [unmarkedTo]
    by_cases e : i = n
    · subst e
      have := unmarkedTo_le hm i
      rw [if_pos h2, if_neg (by rw [h1]; simp)]
      simp only [List.length_cons]; omega
    · have := unmarkedTo_lt hm h1 h2 n (by omega)
      by_cases e : (h.cells n).mark = true
      · rw [if_pos e, if_pos (hm n e)]; exact this
      · rw [if_neg e]
        split
        · simp only [List.length_cons]; omega
        · simp only [List.length_cons]; omega

/-- Marking from a value, in heaps with less than `n` unmarked cells. -/
def DGood (null : Nat) (h0 : Heap) (n : Nat) : Prop :=
  ∀ (h : Heap) (f : Nat → Bool) (v p : Val) (cs : List (Val × Val × List Val)), unmarked h < n → DInv h0 h f → OkRef h0 v →
    ∃ h' f', DReach null ⟨h, f, v, p, .adv, cs⟩ ⟨h', f', v, p, .ret, cs⟩ ∧ DPost h0 h f [v] h' f'

theorem DPost.unmarked_le {h0 h h' : Heap} {f f' : Nat → Bool} {vs : List Val} (p : DPost h0 h f vs h' f') : unmarked h' ≤ unmarked h := by
  have e : h'.size = h.size := by rw [p.eq]
  unfold unmarked
  rw [e]
  exact unmarkedTo_le p.mono _

theorem dsw_elems {null : Nat} {h0 : Heap} {n : Nat} (ih : DGood null h0 n) (c p : Val) (cs : List (Val × Val × List Val)) : ∀ (es : List Val) (h : Heap)
    (f : Nat → Bool) (x y : Val), unmarked h < n → DInv h0 h f → (∀ e ∈ es, OkRef h0 e) →
    ∃ h' f', DReach null ⟨h, f, x, y, .elems, (c, p, es) :: cs⟩ ⟨h', f', c, p, .adv, cs⟩ ∧ DPost h0 h f es h' f'
  | [], h, f, x, y, _, _, _ => ⟨h, f, .step rfl (.refl _), .none (fun _ h => nomatch h)⟩
  | e :: es, h, f, x, y, hn, hi, ho => by
    by_cases he : e.isPtr = true
    · obtain ⟨h1, f1, r1, p1⟩ := ih h f e (nullPtr null) ((c, p, es) :: cs) hn hi (ho e List.mem_cons_self)
      obtain ⟨h2, f2, r2, p2⟩ := dsw_elems ih c p cs es h1 f1 e (nullPtr null) (Nat.lt_of_le_of_lt p1.unmarked_le hn) (hi.post p1)
        (fun e' he' => ho e' (List.mem_cons_of_mem _ he'))
      refine ⟨h2, f2, .step (b := ⟨h, f, e, nullPtr null, .adv, (c, p, es) :: cs⟩) ?_ (r1.trans (.step (b := ⟨h1, f1, e, nullPtr null, .elems, (c, p, es) :: cs⟩) ?_ r2)), p1.seq p2⟩
      · simp only [dswStep, dswElems, he, if_true]
      · simp only [dswStep, dswRet, nullPtr, if_true]
    · obtain ⟨h2, f2, r2, p2⟩ := dsw_elems ih c p cs es h f x y hn hi (fun e' he' => ho e' (List.mem_cons_of_mem _ he'))
      have hv : ∀ v ∈ [e], Reached h v := by
        intro v hv t i e1
        simp only [List.mem_cons, List.not_mem_nil, or_false] at hv
        subst hv; subst e1
        exact absurd rfl he
      refine ⟨h2, f2, .step (b := ⟨h, f, x, y, .elems, (c, p, es) :: cs⟩) ?_ r2, (DPost.none (f := f) hv).seq p2⟩
      simp only [dswStep, dswElems, if_neg he]

/-- Marking one cell without following it. -/
theorem mark_inv {h0 h : Heap} {f : Nat → Bool} (hi : DInv h0 h f) {i : Nat} {c : Cell} (hc : c.mark = true) : DInv h0 (h.setCell i c) f := by
  refine ⟨hi.size, fun j hj => ?_, fun j hj => ?_⟩
  · simp only [setCell_cells] at hj ⊢
    split at hj
    · rw [hc] at hj; cases hj
    · rename_i e; rw [if_neg e]; exact hi.content j hj
  · simp only [setCell_cells] at hj
    split at hj
    · rw [hc] at hj; cases hj
    · exact hi.flag j hj

theorem mark_lt {h : Heap} {i : Nat} {c : Cell} (hc : c.mark = true) (hm : (h.cells i).mark = false) (hi : i < h.size) : unmarked (h.setCell i c) < unmarked h := by
  refine unmarkedTo_lt (fun j hj => ?_) hm ?_ _ hi
  · simp only [setCell_cells]; split
    · exact hc
    · exact hj
  · simp only [setCell_cells, if_true]; exact hc

theorem dsw_good {null : Nat} {h0 : Heap} (hw : DTyped h0) (hnull : h0.size ≤ null) : ∀ n, DGood null h0 n
  | 0 => fun _ _ _ _ _ h => absurd h (Nat.not_lt_zero _)
  | n + 1 => by
    have ih := dsw_good hw hnull n
    intro h f v p cs hn hi ho
    -- a value that is not followed
    have skip : (∀ t i, v = .ptr t false i → i ≠ null ∧ i < h.size ∧ (h.cells i).mark = true) → (∀ k, v ≠ .cont k) →
        ∃ h' f', DReach null ⟨h, f, v, p, .adv, cs⟩ ⟨h', f', v, p, .ret, cs⟩ ∧ DPost h0 h f [v] h' f' := by
      intro hv hk
      refine ⟨h, f, .step (b := ⟨h, f, v, p, .ret, cs⟩) ?_ (.refl _), .none fun w hw t i e => ?_⟩
      · simp only [dswStep, dswAdv]
        cases v with
        | ptr t k i =>
          cases k with
          | false =>
            obtain ⟨h1, h2, h3⟩ := hv t i rfl
            simp only [Val.cell, if_neg h1, if_neg (Nat.not_le.2 h2), h3, if_true]
          | true => rfl
        | cont k => exact absurd rfl (hk k)
        | _ => rfl
      · simp only [List.mem_cons, List.not_mem_nil, or_false] at hw
        subst hw
        exact (hv t i e).2.2
    cases v with
    | sym s => exact skip (fun _ _ e => nomatch e) (fun _ e => nomatch e)
    | imm a b => exact skip (fun _ _ e => nomatch e) (fun _ e => nomatch e)
    | cont k => exact ho.elim
    | ptr t k i =>
    cases k with
    | true => exact skip (fun _ _ e => nomatch e) (fun _ e => nomatch e)
    | false =>
    have hlt : i < h.size := by rw [hi.size]; exact ho.1
    have hne : i ≠ null := by have := ho.1; omega
    by_cases hm : (h.cells i).mark = true
    · exact skip (fun _ _ e => by cases e; exact ⟨hne, hlt, hm⟩) (fun _ e => nomatch e)
    have hm : (h.cells i).mark = false := by simpa using hm
    have hcont := hi.content i hm
    have hf0 := hi.flag i hm
    -- a cell that is marked and not followed
    have leaf : (∀ v ∈ (h0.cells i).content.refsD, ∀ t j, v ≠ .ptr t false j) → dswStep null ⟨h, f, .ptr t false i, p, .adv, cs⟩ =
          .ok (.inl ⟨h.setCell i { h.cells i with mark := true }, f, .ptr t false i, p, .adv, cs⟩) →
        ∃ h' f', DReach null ⟨h, f, .ptr t false i, p, .adv, cs⟩ ⟨h', f', .ptr t false i, p, .ret, cs⟩ ∧ DPost h0 h f [.ptr t false i] h' f' := by
      intro hr hs
      refine ⟨_, f, .step hs (.step (b := ⟨h.setCell i { h.cells i with mark := true }, f, .ptr t false i, p, .ret, cs⟩) ?_ (.refl _)), ?_⟩
      · simp only [dswStep, dswAdv, Val.cell, if_neg hne, setCell_size, if_neg (Nat.not_le.2 hlt), setCell_cells, if_true]
      · refine ⟨rfl, rfl, fun j => ?_, fun j hj => ?_, fun j hj => ?_, fun w hw t' j e => ?_, fun j h1 h2 v hv => ?_, fun P hP hc j h1 h2 => ?_⟩
        · simp only [setCell_cells]; split
          · rename_i e; subst e; rfl
          · rfl
        · simp only [setCell_cells]; split
          · rfl
          · exact hj
        · simp only [setCell_cells]; rw [if_neg (by omega)]
        · simp only [List.mem_cons, List.not_mem_nil, or_false] at hw
          subst hw; cases e
          simp only [setCell_cells, if_true]
        · simp only [setCell_cells] at h2
          split at h2
          · rename_i e; subst e; exact fun t' k e' => absurd e' (hr v hv t' k)
          · rw [h1] at h2; cases h2
        · simp only [setCell_cells] at h2
          split at h2
          · rename_i e; subst e; exact hP _ List.mem_cons_self t j rfl h1
          · rw [h1] at h2; cases h2
    have hstep : ∀ r, (match some t with
        | some PTy.cons =>
          match (h.cells i).content with
          | .pair a d => Out.ok (.inl (⟨h.setCell i { h.cells i with content := .pair p d, mark := true }, f, a, .ptr t false i, .adv, cs⟩ : DSt))
          | _ => .ub
        | some .lispArray =>
          match (h.cells i).content with
          | .lispArr _ _ es => .ok (.inl ⟨h.setCell i { h.cells i with mark := true }, f, .ptr t false i, p, .elems, (.ptr t false i, p, es) :: cs⟩)
          | _ => .ub
        | _ => .ok (.inl ⟨h.setCell i { h.cells i with mark := true }, f, .ptr t false i, p, .adv, cs⟩)) = r →
        dswStep null ⟨h, f, .ptr t false i, p, .adv, cs⟩ = r := by
      intro r hr
      simp only [dswStep, dswAdv, Val.cell, if_neg hne, if_neg (Nat.not_le.2 hlt), hm]
      exact hr
    cases t with
    | cons =>
      obtain ⟨a, d, hc⟩ := ho.2
      have hci : (h.cells i).content = .pair a d := by rw [hcont, hc]
      obtain ⟨oa, od⟩ := hw.pair i ho.1 a d hc
      have s1 := hstep _ rfl
      simp only [hci] at s1
      -- the first field
      have i1 := mark_inv (i := i) (c := { h.cells i with content := .pair p d, mark := true }) hi rfl
      have l1 := mark_lt (c := { h.cells i with content := .pair p d, mark := true }) rfl hm hlt
      obtain ⟨h2, f2, r2, p2⟩ := ih _ f a (.ptr .cons false i) cs (by omega) i1 oa
      obtain rfl := p2.flags
      have c2 := p2.cell i
      have m2 : (h2.cells i).mark = true := p2.mono i (by simp only [setCell_cells, if_true])
      rw [m2] at c2
      simp only [setCell_cells, if_true] at c2
      have sz2 : h2.size = h.size := by rw [p2.eq]; rfl
      -- the turn
      have i2 := i1.post p2
      have i3 : DInv h0 (h2.setCell i { h2.cells i with content := .pair a p }) (setFlag f2 i true) := by
        refine ⟨i2.size, fun j hj => ?_, fun j hj => ?_⟩
        · simp only [setCell_cells] at hj ⊢
          split at hj
          · simp only [m2] at hj; cases hj
          · rename_i e; rw [if_neg e]; exact i2.content j hj
        · simp only [setCell_cells] at hj
          split at hj
          · simp only [m2] at hj; cases hj
          · rename_i e; simp only [setFlag, if_neg e]; exact i2.flag j hj
      have l3 : unmarked (h2.setCell i { h2.cells i with content := .pair a p }) ≤ unmarked h2 := by
        refine unmarkedTo_le (fun j hj => ?_) _
        simp only [setCell_cells]; split
        · exact m2
        · exact hj
      obtain ⟨h4, f4, r4, p4⟩ := ih _ _ d (.ptr .cons false i) cs (by have := p2.unmarked_le; omega) i3 od
      obtain rfl := p4.flags
      have c4 := p4.cell i
      have m4 : (h4.cells i).mark = true := p4.mono i (by simp only [setCell_cells, if_true]; exact m2)
      rw [m4] at c4
      simp only [setCell_cells, if_true, c2] at c4
      have sz4 : h4.size = h.size := by rw [p4.eq]; exact sz2
      -- marks
      have k24 : ∀ j, (h2.cells j).mark = true → (h4.cells j).mark = true := fun j hj => p4.mono j (by
        simp only [setCell_cells]; split
        · exact m2
        · exact hj)
      have k5 : ∀ j, ((h4.setCell i { h4.cells i with content := .pair a d }).cells j).mark = (h4.cells j).mark := fun j => by
        simp only [setCell_cells]; split
        · rename_i e; subst e; rfl
        · rfl
      have k3 : ∀ j, ((h2.setCell i { h2.cells i with content := .pair a p }).cells j).mark = (h2.cells j).mark := fun j => by
        simp only [setCell_cells]; split
        · rename_i e; subst e; rfl
        · rfl
      have k02 : ∀ j, (h.cells j).mark = true → (h2.cells j).mark = true := fun j hj => p2.mono j (by
        simp only [setCell_cells]; split
        · rfl
        · exact hj)
      have n1 : ∀ j, ((h.setCell i { h.cells i with content := .pair p d, mark := true }).cells j).mark = false → (h.cells j).mark = false := fun j hj => by
        simp only [setCell_cells] at hj
        split at hj
        · cases hj
        · exact hj
      have n2 : ∀ j, (h2.cells j).mark = false → (h.cells j).mark = false := fun j hj => by
        by_cases hx : (h.cells j).mark = true
        · rw [k02 j hx] at hj; cases hj
        · simpa using hx
      have other : ∀ j, j ≠ i → (h.cells j).mark = false → ((h.setCell i { h.cells i with content := .pair p d, mark := true }).cells j).mark = false := fun j e hj => by
        simp only [setCell_cells, if_neg e]; exact hj
      refine ⟨h4.setCell i { h4.cells i with content := .pair a d }, f2, ?_, ?_⟩
      · refine .step s1 (r2.trans (.step (b := ⟨h2.setCell i { h2.cells i with content := .pair a p }, setFlag f2 i true, d, .ptr .cons false i, .adv, cs⟩) ?_ (r4.trans
          (.step (b := ⟨h4.setCell i { h4.cells i with content := .pair a d }, f2, .ptr .cons false i, p, .ret, cs⟩) ?_ (.refl _)))))
        · simp only [dswStep, dswRet, if_neg hne, sz2, if_neg (Nat.not_le.2 hlt), c2, hf0]
          rfl
        · have e5 : setFlag (setFlag f2 i true) i false = f2 := by
            funext j
            simp only [setFlag]
            split
            · rename_i e; subst e; exact hf0.symm
            · rfl
          have e6 : setFlag f2 i true i = true := by simp only [setFlag, if_true]
          simp only [dswStep, dswRet, if_neg hne, sz4, if_neg (Nat.not_le.2 hlt), c4, e6, e5, if_true]
      · refine ⟨?_, rfl, fun j => ?_, fun j hj => ?_, fun j hj => ?_, fun w hw' t' j e => ?_, fun j h1 h2' v hv => ?_, fun P hP hcl j h1 h2' => ?_⟩
        · rw [p4.eq, p2.eq]; rfl
        · rw [k5]
          simp only [setCell_cells]
          by_cases e : j = i
          · subst e
            rw [if_pos rfl, c4]
            simp only [← hci]
          · rw [if_neg e, p4.cell j]
            simp only [setCell_cells, if_neg e]
            rw [p2.cell j]
            simp only [setCell_cells, if_neg e]
        · rw [k5]; exact k24 j (k02 j hj)
        · have e : j ≠ i := by omega
          simp only [setCell_cells, if_neg e]
          rw [p4.bound j (by simp only [setCell_size, sz2]; exact hj)]
          simp only [setCell_cells, if_neg e]
          rw [p2.bound j (by simp only [setCell_size]; exact hj)]
          simp only [setCell_cells, if_neg e]
        · simp only [List.mem_cons, List.not_mem_nil, or_false] at hw'
          subst hw'; cases e
          rw [k5]; exact m4
        · have ra : Reached (h4.setCell i { h4.cells i with content := .pair a d }) a := fun t' k e => by
            rw [k5]; exact k24 k (p2.reached a List.mem_cons_self t' k e)
          have rd : Reached (h4.setCell i { h4.cells i with content := .pair a d }) d := fun t' k e => by
            rw [k5]; exact p4.reached d List.mem_cons_self t' k e
          rw [k5] at h2'
          by_cases e : j = i
          · subst e
            rw [hc] at hv
            simp only [Content.refsD, List.mem_cons, List.not_mem_nil, or_false] at hv
            rcases hv with rfl | rfl
            · exact ra
            · exact rd
          · by_cases hm2 : (h2.cells j).mark = true
            · exact fun t' k e' => by
                rw [k5]; exact k24 k (p2.closed j (other j e h1) hm2 v hv t' k e')
            · exact fun t' k e' => by
                rw [k5]; exact p4.closed j (by rw [k3]; simpa using hm2) h2' v hv t' k e'
        · rw [k5] at h2'
          have hPi : P i := hP _ List.mem_cons_self .cons i rfl hm
          by_cases e : j = i
          · subst e; exact hPi
          · by_cases hm2 : (h2.cells j).mark = true
            · refine p2.path P (fun v hv t' k e' hk => ?_) (fun k hk v hv t' l e' hl => hcl k hk v hv t' l e' (n1 l hl)) j (other j e h1) hm2
              simp only [List.mem_cons, List.not_mem_nil, or_false] at hv
              subst hv
              exact hcl i hPi _ (by rw [hc]; exact List.mem_cons_self) t' k e' (n1 k hk)
            · refine p4.path P (fun v hv t' k e' hk => ?_) (fun k hk v hv t' l e' hl => hcl k hk v hv t' l e' (n2 l (by rw [← k3]; exact hl))) j (by rw [k3]; simpa using hm2) h2'
              simp only [List.mem_cons, List.not_mem_nil, or_false] at hv
              subst hv
              exact hcl i hPi _ (by rw [hc]; exact List.mem_cons_of_mem _ List.mem_cons_self) t' k e' (n2 k (by rw [← k3]; exact hk))
    | lispArray =>
      obtain ⟨hd, da, es, hc⟩ := ho.2
      have hci : (h.cells i).content = .lispArr hd da es := by rw [hcont, hc]
      have oe := hw.arr i ho.1 hd da es hc
      have s1 := hstep _ rfl
      rw [hci] at s1
      simp only at s1
      have i1 := mark_inv (i := i) (c := { h.cells i with mark := true }) hi rfl
      have l1 := mark_lt (c := { h.cells i with mark := true }) rfl hm hlt
      obtain ⟨h2, f2, r2, p2⟩ := dsw_elems ih (.ptr .lispArray false i) p cs es _ f (.ptr .lispArray false i) p (by omega) i1 oe
      obtain rfl := p2.flags
      have m2 : (h2.cells i).mark = true := p2.mono i (by simp only [setCell_cells, if_true])
      have sz2 : h2.size = h.size := by rw [p2.eq]; rfl
      have n1 : ∀ j, ((h.setCell i { h.cells i with mark := true }).cells j).mark = false → (h.cells j).mark = false := fun j hj => by
        simp only [setCell_cells] at hj
        split at hj
        · cases hj
        · exact hj
      have other : ∀ j, j ≠ i → (h.cells j).mark = false → ((h.setCell i { h.cells i with mark := true }).cells j).mark = false := fun j e hj => by
        simp only [setCell_cells, if_neg e]; exact hj
      refine ⟨h2, f2, .step s1 (r2.trans (.step (b := ⟨h2, f2, .ptr .lispArray false i, p, .ret, cs⟩) ?_ (.refl _))), ?_⟩
      · simp only [dswStep, dswAdv, Val.cell, if_neg hne, sz2, if_neg (Nat.not_le.2 hlt), m2, if_true]
      · refine ⟨?_, rfl, fun j => ?_, fun j hj => ?_, fun j hj => ?_, fun w hw' t' j e => ?_, fun j h1 h2' v hv => ?_, fun P hP hcl j h1 h2' => ?_⟩
        · rw [p2.eq]; rfl
        · by_cases e : j = i
          · subst e
            rw [p2.cell j]
            simp only [setCell_cells, if_true]
          · rw [p2.cell j]
            simp only [setCell_cells, if_neg e]
        · exact p2.mono j (by
            simp only [setCell_cells]; split
            · rfl
            · exact hj)
        · have e : j ≠ i := by omega
          rw [p2.bound j (by simp only [setCell_size]; exact hj)]
          simp only [setCell_cells, if_neg e]
        · simp only [List.mem_cons, List.not_mem_nil, or_false] at hw'
          subst hw'; cases e
          exact m2
        · by_cases e : j = i
          · subst e
            rw [hc] at hv
            exact p2.reached v hv
          · exact p2.closed j (other j e h1) h2' v hv
        · have hPi : P i := hP _ List.mem_cons_self .lispArray i rfl hm
          by_cases e : j = i
          · subst e; exact hPi
          · exact p2.path P (fun v hv t' k e' hk => hcl i hPi _ (by rw [hc]; exact hv) t' k e' (n1 k hk)) (fun k hk v hv t' l e' hl => hcl k hk v hv t' l e' (n1 l hl)) j
              (other j e h1) h2'
    | channel =>
      obtain ⟨ch, dep, hc⟩ := ho.2
      exact leaf (by rw [hc]; exact fun _ h => nomatch h) (hstep _ rfl)
    | _ =>
      refine leaf ?_ (hstep _ rfl)
      have h1 := ho.2.1
      generalize (h0.cells i).content = c at h1
      intro v hv t' j e
      subst e
      cases c with
      | pair a d => exact h1 _ _ hv
      | lispArr hd da es => exact h1 _ _ hv
      | _ => cases hv

end Verif.Heap
