import Verif.Lists.Lemmas

/-
C30: the list operations give the list their name says, for lists of every length (in RAM, in
constant memory or partly both), and leave existing data alone.
-/

namespace Verif.Lists
open Verif.Heap Verif.Env

/-- The outcome of an operation that builds a list: `v` is the list `xs`, its cells are not free, and nothing
but `k` cells that were free has been written. -/
structure Built (h h' : Heap) (fl : List Nat) (k : Nat) (v : Val) (xs : List Val) : Prop where
  list : LiveList h' (fl.drop k) v xs
  took : Took h h' fl k

/-- What existed before is still there: a list whose cells were not free is the same list afterwards. -/
theorem C30_arguments_kept {h h' : Heap} {fl : List Nat} {k : Nat} {v u : Val} {xs ys : List Val}
    (hb : Built h h' fl k v xs) (hl : LiveList h fl u ys) : LiveList h' (fl.drop k) u ys :=
  LiveList.took hb.took hl

/-! ### Reading -/

/-- `(length l)` is the number of elements. -/
theorem C30_length {h : Heap} {l : Val} {xs : List Val} (hl : IsList h l xs) :
    ∃ n, ∀ f ≥ n, listLength h f l = some xs.length := by
  obtain ⟨is, hc⟩ := hl
  exact ⟨xs.length + 1, fun f hf => listLength_spec rfl hc f hf⟩

/-- The element at position `n`; negative positions count from the end. -/
def elemAt (xs : List Val) (n : Int) : Option Val :=
  if 0 ≤ n then xs[n.toNat]? else xs.reverse[(-n - 1).toNat]?

/-- `(ix l n)` is the element at position `n`, and nil when there is none. -/
theorem C30_ix {h : Heap} {l : Val} {xs : List Val} (hl : IsList h l xs) (n : Int) :
    ∃ m, ∀ f ≥ m, indexList f h l n = some ((elemAt xs n).getD nil) := by
  obtain ⟨is, hc⟩ := hl
  refine ⟨xs.length + 1, fun f hf => ?_⟩
  unfold indexList elemAt
  by_cases hn : n < 0
  · rw [if_pos hn, if_neg (by omega), listLength_spec rfl hc f hf]
    show some (if (xs.length : Int) + n < 0 then nil else idxLoop h ((xs.length : Int) + n).toNat l) = some _
    by_cases h2 : (xs.length : Int) + n < 0
    · rw [if_pos h2, List.getElem?_eq_none (by simp; omega)]; rfl
    · rw [if_neg h2, idxLoop_spec rfl hc]
      rw [List.getElem?_reverse (by omega)]
      congr 3
      omega
  · rw [if_neg hn, if_pos (by omega), idxLoop_spec rfl hc]

/-- `(drop l n)` is the rest of the same list. -/
theorem C30_drop {h : Heap} {fl : List Nat} {l : Val} {xs : List Val} (hl : LiveList h fl l xs) (n : Nat) :
    LiveList h fl (fDrop h l n) (xs.drop n) := by
  obtain ⟨is, hc, hd⟩ := hl
  have : isList l = true := by cases hc <;> rfl
  obtain ⟨js, h1, h2⟩ := listDrop_spec rfl hc n
  refine ⟨js, by simpa [fDrop, this] using h1, fun j hj => hd j (h2 j hj)⟩

/-! ### Copying -/

theorem nodup_take_drop {fl : List Nat} (hnd : fl.Nodup) (k : Nat) : ∀ i ∈ fl.take k, i ∉ fl.drop k := by
  intro i hi hm
  rw [← List.take_append_drop k fl, List.nodup_append] at hnd
  exact hnd.2.2 i hi i hm rfl

theorem listCopy_spec {h : Heap} {fl : List Nat} {l : Val} {xs : List Val} (hf : FreeOK h fl) (hl : LiveList h fl l xs)
    (m : Int) (f : Nat) (hlen : xs.length < f) :
    let k := if 0 ≤ m ∧ m < xs.length then m.toNat else xs.length
    let m' := if 0 ≤ m ∧ m < xs.length then m else if m = -1 then (xs.length : Int) else m
    (k ≤ fl.length → ∃ h' v, listCopy f h m l = some (h', v, m') ∧ ListAt h' v (fl.take k) (xs.take k) ∧
      Took h h' fl k) ∧
    (fl.length < k → listCopy f h m l = some (h, merror, m')) := by
  intro k m'
  obtain ⟨is, hc, hd⟩ := hl
  have hk : k ≤ xs.length := by simp only [k]; split <;> omega
  have e0 : listCopy f h m l = (if k = 0 then some (h, nil, m')
      else
        match allocateList h k with
        | none => none
        | some (h1, v) =>
          if isSymbol v then some (h1, v, m')
          else some (copyTo k h1 v l, v, m')) := by
    unfold listCopy
    rw [listLength_spec rfl hc f hlen]
    rfl
  rw [e0]
  clear_value k m'
  by_cases h0 : k = 0
  · subst h0
    exact ⟨fun _ => ⟨h, nil, rfl, rfl, Took.refl hf⟩, fun hh => by omega⟩
  · rw [if_neg h0]
    unfold allocateList
    rcases allocateListInit_cases hf (List.replicate k nil) with ⟨hv, _⟩ | ⟨_, h1, e⟩ | ⟨hv, hle⟩
    · simp at hv; omega
    · simp only [List.length_replicate] at h1
      refine ⟨fun hh => by omega, fun _ => ?_⟩
      rw [e]; rfl
    · obtain ⟨h2, e1, e2, e3, e4, e5, e6, e7, e8, e9, e10⟩ := allocateListInit_spec hf _ hle hv
      simp only [List.length_replicate] at hle e1 e2 e3 e9 e10
      refine ⟨fun _ => ?_, fun hh => by omega⟩
      have t : Took h h2 fl k := ⟨e3, e10, e6, e4⟩
      have hlk : (fl.take k).length = k := by simp; omega
      have hs : isSymbol (headOf (fl.take k)) = false := by
        cases hq : fl.take k with
        | nil => rw [hq] at hlk; simp at hlk; omega
        | cons a b => rfl
      obtain ⟨g1, g2⟩ := copyTo_spec (js := is) e2
        (chain_congr (fun i hi => by rw [e10 i (fun hm => hd i hi (List.mem_of_mem_take hm))]) e6 hc)
        (by omega) (hf.2.1.sublist (List.take_sublist _ _))
        (fun j hj hm => hd j hj (List.mem_of_mem_take hm))
      rw [hlk] at g1 g2
      exact ⟨_, _, by rw [e1]; simp only [hs]; rfl, g1, t.wrote hf.2.1 g2⟩

/-- `(take l n)` is a new list of the first `n` elements of `l`, or an out of memory error if there are
not enough free cells, in which case nothing changed. -/
theorem C30_take {h : Heap} {fl : List Nat} {l : Val} {xs : List Val} (hf : FreeOK h fl) (hl : LiveList h fl l xs) (n : Nat) :
    ∃ m, ∀ f ≥ m,
      if (xs.take n).length ≤ fl.length
      then ∃ h' v, fTake f h l n = some (h', v) ∧ Built h h' fl (xs.take n).length v (xs.take n)
      else fTake f h l n = some (h, merror) := by
  refine ⟨xs.length + 1, fun f hlen => ?_⟩
  have hil : isList l = true := by obtain ⟨is, hc, _⟩ := hl; cases hc <;> rfl
  obtain ⟨h1, h2⟩ := listCopy_spec hf hl n f hlen
  have ek : (if 0 ≤ (n : Int) ∧ (n : Int) < xs.length then (n : Int).toNat else xs.length) = (xs.take n).length := by
    simp only [List.length_take]; split <;> omega
  rw [ek] at h1 h2
  have et : xs.take (xs.take n).length = xs.take n := by simp
  rw [et] at h1
  split
  · rename_i hle
    obtain ⟨h', v, e, g1, g2⟩ := h1 hle
    refine ⟨h', v, by simp [fTake, hil, e], ⟨_, chain_of_listAt g1, nodup_take_drop hf.2.1 _⟩, g2⟩
  · rename_i hle
    simp [fTake, hil, h2 (by omega)]

/-- `(reverse l)` is a new list of the elements of `l` in the opposite order, or an out of memory error. -/
theorem C30_reverse {h : Heap} {fl : List Nat} {l : Val} {xs : List Val} (hf : FreeOK h fl) (hl : LiveList h fl l xs) :
    ∃ m, ∀ f ≥ m, ∃ h' v, fReverse f h l = some (h', v) ∧
      if xs.length ≤ fl.length then Built h h' fl xs.length v xs.reverse
      else v = merror ∧ Took h h' fl fl.length := by
  refine ⟨xs.length + 1, fun f hlen => ?_⟩
  have hil : isList l = true := by obtain ⟨is, hc, _⟩ := hl; cases hc <;> rfl
  obtain ⟨is, hc, hd⟩ := hl
  refine ⟨_, _, by rw [fReverse, if_pos hil, reverseLoop_eq f nil hf hc hd hlen], ?_⟩
  split
  · rename_i hle
    obtain ⟨js, g1, _, g3, g4, _⟩ := consAll_spec xs nil hf hle
    exact ⟨⟨js, g1, fun i hi => nodup_take_drop hf.2.1 _ i (g3 i hi)⟩, g4⟩
  · exact consAll_full xs nil hf (by omega)

/-! ### append -/

/-- Consing one list after the other is consing all. -/
theorem consAll_append : ∀ (xs ys : List Val) (h : Heap) (r : Val),
    consAll (xs ++ ys) h r = consAll ys (consAll xs h r).1 (consAll xs h r).2 := by
  intro xs
  induction xs with
  | nil => intro ys h r; rfl
  | cons x xs ih => intro ys h r; exact ih ys _ _

theorem consAll_took (xs : List Val) {h : Heap} {fl : List Nat} (res : Val) (hf : FreeOK h fl) :
    ∃ k, Took h (consAll xs h res).1 fl k := by
  rcases Nat.lt_or_ge fl.length xs.length with h1 | h1
  · exact ⟨_, (consAll_full xs res hf h1).2⟩
  · obtain ⟨_, _, _, _, t, _⟩ := consAll_spec xs res hf h1
    exact ⟨_, t⟩

/-- The values are the proper lists `xss`. -/
def LiveLists (h : Heap) (fl : List Nat) : List Val → List (List Val) → Prop
  | [], [] => True
  | v :: vs, xs :: xss => LiveList h fl v xs ∧ LiveLists h fl vs xss
  | _, _ => False

theorem LiveLists.took {h h' : Heap} {fl : List Nat} {k : Nat} (t : Took h h' fl k) : ∀ {vs : List Val} {xss : List (List Val)},
    LiveLists h fl vs xss → LiveLists h' (fl.drop k) vs xss := by
  intro vs
  induction vs with
  | nil => intro xss hl; cases xss with
    | nil => trivial
    | cons => exact hl.elim
  | cons v vs ih => intro xss hl; cases xss with
    | nil => exact hl.elim
    | cons xs xss => exact ⟨LiveList.took t hl.1, ih hl.2⟩

theorem LiveLists.snoc {h : Heap} {fl : List Nat} {v : Val} {xs : List Val} (h2 : LiveList h fl v xs) :
    ∀ {vs : List Val} {xss : List (List Val)}, LiveLists h fl vs xss → LiveLists h fl (vs ++ [v]) (xss ++ [xs]) := by
  intro vs
  induction vs with
  | nil => intro xss hl; cases xss with
    | nil => exact ⟨h2, trivial⟩
    | cons => exact hl.elim
  | cons u vs ih => intro xss hl; cases xss with
    | nil => exact hl.elim
    | cons xs xss => exact ⟨hl.1, ih hl.2⟩

theorem LiveLists.reverse {h : Heap} {fl : List Nat} : ∀ {vs : List Val} {xss : List (List Val)}, LiveLists h fl vs xss →
    LiveLists h fl vs.reverse xss.reverse := by
  intro vs
  induction vs with
  | nil => intro xss hl; cases xss with
    | nil => trivial
    | cons => exact hl.elim
  | cons u vs ih => intro xss hl; cases xss with
    | nil => exact hl.elim
    | cons xs xss => simp only [List.reverse_cons]; exact (ih hl.2).snoc hl.1

theorem appendRev_eq : ∀ {vs : List Val} {xss : List (List Val)} {h : Heap} {fl : List Nat} (f : Nat) (res : Val), FreeOK h fl →
    LiveLists h fl vs xss → (∀ xs ∈ xss, xs.length < f) →
    appendRev f vs h res = some (consAll (xss.map List.reverse).flatten h res) := by
  intro vs
  induction vs with
  | nil =>
    intro xss h fl f res hf hl _
    cases xss with
    | nil => rfl
    | cons => exact hl.elim
  | cons v vs ih =>
    intro xss h fl f res hf hl hlen
    cases xss with
    | nil => exact hl.elim
    | cons xs xss =>
      obtain ⟨hl1, hl2⟩ := hl
      have hil : isList v = true := by obtain ⟨is, hc, _⟩ := hl1; cases hc <;> rfl
      have hll : listLength h f v = some xs.length := by
        obtain ⟨is, hc, _⟩ := hl1
        exact listLength_spec rfl hc f (hlen xs (by simp))
      have e1 := appendOne_eq xs.length res hf hl1 (Nat.le_refl _)
      rw [List.take_length] at e1
      obtain ⟨k, t⟩ := consAll_took xs.reverse res hf
      simp only [appendRev, hil, if_true, hll, e1, List.map_cons, List.flatten_cons, consAll_append]
      exact ih f _ t.free (LiveLists.took t hl2) (fun ys hy => hlen ys (by simp [hy]))

/-- `(append l1 ... ln v)` is a new list of the elements of `l1`, ..., `ln` in order, ending in the last argument `v`
itself (which is shared, not copied), or an out of memory error. -/
theorem C30_append {h : Heap} {fl : List Nat} {ls : List Val} {xss : List (List Val)} (hf : FreeOK h fl)
    (hl : LiveLists h fl ls xss) (hne : ls ≠ []) (v : Val) :
    ∃ m, ∀ f ≥ m, ∃ h' r, fAppend f h (ls ++ [v]) = some (h', r) ∧
      if xss.flatten.length ≤ fl.length
      then (∃ is, Chain h' v r is xss.flatten ∧ ∀ i ∈ is, i ∈ fl.take xss.flatten.length) ∧
        Took h h' fl xss.flatten.length
      else r = merror ∧ Took h h' fl fl.length := by
  have hb : ∃ m, ∀ xs ∈ xss, xs.length < m := by
    clear hl
    induction xss with
    | nil => exact ⟨0, by simp⟩
    | cons xs xss ih =>
      obtain ⟨m, hm⟩ := ih
      refine ⟨m + xs.length + 1, fun ys hy => ?_⟩
      rcases List.mem_cons.1 hy with rfl | hy
      · omega
      · have := hm ys hy; omega
  obtain ⟨m, hm⟩ := hb
  refine ⟨m, fun f hfm => ?_⟩
  have e : fAppend f h (ls ++ [v]) = appendRev f ls.reverse h v := by
    unfold fAppend
    rw [List.reverse_append]
    cases hq : ls.reverse with
    | nil => simp at hq; exact absurd hq hne
    | cons a b => rfl
  have ex : (xss.reverse.map List.reverse).flatten = xss.flatten.reverse := by
    rw [List.map_reverse, List.reverse_flatten]
  refine ⟨_, _, by rw [e, appendRev_eq f v hf hl.reverse (fun xs hx => by
    have := hm xs (by simpa using hx); omega), ex], ?_⟩
  split
  · rename_i hle
    obtain ⟨js, g1, _, g3, g4, _⟩ := consAll_spec xss.flatten.reverse v hf (by simpa using hle)
    rw [List.reverse_reverse] at g1
    rw [List.length_reverse] at g3 g4
    exact ⟨⟨js, g1, g3⟩, g4⟩
  · exact consAll_full _ v hf (by rw [List.length_reverse]; omega)

/-- Appending proper lists gives the proper list of all the elements. -/
theorem C30_append_lists {h : Heap} {fl : List Nat} {ls : List Val} {xss : List (List Val)} {v : Val} {ys : List Val}
    (hf : FreeOK h fl) (hl : LiveLists h fl ls xss) (hne : ls ≠ []) (hv : LiveList h fl v ys)
    (hroom : xss.flatten.length ≤ fl.length) :
    ∃ m, ∀ f ≥ m, ∃ h' r, fAppend f h (ls ++ [v]) = some (h', r) ∧
      Built h h' fl xss.flatten.length r (xss.flatten ++ ys) := by
  obtain ⟨m, hm⟩ := C30_append hf hl hne v
  refine ⟨m, fun f hfm => ?_⟩
  obtain ⟨h', r, e, g⟩ := hm f hfm
  rw [if_pos hroom] at g
  obtain ⟨⟨is, g1, g2⟩, t⟩ := g
  obtain ⟨js, g3, g4⟩ := LiveList.took t hv
  refine ⟨h', r, e, ⟨is ++ js, chain_append g1 g3, fun i hi => ?_⟩, t⟩
  rcases List.mem_append.1 hi with hi | hi
  · exact nodup_take_drop hf.2.1 _ i (g2 i hi)
  · exact g4 i hi

/-! ### range -/

/-- The integers from `start` up to but not including `stop`, or, when `stop < start`, from `start - 1` down to `stop`. -/
def ints (start stop : Int) : List Int :=
  if start ≤ stop then (List.range (stop - start).toNat).map (fun j : Nat => start + (j : Int))
  else ((List.range (start - stop).toNat).map (fun j : Nat => stop + (j : Int))).reverse

theorem listAt_of_chain {h : Heap} {v : Val} {is : List Nat} {xs : List Val} (hc : Chain h nil v is xs)
    (hr : is.length = xs.length) : ListAt h v is xs := by
  induction hc with
  | nil => rfl
  | ram e hc ih => exact ⟨rfl, _, e, ih (by simpa using hr)⟩
  | rom e hc ih =>
    have := chain_len hc
    simp at hr; omega

theorem consAll_listAt (xs : List Val) {h : Heap} {fl : List Nat} (hf : FreeOK h fl)
    (hle : xs.length ≤ fl.length) : ∃ is, ListAt (consAll xs h nil).1 (consAll xs h nil).2 is xs.reverse ∧ is.Nodup ∧
      (∀ i ∈ is, i ∈ fl.take xs.length) ∧ Took h (consAll xs h nil).1 fl xs.length := by
  obtain ⟨is, g1, g2, g3, g4, g5⟩ := consAll_spec xs nil hf hle
  exact ⟨is, listAt_of_chain g1 (by simpa using g5), g2, g3, g4⟩

theorem encI_id {w : Nat} {z : Int} (h1 : -(2 ^ (w - 1)) ≤ z) (h2 : z < 2 ^ (w - 1)) (hw : 0 < w) :
    encI w z = .imm 0 z := by
  unfold encI
  rw [BitVec.toInt_ofInt, Int.bmod_eq_of_le]
  · have : (2 : Int) ^ w = 2 * 2 ^ (w - 1) := by
      obtain ⟨v, rfl⟩ := Nat.exists_eq_succ_of_ne_zero (by omega : w ≠ 0)
      simp [Int.pow_succ]; omega
    push_cast
    omega
  · have : (2 : Int) ^ w = 2 * 2 ^ (w - 1) := by
      obtain ⟨v, rfl⟩ := Nat.exists_eq_succ_of_ne_zero (by omega : w ≠ 0)
      simp [Int.pow_succ]; omega
    push_cast
    omega

/-- `(range start end)` is the list of the integers from `start` up to `end` (excluded), in falling order when
`end` is the smaller, if those fit in an integer value of `w` bits (28 or 56); an out of memory error when there are not
enough free cells, and then nothing changed. -/
theorem C30_range {w : Nat} {h : Heap} {fl : List Nat} (hf : FreeOK h fl) (hw : 0 < w) (start stop : Int)
    (hfit : ∀ z, min start stop ≤ z → z < max start stop → -(2 ^ (w - 1)) ≤ z ∧ z < 2 ^ (w - 1))
    (hlo : -(2 ^ 31) < min start stop) (hspan : max start stop - min start stop < 2 ^ 31) :
    ∃ m, ∀ f ≥ m,
      if (ints start stop).length ≤ fl.length
      then ∃ h' v, fRange w f h start stop = some (h', v) ∧
        Built h h' fl (ints start stop).length v ((ints start stop).map (.imm 0))
      else fRange w f h start stop = some (h, merror) := by
  have hnf : numFree h = fl.length := freeOK_len hf
  rcases Int.lt_trichotomy start stop with hc | rfl | hc
  · have hmin : min start stop = start := by omega
    have hmax : max start stop = stop := by omega
    rw [hmin, hmax] at hfit hspan
    rw [hmin] at hlo
    have hlenI : (ints start stop).length = (stop - start).toNat := by simp [ints, if_pos (by omega : start ≤ stop)]
    refine ⟨0, fun f _ => ?_⟩
    have hmap : ((List.range (stop - start).toNat).map fun (j : Nat) => encI w (start + j)) = (ints start stop).map (.imm 0) := by
      simp only [ints, if_pos (by omega : start ≤ stop), List.map_map]
      apply List.map_congr_left
      intro j hj
      have := List.mem_range.1 hj
      exact encI_id (hfit _ (by omega) (by omega)).1 (hfit _ (by omega) (by omega)).2 hw
    unfold fRange
    simp only [if_neg (by omega : ¬ stop = start), if_neg (by omega : ¬ stop < start), decide_eq_false (by omega : ¬ stop < start),
      if_neg (by omega : ¬ (2 ^ 31 - 1 < stop - start)), if_neg (by omega : ¬ start = -(2 ^ 31)), hnf]
    split
    · rename_i hle
      rw [if_neg (by omega)]
      rw [rangeLoop_eq, hmap]
      obtain ⟨is, g1, g2, g3, g4⟩ := consAll_listAt ((ints start stop).map (.imm 0)).reverse hf (by simpa using hle)
      rw [List.reverse_reverse] at g1
      simp only [List.length_reverse, List.length_map] at g3 g4
      exact ⟨_, _, rfl, ⟨is, chain_of_listAt g1, fun i hi => nodup_take_drop hf.2.1 _ i (g3 i hi)⟩, g4⟩
    · rw [if_pos (by omega)]
  · refine ⟨0, fun f _ => ?_⟩
    have : ints start start = [] := by simp [ints]
    rw [this]
    refine ⟨h, nil, by simp [fRange], ⟨[], .nil, by simp⟩, Took.refl hf⟩
  · have hmin : min start stop = stop := by omega
    have hmax : max start stop = start := by omega
    rw [hmin, hmax] at hfit hspan
    rw [hmin] at hlo
    have hlenI : (ints start stop).length = (start - stop).toNat := by simp [ints, if_neg (by omega : ¬ start ≤ stop)]
    refine ⟨(ints start stop).length + 1, fun f hfm => ?_⟩
    have hmap : ((List.range (start - stop).toNat).map fun (j : Nat) => encI w (stop + j)) =
        ((ints start stop).map (.imm 0)).reverse := by
      simp only [ints, if_neg (by omega : ¬ start ≤ stop), List.map_reverse, List.reverse_reverse, List.map_map]
      apply List.map_congr_left
      intro j hj
      have := List.mem_range.1 hj
      exact encI_id (hfit _ (by omega) (by omega)).1 (hfit _ (by omega) (by omega)).2 hw
    unfold fRange
    simp only [if_neg (by omega : ¬ stop = start), if_pos hc, decide_eq_true hc,
      if_neg (by omega : ¬ (2 ^ 31 - 1 < start - stop)), if_neg (by omega : ¬ stop = -(2 ^ 31)), hnf]
    split
    · rename_i hle
      rw [if_neg (by omega)]
      rw [rangeLoop_eq, hmap, List.reverse_reverse]
      obtain ⟨is, g1, g2, g3, g4⟩ := consAll_listAt ((ints start stop).map (.imm 0)) hf (by simpa using hle)
      simp only [List.length_map] at g3 g4
      obtain ⟨h', r, e, r1, r2⟩ := destructiveReverse_spec f g1 g2 (by simp; omega)
      rw [List.reverse_reverse] at r1
      refine ⟨h', r, e, ⟨is.reverse, chain_of_listAt r1, fun i hi => ?_⟩, g4.wrote hf.2.1 (r2.mono g3)⟩
      exact nodup_take_drop hf.2.1 _ i (g3 i (by simpa using hi))
    · rw [if_pos (by omega)]

/-! ### rotate -/

theorem neg_mod_right (d L : Nat) (hL : 0 < L) : (L - d % L) % L = (-(d : Int) % L).toNat := by
  have h1 := Nat.mod_lt d hL
  have : (-(d : Int) % L) = (((L - d % L) % L : Nat) : Int) := by
    rw [Int.natCast_emod, Int.natCast_sub (by omega), Int.natCast_emod]
    rw [Int.sub_emod, Int.emod_emod_of_dvd _ (Int.dvd_refl _), ← Int.sub_emod, Int.sub_eq_add_neg, Int.add_comm,
      Int.add_emod_right]
  omega

/-- `(rotate l d)` for a list of two or more elements is a new list: `l` rotated `d` steps to the right, or `-d` steps
to the left. `List.rotate xs k` moves the first `k` elements to the end. -/
theorem C30_rotate_partial {h : Heap} {fl : List Nat} {l : Val} {xs : List Val} (hf : FreeOK h fl) (hl : LiveList h fl l xs)
    (dist : Int) (h2 : 2 ≤ xs.length) (hd : -(2 ^ 31) < dist) :
    ∃ m, ∀ f ≥ m,
      if xs.length ≤ fl.length
      then ∃ h' v, fRotate f h l dist = some (h', v) ∧
        Built h h' fl xs.length v (xs.rotate (-dist % xs.length).toNat)
      else fRotate f h l dist = some (h, merror) := by
  refine ⟨xs.length + 1, fun f hlen => ?_⟩
  have hil : isList l = true := by obtain ⟨is, hc, _⟩ := hl; cases hc <;> rfl
  obtain ⟨c1, c2⟩ := listCopy_spec hf hl (-1) f hlen
  simp only [Int.reduceNeg, if_neg (by omega : ¬ (0 ≤ (-1 : Int) ∧ (-1 : Int) < xs.length)), if_true, List.take_length] at c1 c2
  unfold fRotate
  rw [if_pos hil]
  split
  · rename_i hle
    obtain ⟨h1, v, e, g1, g2⟩ := c1 hle
    rw [e]
    have hlt : (fl.take xs.length).length = xs.length := by simp; omega
    have hnd : (fl.take xs.length).Nodup := hf.2.1.sublist (List.take_sublist _ _)
    generalize hks : fl.take xs.length = ks at *
    have hv : isSymbol v = false := by
      cases ks with
      | nil => simp at hlt; omega
      | cons a b => cases xs with
        | nil => simp at h2
        | cons => obtain ⟨rfl, _⟩ := g1; rfl
    simp only [hv, Bool.false_and, Bool.false_eq_true, if_false]
    by_cases hd0 : dist = 0
    · subst hd0
      rw [if_neg (by omega)]
      refine ⟨h1, v, rfl, ⟨ks, chain_of_listAt (by simpa using g1), ?_⟩, g2⟩
      rw [← hks]; exact nodup_take_drop hf.2.1 _
    · rw [if_pos ⟨by omega, hd0⟩, if_neg (by omega)]
      have body : ∀ (h1 : Heap) (v : Val) (ks : List Nat) (xs : List Val), ListAt h1 v ks xs → ks.Nodup → 2 ≤ ks.length → xs.length < f →
          ∃ h' r, rotBody f dist.natAbs h1 v = some (h', r) ∧ ListAt h' r (ks.rotate dist.natAbs) (xs.rotate dist.natAbs) ∧
            Wrote h1 h' ks := by
        intro h1 v ks xs b1 b2 b3 b4
        obtain ⟨n, hn⟩ : ∃ n, ks.getLast? = some n := by
          cases ks with
          | nil => simp at b3
          | cons a b => exact ⟨_, List.getLast?_eq_some_getLast (by simp)⟩
        obtain ⟨r1, r2⟩ := rotLoop_spec dist.natAbs b1 b2 hn b3
        refine ⟨_, _, ?_, r1, r2⟩
        rw [rotBody, lastCell_spec f b1 b4, hn]
        rfl
      by_cases hpos : 0 < dist
      · simp only [flip, decide_eq_true hpos, if_true]
        obtain ⟨h2', r, e2, a1, a2⟩ := destructiveReverse_spec f g1 hnd hlen
        rw [e2]
        obtain ⟨h3, r3, e3, b1, b2⟩ := body h2' r _ _ a1 (List.nodup_reverse.2 hnd) (by simp; omega) (by simp; omega)
        simp only [e3]
        obtain ⟨h4, r4, e4, d1, d2⟩ := destructiveReverse_spec f b1 (List.nodup_rotate.2 (List.nodup_reverse.2 hnd)) (by simp; omega)
        have ex : (xs.reverse.rotate dist.natAbs).reverse = xs.rotate (-dist % xs.length).toNat := by
          rw [List.reverse_rotate, List.reverse_reverse, List.length_reverse, ← List.rotate_mod]
          congr 1
          obtain ⟨d, rfl⟩ := Int.eq_ofNat_of_zero_le (Int.le_of_lt hpos)
          exact neg_mod_right _ _ (by omega)
        refine ⟨h4, r4, e4, ⟨_, chain_of_listAt (by rw [← ex]; exact d1), ?_⟩, g2.wrote hf.2.1 ?_⟩
        · intro i hi
          have hi' : i ∈ ks := by simpa using hi
          rw [← hks] at hi'
          exact nodup_take_drop hf.2.1 _ i hi'
        · rw [hks]
          exact a2.trans ((b2.mono (by simp)).trans (d2.mono (by simp)))
      · simp only [flip, decide_eq_false hpos, Bool.false_eq_true, if_false]
        obtain ⟨h3, r3, e3, b1, b2⟩ := body h1 v _ _ g1 hnd (by omega) (by omega)
        simp only [e3]
        have ex : xs.rotate dist.natAbs = xs.rotate (-dist % xs.length).toNat := by
          rw [← List.rotate_mod]
          congr 1
          obtain ⟨d, hd'⟩ := Int.eq_ofNat_of_zero_le (show 0 ≤ -dist by omega)
          have hda : dist.natAbs = d := by omega
          rw [hda, hd']
          rfl
        refine ⟨h3, r3, rfl, ⟨_, chain_of_listAt (by rw [← ex]; exact b1), ?_⟩, g2.wrote hf.2.1 (by rw [hks]; exact b2)⟩
        intro i hi
        have hi' : i ∈ ks := by simpa using hi
        rw [← hks] at hi'
        exact nodup_take_drop hf.2.1 _ i hi'
  · rename_i hle
    rw [c2 (by omega)]
    rfl

/-! ### setix -/

/-- The position that the index `n` means in a list of `len` elements, if there is one. -/
def pos (len : Nat) (n : Int) : Option Nat :=
  let p := if n < 0 then len + n else n
  if 0 ≤ p ∧ p < len then some p.toNat else none

theorem setIxLoop_spec {all val : Val} : ∀ {is : List Nat} {xs : List Val} {h : Heap} {v : Val} (f : Nat) (ix : Option Nat), ListAt h v is xs →
    is.Nodup → is ≠ [] → xs.length < f →
    match ix with
    | some p => if p < xs.length then ∃ h', setIxLoop all val f h v ix = some (h', all) ∧ ListAt h' v is (xs.set p val) ∧
        Wrote h h' is
      else setIxLoop all val f h v ix = some (h, nil)
    | none => setIxLoop all val f h v ix = some (h, nil) := by
  intro is
  induction is with
  | nil => intro xs h v f ix _ _ hne; exact absurd rfl hne
  | cons i is ih =>
    intro xs h v f ix hl hnd _ hlen
    obtain ⟨f, rfl⟩ := Nat.exists_eq_succ_of_ne_zero (by omega : f ≠ 0)
    cases xs with
    | nil => exact hl.elim
    | cons x xs =>
      obtain ⟨rfl, d, e, hd⟩ := hl
      have hnd' := List.nodup_cons.1 hnd
      have hrw : isConsRW (.ptr .cons false i) = true := rfl
      have hdn : is = [] ∧ xs = [] ∧ d = nil ∨ is ≠ [] ∧ d ≠ nil := by
        cases is with
        | nil => cases xs with
          | nil => exact .inl ⟨rfl, rfl, hd⟩
          | cons => exact hd.elim
        | cons j is => cases xs with
          | nil => exact hd.elim
          | cons => obtain ⟨rfl, _⟩ := hd; exact .inr ⟨by simp, by simp [nil]⟩
      match ix with
      | none =>
        simp only [setIxLoop, hrw, if_true, cdr_pair e]
        rcases hdn with ⟨_, _, hdn⟩ | ⟨hne, hdn⟩
        · simp [hdn]
        · simpa [hdn] using ih f none hd hnd'.2 hne (by simpa using hlen)
      | some 0 =>
        simp only [setIxLoop, hrw, if_true]
        have p := setCar_poke (v := val) e
        refine ⟨_, rfl, ⟨rfl, d, p.at_, ?_⟩, .poke p (by simp)⟩
        exact listAt_congr (fun j hj => by rw [p.other j (by rintro rfl; exact hnd'.1 hj)]) hd
      | some (p + 1) =>
        simp only [setIxLoop, hrw, if_true, cdr_pair e]
        rcases hdn with ⟨h1, h2, hdn⟩ | ⟨hne, hdn⟩
        · subst h2; simp [hdn]
        · have := ih f (some p) hd hnd'.2 hne (by simpa using hlen)
          simp only [List.length_cons, Nat.add_lt_add_iff_right, List.set_cons_succ]
          simp only [reduceCtorEq, Option.some.injEq, Nat.add_eq_zero_iff, Nat.succ_ne_self, and_false, if_false, hdn, Option.map_some, Nat.add_sub_cancel]
          split
          · rename_i hp
            simp only [hp, if_true] at this
            obtain ⟨h', g1, g2, g3⟩ := this
            refine ⟨h', by simpa using g1, ⟨rfl, d, ?_, g2⟩, g3.mono (by simp; tauto)⟩
            rw [g3.other i hnd'.1]; exact e
          · rename_i hp
            simpa [hp] using this

/-- `(setix l n v)` on a list in RAM replaces the element at position `n` in place and returns the list; when there is no such position it
returns nil and changes nothing. Only cells of the list are written, none of its links change. -/
theorem C30_setix {h : Heap} {l : Val} {is : List Nat} {xs : List Val} (hl : ListAt h l is xs) (hnd : is.Nodup) (hne : xs ≠ [])
    (n : Int) (val : Val) :
    ∃ m, ∀ f ≥ m,
      match pos xs.length n with
      | some p => ∃ h', fSetIx f h l n val = some (h', l) ∧ ListAt h' l is (xs.set p val) ∧ Wrote h h' is
      | none => fSetIx f h l n val = some (h, nil) := by
  refine ⟨xs.length + 1, fun f hf => ?_⟩
  have hne' : is ≠ [] := by
    rintro rfl
    have := listAt_len hl
    exact hne (List.length_eq_zero_iff.1 this.symm)
  have hil : isListRW l = true := by
    cases is with
    | nil => exact absurd rfl hne'
    | cons i is => cases xs with
      | nil => exact absurd rfl hne
      | cons x xs => obtain ⟨rfl, _⟩ := hl; rfl
  unfold fSetIx
  rw [if_pos hil]
  by_cases hn : n < 0
  · rw [if_pos hn, listLength_spec rfl (chain_of_listAt hl) f hf]
    by_cases h0 : (xs.length : Int) + n < 0
    · have e : pos xs.length n = none := by simp [pos, hn]; omega
      simp only [e, if_pos h0]
      exact setIxLoop_spec f none hl hnd hne' hf
    · have e : pos xs.length n = some ((xs.length : Int) + n).toNat := by
        simp only [pos, hn, if_true]; rw [if_pos (by omega)]
      simp only [e, if_neg h0]
      have := setIxLoop_spec (all := l) (val := val) f (some ((xs.length : Int) + n).toNat) hl hnd hne' hf
      simp only at this
      rwa [if_pos (by omega)] at this
  · rw [if_neg hn]
    have := setIxLoop_spec (all := l) (val := val) f (some n.toNat) hl hnd hne' hf
    simp only at this
    by_cases h0 : n < xs.length
    · have e : pos xs.length n = some n.toNat := by
        simp only [pos, hn, if_false]; rw [if_pos (by omega)]
      simp only [e]
      rwa [if_pos (by omega)] at this
    · have e : pos xs.length n = none := by
        simp only [pos, hn, if_false]; rw [if_neg (by omega)]
      simp only [e]
      rwa [if_neg (by omega)] at this

/-! ### Where the code does not do this -/

theorem rotLoop_nil : ∀ (d : Nat) (h : Heap) (e : Val), (rotLoop d h nil e).2 = nil := by
  intro d
  induction d with
  | zero => intro h e; rfl
  | succ d ih => intro h e; exact ih _ _

/-- Rotating a list of one element loses it: the result is nil, whatever the distance. -/
theorem C30_rotate_one_violated {h : Heap} {fl : List Nat} {l x : Val} (hf : FreeOK h fl) (hl : LiveList h fl l [x])
    (dist : Int) (hd : -(2 ^ 31) < dist) (hd0 : dist ≠ 0) (hroom : 1 ≤ fl.length) :
    ∃ m, ∀ f ≥ m, ∃ h', fRotate f h l dist = some (h', nil) := by
  refine ⟨2, fun f hlen => ?_⟩
  have hil : isList l = true := by obtain ⟨is, hc, _⟩ := hl; cases hc <;> rfl
  obtain ⟨c1, _⟩ := listCopy_spec hf hl (-1) f hlen
  obtain ⟨h1, v, e, g1, g2⟩ := c1 hroom
  have hm' : (if (0 : Int) ≤ -1 ∧ (-1 : Int) < ([x].length : Int) then (-1 : Int) else if (-1 : Int) = -1 then (([x].length : Nat) : Int) else -1) = 1 := by
    simp
  rw [hm'] at e
  obtain ⟨i, hi⟩ : ∃ i, fl.take 1 = [i] := by
    cases fl with
    | nil => simp at hroom
    | cons a b => exact ⟨a, rfl⟩
  have g1' : ListAt h1 v [i] [x] := by
    have : (if (0 : Int) ≤ -1 ∧ (-1 : Int) < ([x].length : Int) then (-1 : Int).toNat else [x].length) = 1 := by simp
    rw [this, hi] at g1
    exact g1
  have key : ∀ (h1 : Heap) (v : Val), ListAt h1 v [i] [x] → ∃ h', rotBody f dist.natAbs h1 v = some (h', nil) := by
    intro h1 v g
    obtain ⟨n, hn⟩ := Nat.exists_eq_succ_of_ne_zero (by omega : dist.natAbs ≠ 0)
    obtain ⟨rfl, d, e, rfl⟩ := id g
    refine ⟨(rotLoop dist.natAbs h1 (.ptr .cons false i) (.ptr .cons false i)).1, ?_⟩
    rw [rotBody, lastCell_spec f g (by simp; omega)]
    simp only [List.getLast?_singleton, Option.map_some, Option.getD_some, hn]
    have : (rotLoop (n + 1) h1 (.ptr .cons false i) (.ptr .cons false i)).2 = nil := by
      simp only [rotLoop, cdr_pair e, rotLoop_nil]
    exact congrArg some (Prod.ext rfl this)
  have hv : isSymbol v = false := by obtain ⟨rfl, _⟩ := id g1'; rfl
  unfold fRotate
  rw [if_pos hil, e]
  simp only [hv, Bool.false_and, Bool.false_eq_true, if_false]
  rw [if_pos ⟨by decide, hd0⟩, if_neg (by omega)]
  by_cases hpos : 0 < dist
  · simp only [flip, decide_eq_true hpos, if_true]
    obtain ⟨h2', r, e2, a1, a2⟩ := destructiveReverse_spec f g1' (by simp) (by simp; omega)
    rw [e2]
    obtain ⟨h3, e3⟩ := key h2' r a1
    simp only [e3]
    exact ⟨h3, rfl⟩
  · simp only [flip, decide_eq_false hpos, Bool.false_eq_true, if_false]
    obtain ⟨h3, e3⟩ := key h1 v g1'
    simp only [e3]
    exact ⟨h3, rfl⟩

/-- On a 32 bit build the integers of a range wrap at 28 bits. -/
theorem C30_range_wraps_violated (f : Nat) :
    ∃ h' v, fRange 28 f (init 4 8) (2 ^ 27) (2 ^ 27 + 1) = some (h', v) ∧ IsList h' v [.imm 0 (-(2 ^ 27))] :=
  ⟨_, .ptr .cons false 0, rfl, [0], .ram (d := nil) (by decide) .nil⟩

/-- `(range start end)` overflows a C integer when the span does, or when it starts at the least integer. -/
theorem C30_range_overflow_violated (w f : Nat) (h : Heap) : fRange w f h (-(2 ^ 30) - 1) (2 ^ 30) = none := by
  simp [fRange]

/-- An index or list function other than `reverse` treats a constant list like any other, but `list?` and `setix` look for a list in RAM:
`setix` of a constant list is a type error. -/
theorem C30_setix_constant (f : Nat) (h : Heap) (i : Nat) (n : Int) (val : Val) :
    fSetIx f h (.ptr .cons true i) n val = some (h, terror) := by
  unfold fSetIx
  exact if_neg (by simp [isListRW, isConsRW, nil])

/-! ### Concrete cases -/

/-- A heap of eight cells: 0 to 2 hold `(1 2)` from cell 0, followed by a constant part `(3)` in the constant heap; cells
3 to 7 are free. -/
def demo : Heap :=
  { init 8 8 with
    cells := fun i =>
      if i = 0 then { content := .pair (.imm 0 1) (.ptr .cons false 1) }
      else if i = 1 then { content := .pair (.imm 0 2) (.ptr .cons true 0) }
      else if i = 2 then { content := .pair (.imm 0 9) nil }
      else (init 8 8).cells i
    consts := fun i => if i = 0 then { content := .pair (.imm 0 3) nil } else { content := .pair nil nil }
    freelist := .ptr .cons false 3
    numAlloc := 3 }

theorem demo_free : FreeOK demo [3, 4, 5, 6, 7] := by
  refine ⟨⟨rfl, by decide, recovered, .ptr .cons false 4, rfl, rfl, by decide, recovered, .ptr .cons false 5, rfl, rfl, by decide,
    recovered, .ptr .cons false 6, rfl, rfl, by decide, recovered, .ptr .cons false 7, rfl, rfl, by decide, nil, nil, rfl, rfl⟩,
    by decide, rfl⟩

theorem demo_list : LiveList demo [3, 4, 5, 6, 7] (.ptr .cons false 0) [.imm 0 1, .imm 0 2, .imm 0 3] :=
  ⟨[0, 1], .ram (d := .ptr .cons false 1) rfl (.ram (d := .ptr .cons true 0) rfl (.rom (d := nil) rfl .nil)), by decide⟩

theorem demo_one : LiveList demo [3, 4, 5, 6, 7] (.ptr .cons false 2) [.imm 0 9] :=
  ⟨[2], .ram (d := nil) rfl .nil, by decide⟩

example : indexList 9 demo (.ptr .cons false 0) (-1) = some (.imm 0 3) ∧ listLength demo 9 (.ptr .cons false 0) = some 3 := by decide

example : ∃ m, ∀ f ≥ m, ∃ h' v, fReverse f demo (.ptr .cons false 0) = some (h', v) ∧
    LiveList h' [6, 7] v [.imm 0 3, .imm 0 2, .imm 0 1] := by
  obtain ⟨m, hm⟩ := C30_reverse demo_free demo_list
  refine ⟨m, fun f hf => ?_⟩
  obtain ⟨h', v, e, g⟩ := hm f hf
  exact ⟨h', v, e, g.list⟩

example : ∃ m, ∀ f ≥ m, ∃ h' r, fAppend f demo [.ptr .cons false 0, .ptr .cons false 2, .ptr .cons false 2] = some (h', r) ∧
    LiveList h' [7] r [.imm 0 1, .imm 0 2, .imm 0 3, .imm 0 9, .imm 0 9] := by
  obtain ⟨m, hm⟩ := C30_append_lists (ls := [.ptr .cons false 0, .ptr .cons false 2])
    (xss := [[.imm 0 1, .imm 0 2, .imm 0 3], [.imm 0 9]]) demo_free ⟨demo_list, demo_one, trivial⟩
    (by simp) demo_one (by decide)
  refine ⟨m, fun f hf => ?_⟩
  obtain ⟨h', v, e, g⟩ := hm f hf
  exact ⟨h', v, e, g.list⟩

example : ∃ m, ∀ f ≥ m, ∃ h' r, fRotate f demo (.ptr .cons false 0) 1 = some (h', r) ∧
    LiveList h' [6, 7] r [.imm 0 3, .imm 0 1, .imm 0 2] := by
  obtain ⟨m, hm⟩ := C30_rotate_partial demo_free demo_list 1 (by decide) (by decide)
  refine ⟨m, fun f hf => ?_⟩
  obtain ⟨h', v, e, g⟩ := hm f hf
  exact ⟨h', v, e, g.list⟩

example : ∃ m, ∀ f ≥ m, ∃ h' r, fTake f demo (.ptr .cons false 0) 2 = some (h', r) ∧ LiveList h' [5, 6, 7] r [.imm 0 1, .imm 0 2] := by
  obtain ⟨m, hm⟩ := C30_take demo_free demo_list 2
  refine ⟨m, fun f hf => ?_⟩
  obtain ⟨h', v, e, g⟩ := hm f hf
  exact ⟨h', v, e, g.list⟩

example : ∃ m, ∀ f ≥ m, ∃ h' r, fRange 28 f demo 2 (-2) = some (h', r) ∧
    LiveList h' [7] r [.imm 0 1, .imm 0 0, .imm 0 (-1), .imm 0 (-2)] := by
  obtain ⟨m, hm⟩ := C30_range (w := 28) demo_free (by decide) 2 (-2) (by intro z h1 h2; omega) (by decide) (by decide)
  refine ⟨m, fun f hf => ?_⟩
  obtain ⟨h', v, e, g⟩ := hm f hf
  exact ⟨h', v, e, g.list⟩

example : ∃ m, ∀ f ≥ m, ∃ h', fSetIx f demo (.ptr .cons false 2) (-1) (.imm 0 5) = some (h', .ptr .cons false 2) ∧
    ListAt h' (.ptr .cons false 2) [2] [.imm 0 5] := by
  obtain ⟨m, hm⟩ := C30_setix (h := demo) (l := .ptr .cons false 2) (is := [2]) (xs := [.imm 0 9]) ⟨rfl, nil, rfl, rfl⟩ (by simp) (by simp) (-1)
    (.imm 0 5)
  refine ⟨m, fun f hf => ?_⟩
  obtain ⟨h', e, g, _⟩ := hm f hf
  exact ⟨h', e, g⟩

end Verif.Lists
