import Verif.Print.Parse

/-! # The reader follows the grammar: lists and arrays -/

namespace Verif.Print

open Verif.Tok (Byte ascii Token Stream)
open Verif.Eq (T NTy Val Heap Obj)

variable {D : Dev} {tot : Nat}

/-- `f` and `l` are the first and last cell of the list read so far: with `d` as its end it is `C d`. -/
def ListSt (h : Heap) (lo n : Nat) (f l : Val) (C : T → T) : Prop :=
  lo ≤ n ∧ isTokSym f = false ∧
  ((f = .sym 0 ∧ l = .sym 0 ∧ C = id) ∨ ∃ il, l = .ptr .cons false il ∧ Hole h lo n f il C)

theorem listSt_nil (h : Heap) (n : Nat) : ListSt h n n (.sym 0) (.sym 0) id :=
  ⟨Nat.le_refl _, rfl, .inl ⟨rfl, rfl, rfl⟩⟩

/-- An element is put at the end. -/
theorem append_step {h : Heap} {lo n : Nat} {f l : Val} {C : T → T} (hs : ListSt h lo n f l C) {h1 : Heap} {n1 : Nat} {v : Val} {t : T}
    (ho : Old n h h1) (hn : n ≤ n1) (hb : Built h1 n n1 v t) (hv : v ≠ symClosePar ∧ v ≠ symDot) {tab : Sym.Tab} {s : Stream}
    {K : List RF} : ∃ h2 f2 l2, rstep D ⟨h1, n1, tab, s, tot, .append f l :: K, v⟩ =
        .run ⟨h2, n1 + 1, tab, s, tot, .next :: .append f2 l2 :: K, v⟩ ∧
      ListSt h2 lo (n1 + 1) f2 l2 (fun d => C (.cons t d)) ∧ Old lo h h2 ∧ l2.tag = .cons := by
  obtain ⟨hlo, hm, ⟨rfl, rfl, rfl⟩ | ⟨il, rfl, hh⟩⟩ := hs
  · refine ⟨upd h1 n1 (.pair v (.sym 0)), .ptr .cons false n1, .ptr .cons false n1, ?_,
      ⟨by omega, rfl, .inr ⟨n1, rfl, hole_first (by omega) (hb.mono (fun _ _ _ => rfl) hlo (Nat.le_refl _))⟩⟩,
      fun k i hi => ?_, rfl⟩
    · exact (if_neg hv.1).trans (if_neg hv.2)
    · exact (old_upd lo h1 n1 (by omega) _ k i hi).trans (ho k i (hi.imp_right (by omega)))
  · have hh2 := hole_next hh ho hn hb
    refine ⟨_, f, .ptr .cons false n1, (if_neg hv.1).trans (if_neg hv.2), ⟨by omega, hm, .inr ⟨n1, rfl, hh2⟩⟩, ?_, rfl⟩
    obtain ⟨a1, a2, a', a3, a4⟩ := hh
    have hil : h1 false il = .pair a' (.sym 0) := (ho false il (.inr a2)).trans a3
    have hu : upd h1 n1 (.pair v (.sym 0)) false il = .pair a' (.sym 0) := (if_neg (by omega)).trans hil
    intro k i hi
    simp only [RS.alloc, setCdr, hu]
    exact (old_upd lo _ il a1 _ k i hi).trans ((old_upd lo _ n1 (by omega) _ k i hi).trans (ho k i (hi.imp_right (by omega))))

/-- The list is closed. -/
theorem close_step {h : Heap} {lo n : Nat} {f l : Val} {C : T → T} (hs : ListSt h lo n f l C) {tab : Sym.Tab} {s : Stream} {K : List RF} :
    ∃ h2 v, rstep D ⟨h, n, tab, s, tot, .append f l :: K, symClosePar⟩ = .run ⟨h2, n, tab, s, tot, K, v⟩ ∧
      Built h2 lo n v (C (.sym 0)) ∧ Old lo h h2 ∧ isTokSym v = false := by
  obtain ⟨hlo, hm, ⟨rfl, rfl, rfl⟩ | ⟨il, rfl, hh⟩⟩ := hs
  · exact ⟨h, .sym 0, rfl, fun _ _ => .sym, fun _ _ _ => rfl, rfl⟩
  · obtain ⟨h1, h2⟩ := hole_close hh (fun _ _ _ => rfl) (Nat.le_refl _) (v := .sym 0) (t := .sym 0) (fun _ _ => .sym)
    exact ⟨_, f, rfl, h1, h2, hm⟩

/-- The expression after the dot. -/
theorem dot_step {h : Heap} {lo n : Nat} {f l : Val} {C : T → T} (hs : ListSt h lo n f l C) (hl : l.tag = .cons) {h1 : Heap} {n1 : Nat}
    {v : Val} {t : T} (ho : Old n h h1) (hn : n ≤ n1) (hb : Built h1 n n1 v t) (hv : v ≠ symClosePar ∧ v ≠ symDot) {tab : Sym.Tab}
    {s : Stream} {K : List RF} : ∃ h2, rstep D ⟨h1, n1, tab, s, tot, .dotTerm f l :: K, v⟩ =
        .run ⟨h2, n1, tab, s, tot, .next :: .expectClose f :: K, f⟩ ∧ Built h2 lo n1 f (C t) ∧ Old lo h h2 := by
  obtain ⟨hlo, hm, ⟨rfl, rfl, rfl⟩ | ⟨il, rfl, hh⟩⟩ := hs
  · cases hl
  · obtain ⟨c1, c2⟩ := hole_close hh ho hn hb
    exact ⟨_, if_neg (not_or.2 hv), c1, c2⟩

/-- `(w v)`. -/
theorem wrap_step {h : Heap} {n n1 : Nat} {h1 : Heap} {v : Val} {t : T} (ho : Old n h h1) (hn : n ≤ n1) (hb : Built h1 n n1 v t) (w : Nat)
    {tab : Sym.Tab} {s : Stream} {K : List RF} : ∃ h2 v2, rstep D ⟨h1, n1, tab, s, tot, .wrap (.sym w) :: K, v⟩ =
        .run ⟨h2, n1 + 2, tab, s, tot, K, v2⟩ ∧ Built h2 n (n1 + 2) v2 (.cons (.sym w) (.cons t (.sym 0))) ∧ Old n h h2 ∧
      isTokSym v2 = false := by
  refine ⟨upd (upd h1 n1 (.pair v (.sym 0))) (n1 + 1) (.pair (.sym w) (.ptr .cons false n1)), .ptr .cons false (n1 + 1), rfl,
    fun h' hh => .cons (a := .sym w) (d := .ptr .cons false n1) ?_ .sym (.cons (a := v) (d := .sym 0) ?_ (hb h' fun i a b => ?_) .sym), ?_, rfl⟩
  · rw [hh (n1 + 1) (by omega) (by omega)]; exact upd_same _ _ _
  · rw [hh n1 (by omega) (by omega)]; exact (if_neg (by omega)).trans (upd_same _ _ _)
  · rw [hh i (by omega) (by omega)]; exact (if_neg (by omega)).trans (if_neg (by omega))
  · intro k i hi
    exact (old_upd n _ (n1 + 1) (by omega) _ k i hi).trans ((old_upd n _ n1 (by omega) _ k i hi).trans (ho k i hi))

/-! ## Arrays -/

/-- The byte for a number. -/
def byteOfT (D : Dev) : T → Option Byte
  | .num t z => some (match t with
    | .float | .double => D.toByte t z
    | _ => BitVec.ofInt 8 z)
  | _ => none

theorem byteOf_rep {h : Heap} {v : Val} {t : T} (hr : Eq.Rep h v t) : byteOf D h v = byteOfT D t := by
  cases hr with
  | imm => rfl
  | @boxed t _ _ _ h1 => cases t <;> simp only [byteOf, Eq.Val.tag, Eq.numOf, h1, byteOfT]
  | _ => rfl

theorem byteTok_eq (k : Token) (tab : Sym.Tab) : byteTok D k = (leafOf D k).bind fun x => byteOfT D (x.tree tab) := by
  unfold byteTok
  cases leafOf D k with
  | none => rfl
  | some x => cases x <;> rfl

/-- An array that is being read. -/
structure ArrSt (h : Heap) (i n : Nat) (l : List Byte) : Prop where
  lt : i < n
  cell : h false i = .bytes l

/-- A byte is put at the end. -/
theorem array_step {h : Heap} {i n : Nat} {l : List Byte} (hs : ArrSt h i n l) (hroom : l.length + 2 ≤ D.room) {v : Val} {t : T} {x : Byte}
    (hb : Eq.Rep h v t) (hx : byteOfT D t = some x) {tab : Sym.Tab} {s : Stream} {K : List RF} :
    ∃ h2, rstep D ⟨h, n, tab, s, tot, .appendArray (.ptr .array false i) D.room l.length :: K, v⟩ =
        .run ⟨h2, n, tab, s, tot, .next :: .appendArray (.ptr .array false i) D.room (l ++ [x]).length :: K, v⟩ ∧
      ArrSt h2 i n (l ++ [x]) ∧ Old i h h2 := by
  refine ⟨upd h i (.bytes (l ++ [x])), ?_, ⟨hs.lt, upd_same _ _ _⟩, old_upd i h i (Nat.le_refl _) _⟩
  have := byteOf_rep (D := D) hb
  simp only [rstep, Eq.bytesOf, hs.cell, this, hx, List.length_append, List.length_singleton]
  rw [if_neg (by omega)]

/-- The array is closed. -/
theorem array_close {h : Heap} {i n : Nat} {l : List Byte} (hs : ArrSt h i n l) (hroom : l.length + 2 ≤ D.room) {tab : Sym.Tab}
    {s : Stream} {K : List RF} :
    rstep D ⟨h, n, tab, s, tot, .appendArray (.ptr .array false i) D.room l.length :: K, symCloseBrack⟩ =
      .run ⟨h, n, tab, s, tot, K, .ptr .array false i⟩ := by
  simp only [rstep, Eq.bytesOf, hs.cell]
  rw [if_neg (by omega)]
  rfl

/-- What happens to anything else. -/
theorem array_error {h : Heap} {i n : Nat} {l : List Byte} (hs : ArrSt h i n l) {v : Val}
    (hv : D.room < l.length + 2 ∨ (byteOf D h v = none ∧ v ≠ symCloseBrack)) {tab : Sym.Tab}
    {s : Stream} {K : List RF} :
    rstep D ⟨h, n, tab, s, tot, .appendArray (.ptr .array false i) D.room l.length :: K, v⟩ = .error := by
  simp only [rstep, Eq.bytesOf, hs.cell]
  by_cases hr : D.room ≤ l.length + 1
  · rw [if_pos hr]
  · rw [if_neg hr]
    obtain ⟨h1, h2⟩ := hv.resolve_left (by omega)
    rw [h1]
    simp only
    rw [if_neg h2]

theorem listX_tree (tab : Sym.Tab) (xs : List X) (d : X) :
    (listX xs d).tree tab = xs.foldr (fun x t => .cons (x.tree tab) t) (d.tree tab) := by
  induction xs with
  | nil => rfl
  | cons x xs ih =>
    show T.cons (x.tree tab) ((listX xs d).tree tab) = _
    rw [ih]; rfl

/-- All of them. -/
def AllX (p : X → Prop) (xs : List X) : Prop := ∀ x ∈ xs, p x

theorem listX_names {xs : List X} {d : X} (h : AllX X.Names xs) (hd : d.Names) : (listX xs d).Names := by
  induction xs with
  | nil => exact hd
  | cons x xs ih => exact ⟨h x (by simp), ih fun y hy => h y (by simp [hy])⟩

theorem listX_known {tab : Sym.Tab} {xs : List X} {d : X} (h : AllX (X.Known tab) xs) (hd : d.Known tab) : (listX xs d).Known tab := by
  induction xs with
  | nil => exact hd
  | cons x xs ih => exact ⟨h x (by simp), ih fun y hy => h y (by simp [hy])⟩

/-- The elements with the table of a later time. -/
theorem foldr_later {tab tab' : Sym.Tab} (hi : Sym.Inv tab) (hl : Later tab tab') {xs : List X} (hn : AllX X.Names xs)
    (hk : AllX (X.Known tab) xs) (d : T) :
    xs.foldr (fun x t => T.cons (x.tree tab') t) d = xs.foldr (fun x t => T.cons (x.tree tab) t) d := by
  induction xs with
  | nil => rfl
  | cons x xs ih =>
    simp only [List.foldr_cons]
    rw [ih (fun y hy => hn y (by simp [hy])) (fun y hy => hk y (by simp [hy])), (known_later hi hl (hn x (by simp)) (hk x (by simp))).2]

end Verif.Print
