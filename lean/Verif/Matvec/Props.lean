import Verif.Matvec.Lemmas

/-
Property theorems about vectors and matrices (C111).
-/

namespace Verif.Matvec

open Verif.Val (Build)
open Verif.Arith (Num FOps decAsFloat decAsU32)

variable {b : Build} (F : FOps)

/-- A world with the vectors (1 2) at 10 and (5 6) at 20 (as patterns), and ten free cells. -/
def demo : World :=
  { objs := fun a => if a = 10 then some ⟨1, 2, [some 1, some 2]⟩ else if a = 20 then some ⟨1, 2, [some 5, some 6]⟩ else none, free := 10 }

theorem demo_vec : IsVec (b := .b32) demo (.vec 10) [1, 2] := ⟨10, rfl, rfl⟩
theorem demo_vec2 : IsVec (b := .b32) demo (.vec 20) [5, 6] := ⟨20, rfl, rfl⟩
theorem demo_ample : Ample demo ⟨some 30, true⟩ := ⟨⟨30, rfl, rfl⟩, rfl, by decide⟩
theorem demo_whole : Whole demo := by
  intro a o h
  simp only [demo] at h
  split at h
  · cases h; exact ⟨by decide, by decide, [1, 2], rfl, rfl⟩
  · split at h
    · cases h; exact ⟨by decide, by decide, [5, 6], rfl, rfl⟩
    · cases h

theorem toArith_num (ns : List (Num b)) :
    (ns.map V.num).map (fun x => some (decAsFloat F (fillList.toArith x))) = (ns.map (asFloat F)).map some := by
  simp [Function.comp_def, fillList.toArith, asFloat]

theorem all_num (ns : List (Num b)) : (ns.map V.num).all isNum = true := by
  simp [List.all_map, Function.comp_def, isNum]

theorem of_all_num : ∀ {xs : List (V b)}, xs.all isNum = true → ∃ ns : List (Num b), xs = ns.map V.num
  | [], _ => ⟨[], rfl⟩
  | x :: xs, h => by
    simp only [List.all_cons, Bool.and_eq_true] at h
    obtain ⟨ns, rfl⟩ := of_all_num h.2
    cases x with
    | num n => exact ⟨n :: ns, rfl⟩
    | _ => simp [isNum] at h

/-- The writing loop of `vector`. -/
theorem vector_write (ns : List (Num b)) :
    fill (fun i => match (ns.map V.num)[i]? with | some x => .ok (decAsFloat F (fillList.toArith x)) | none => .ub) (ns.map V.num).length 0
      (List.replicate (ns.map V.num).length none) = .ok ((ns.map (asFloat F)).map some) := by
  have := fill_ok (fun i => match (ns.map V.num)[i]? with | some x => .ok (decAsFloat F (fillList.toArith x)) | none => .ub)
    (ns.map (asFloat F)) 0 (List.replicate (ns.map V.num).length none) (by
      intro j x hx
      simp only [List.getElem?_map, Option.map_eq_some_iff] at hx
      obtain ⟨n, hn, rfl⟩ := hx
      simp [hn, fillList.toArith, asFloat]) (by simp)
  simp only [List.length_map, List.take_zero, List.nil_append] at this ⊢
  exact this

/-- C111: `(vector x1 .. xn)` makes a new vector of the numbers as floats; anything but one or more numbers is a type error. -/
theorem C111_vector (w : World) (m : Mem) (ns : List (Num b)) (hn : 0 < ns.length) (hb : ns.length + 2 < 2 ^ 30) (hm : Ample w m) :
    Fresh w (extVector F w m (ns.map .num)) fun w' v => IsVec w' v (ns.map (asFloat F)) := by
  rw [extVector, if_pos (all_num ns), if_neg (by rw [List.length_map]; omega)]
  obtain ⟨w', v, h1, ⟨a, rfl, h2⟩, h3⟩ := build_fresh (hdr := 1) (rows := 1) (cols := (ns.map V.num).length) (wrap := V.vec (b := b)) (by omega) (by simpa using hb) (vector_write F ns) hm
  exact ⟨w', _, h1, ⟨a, rfl, by simpa using h2⟩, h3⟩

theorem C111_vector_error (w : World) (m : Mem) (args : List (V b)) (h : args = [] ∨ ∃ x ∈ args, isNum x = false) :
    extVector F w m args = .ok (w, terror) := by
  rw [extVector]
  rcases h with rfl | ⟨x, hx, hn⟩
  · rfl
  · rw [if_neg]
    intro h
    rw [List.all_eq_true] at h
    have := h x hx
    simp [hn] at this

example : Fresh demo (extVector (b := .b32) F demo ⟨some 30, true⟩ [.num (.char 7), .num (.float 9)]) fun w' v => IsVec w' v [F.of32 7, 9] :=
  C111_vector F demo _ [.char 7, .float 9] (by decide) (by decide) demo_ample

/-- C111: `list-to-vector` makes a vector of the numbers of a list, in order. -/
theorem C111_list_to_vector (w : World) (m : Mem) (ns : List (Num b)) (hn : 0 < ns.length) (hb : ns.length + 2 < 2 ^ 30) (hm : Ample w m) :
    Fresh w (extListToVector F w m [listOf (ns.map .num)]) fun w' v => IsVec w' v (ns.map (asFloat F)) := by
  have hl : isList (listOf (ns.map (V.num (b := b)))) = true := by cases ns <;> simp [listOf, isList, nil]
  have hw := fillList_ok F (listOf (ns.map V.num)) 0 (List.replicate ns.length none) (by simp [nums_listOf])
  rw [nums_listOf, toArith_num, List.take_zero, List.nil_append] at hw
  simp only [extListToVector, hl, if_true, lengthPred_eq, nums_listOf, all_num, List.length_map, and_true]
  rw [Nat.mod_eq_of_lt (by omega), if_pos hn]
  obtain ⟨w', v, h1, ⟨a, rfl, h2⟩, h3⟩ := build_fresh (hdr := 1) (rows := 1) (cols := ns.length) (wrap := V.vec (b := b)) (by omega) hb hw hm
  exact ⟨w', _, h1, ⟨a, rfl, by simpa using h2⟩, h3⟩

/-- C111: `vector-to-list` gives the elements, in order, if there are enough cells for the list and its floats. -/
theorem C111_vector_to_list (w : World) (v : V b) (xs : List (BitVec 32)) (hx : 0 < xs.length) (hv : IsVec w v xs) (hf : listCells b xs.length ≤ w.free) :
    extVectorToList w [v] = .ok ({ w with free := w.free - listCells b xs.length }, floatList xs) := by
  obtain ⟨a, rfl, ha⟩ := hv
  have hle : xs.length ≤ w.free := by unfold listCells at hf; split at hf <;> omega
  have := (encLoop_ok (b := b) (o := ⟨1, xs.length, xs.map some⟩) (xs := xs) rfl xs 0 (w.free - xs.length) (by simp)).1 (by
    unfold listCells at hf; split at hf <;> simp_all; omega)
  simp only [extVectorToList, World.at, ha]
  rw [if_neg (by omega), if_neg (by omega), this]
  simp only [listCells]
  split
  · rw [Nat.sub_sub]; congr 3; omega
  · rfl

example : extVectorToList (b := .b32) demo [.vec 10] = .ok ({ demo with free := 6 }, floatList [1, 2]) :=
  C111_vector_to_list demo (.vec 10) [1, 2] (by decide) demo_vec (by decide)

/-- C111: a vector taken apart and put together again has the same elements, bit for bit. -/
theorem C111_round_trip (w : World) (v : V b) (xs : List (BitVec 32)) (hx : 0 < xs.length) (hb : xs.length + 2 < 2 ^ 30) (hv : IsVec w v xs)
    (hf : listCells b xs.length < w.free) (m : Mem) (hm : ∃ a, m.data = some a ∧ w.objs a = none) (hc : m.custom = true) :
    ∃ w1 l, extVectorToList w [v] = .ok (w1, l) ∧ Fresh w1 (extListToVector F w1 m [l]) fun w' v' => IsVec w' v' xs ∧ IsVec w' v xs := by
  refine ⟨_, _, C111_vector_to_list w v xs hx hv (by omega), ?_⟩
  obtain ⟨w', v', h1, h2, h3, h4⟩ := C111_list_to_vector F { w with free := w.free - listCells b xs.length } m (xs.map .float) (by simpa using hx) (by simpa using hb)
    ⟨hm, hc, by simp; omega⟩
  simp only [List.map_map] at h1 h2
  refine ⟨w', v', by simpa [floatList, Function.comp_def] using h1, ⟨?_, ?_⟩, h3, h4⟩
  · simpa [Function.comp_def, asFloat, decAsFloat] using h2
  · obtain ⟨a, rfl, ha⟩ := hv
    exact ⟨a, rfl, h4 a _ ha⟩

example : ∃ w1 l, extVectorToList (b := .b32) demo [.vec 10] = .ok (w1, l) ∧
    Fresh w1 (extListToVector F w1 ⟨some 30, true⟩ [l]) fun w' v' => IsVec w' v' [1, 2] ∧ IsVec (b := .b32) w' (.vec 10) [1, 2] :=
  C111_round_trip F demo (.vec 10) [1, 2] (by decide) (by decide) demo_vec (by decide) _ ⟨30, rfl, rfl⟩ rfl

/-- C111, violated: with fewer free cells than elements `vector-to-list` is a type error. `matrix-to-list` reports that memory is missing, which leads to a garbage collection and another attempt; this error does not. -/
theorem C111_list_memory_violated (w : World) (v : V b) (xs : List (BitVec 32)) (hx : 0 < xs.length) (hv : IsVec w v xs) (hf : w.free < xs.length) :
    extVectorToList w [v] = .ok (w, terror) := by
  obtain ⟨a, rfl, ha⟩ := hv
  simp only [extVectorToList, World.at, ha]
  rw [if_neg (by omega), if_pos hf]

example : extVectorToList (b := .b32) { demo with free := 1 } [.vec 10] = .ok ({ demo with free := 1 }, terror) :=
  C111_list_memory_violated { demo with free := 1 } (.vec 10) [1, 2] (by decide) ⟨10, rfl, rfl⟩ (by decide)

theorem encFloat_eq (w : World) (x : BitVec 32) (hf : 0 < w.free) :
    ∃ w', encFloat (b := b) w x = (w', .num (.float x)) ∧ w'.objs = w.objs ∧ w'.free + floatCells b = w.free := by
  unfold encFloat
  cases b
  · rw [if_pos rfl, if_neg (by omega)]; exact ⟨_, rfl, rfl, by simp only [floatCells]; omega⟩
  · rw [if_neg (by decide)]; exact ⟨_, rfl, rfl, rfl⟩

/-- C111: `vproj` with an integer from 0 to 2^32-1 gives that element, in one cell on 32 bits and in none on 64 bits; behind the last element it is a type error. -/
theorem C111_vproj (w : World) (v : V b) (xs : List (BitVec 32)) (hv : IsVec w v xs) (n : Num b) (hi : n.ty.int = true)
    (h0 : 0 ≤ n.val) (h1 : n.val < 2 ^ 32) (hf : 0 < w.free) :
    (∀ x, xs[n.val.toNat]? = some x → ∃ w', extVproj F w [v, .num n] = .ok (w', .num (.float x)) ∧ w'.objs = w.objs ∧ w'.free + floatCells b = w.free) ∧
    (xs.length ≤ n.val.toNat → extVproj F w [v, .num n] = .ok (w, terror)) := by
  obtain ⟨a, rfl, ha⟩ := hv
  have hd : (decAsU32 F (.num n)).toNat = n.val.toNat := by
    rw [Arith.decAsU32_eq F n hi, BitVec.toNat_ofInt]
    congr 1
    exact Int.emod_eq_of_lt h0 h1
  simp only [extVproj, World.at, ha, hd]
  refine ⟨fun x hx => ?_, fun hl => ?_⟩
  · have hlt : n.val.toNat < xs.length := (List.getElem?_eq_some_iff.mp hx).1
    rw [if_pos hlt, get_ok (xs := xs) rfl hx]
    obtain ⟨w', e, h⟩ := encFloat_eq (b := b) w x hf
    exact ⟨w', by simp only; rw [e], h⟩
  · rw [if_neg (by omega)]

example : ∃ w', extVproj (b := .b32) F demo [.vec 20, .num (.char 1)] = .ok (w', .num (.float 6)) ∧ w'.objs = demo.objs ∧ w'.free + 1 = demo.free :=
  (C111_vproj F demo (.vec 20) [5, 6] demo_vec2 (.char 1) rfl (by decide) (by decide) (by decide)).1 6 rfl

/-- C111, violated: the index is reduced modulo 2^32, so element 4294967296 is the first one. -/
theorem C111_vproj_violated : ∃ w', extVproj (b := .b64) F demo [.vec 10, .num (.i64 4294967296)] = .ok (w', .num (.float 1)) :=
  ⟨demo, rfl⟩

/-- C111: `(axpy alpha x y)` is a new vector with the elements `alpha * x + y`; x and y stay. -/
theorem C111_axpy (w : World) (m : Mem) (n : Num b) (x y : V b) (xs ys : List (BitVec 32)) (hx : IsVec w x xs) (hy : IsVec w y ys)
    (hl : xs.length = ys.length) (hb : xs.length + 2 < 2 ^ 30) (hm : Ample w m) :
    Fresh w (extAxpy F w m [.num n, x, y]) fun w' v =>
      IsVec w' v (List.zipWith (fun u t => F.add32 (F.mul32 (asFloat F n) u) t) xs ys) := by
  obtain ⟨a, rfl, ha⟩ := hx
  obtain ⟨c, rfl, hc⟩ := hy
  simp only [extAxpy, World.at, ha, hc]
  rw [if_pos hl]
  have hw := fill_ok (axpyAt F (decAsFloat F (.num n)) ⟨1, xs.length, xs.map some⟩ ⟨1, ys.length, ys.map some⟩)
    (List.zipWith (fun u t => F.add32 (F.mul32 (asFloat F n) u) t) xs ys) 0 (List.replicate xs.length none) (by
      intro j z hz
      rw [List.getElem?_zipWith] at hz
      cases hu : xs[j]? with
      | none => simp [hu] at hz
      | some u =>
        cases ht : ys[j]? with
        | none => simp [hu, ht] at hz
        | some t =>
          simp [hu, ht] at hz
          simp only [Nat.zero_add]
          rw [axpyAt, get_ok (xs := xs) rfl hu, get_ok (xs := ys) rfl ht]
          simp only [Out.ok.injEq]
          exact hz) (by simp [hl])
  simp only [List.length_zipWith, ← hl, Nat.min_self, List.take_zero, List.nil_append] at hw
  obtain ⟨w', v, h1, ⟨a', rfl, h2⟩, h3⟩ := build_fresh (hdr := 1) (rows := 1) (cols := xs.length) (wrap := V.vec (b := b)) (by omega) hb hw hm
  exact ⟨w', _, h1, ⟨a', rfl, by simpa [hl] using h2⟩, h3⟩

example (k : BitVec 32) : Fresh demo (extAxpy (b := .b32) F demo ⟨some 30, true⟩ [.num (.float k), .vec 10, .vec 20]) fun w' v =>
    IsVec w' v [F.add32 (F.mul32 k 1) 5, F.add32 (F.mul32 k 2) 6] :=
  C111_axpy F demo _ (.float k) (.vec 10) (.vec 20) [1, 2] [5, 6] demo_vec demo_vec2 rfl (by decide) demo_ample

/-- C111: `(vmult alpha x)` is a new vector with the elements `alpha * x`. -/
theorem C111_vmult (w : World) (m : Mem) (n : Num b) (x : V b) (xs : List (BitVec 32)) (hx : IsVec w x xs)
    (hb : xs.length + 2 < 2 ^ 30) (hm : Ample w m) :
    Fresh w (extVmult F w m [.num n, x]) fun w' v => IsVec w' v (xs.map (F.mul32 (asFloat F n))) := by
  obtain ⟨a, rfl, ha⟩ := hx
  simp only [extVmult, World.at, ha]
  have hw := fill_ok (multAt F (decAsFloat F (.num n)) ⟨1, xs.length, xs.map some⟩)
    (xs.map (F.mul32 (asFloat F n))) 0 (List.replicate xs.length none) (by
      intro j z hz
      simp only [List.getElem?_map, Option.map_eq_some_iff] at hz
      obtain ⟨u, hu, rfl⟩ := hz
      rw [Nat.zero_add, multAt, get_ok (xs := xs) rfl hu]
      rfl) (by simp)
  simp only [List.length_map, List.take_zero, List.nil_append] at hw
  obtain ⟨w', v, h1, ⟨a', rfl, h2⟩, h3⟩ := build_fresh (hdr := 1) (rows := 1) (cols := xs.length) (wrap := V.vec (b := b)) (by omega) hb hw hm
  exact ⟨w', _, h1, ⟨a', rfl, by simpa using h2⟩, h3⟩

/-- C111: `dot` sums up the products of the elements from the left, `mag` is the square root of the dot product of a vector with itself; the result takes a cell on 32 bits only. -/
theorem C111_dot (w : World) (x y : V b) (xs ys : List (BitVec 32)) (hx : IsVec w x xs) (hy : IsVec w y ys) (hf : 0 < w.free) (sqrt32 : BitVec 32 → BitVec 32) :
    (xs.length = ys.length → ∃ w', extDot F w [x, y] = .ok (w', .num (.float (dotSpec F xs ys))) ∧ w'.objs = w.objs ∧ w'.free + floatCells b = w.free) ∧
    (∃ w', extMag F sqrt32 w [x] = .ok (w', .num (.float (sqrt32 (dotSpec F xs xs)))) ∧ w'.objs = w.objs ∧ w'.free + floatCells b = w.free) := by
  obtain ⟨a, rfl, ha⟩ := hx
  obtain ⟨c, rfl, hc⟩ := hy
  simp only [extDot, extMag, World.at, ha, hc]
  refine ⟨fun hl => ?_, ?_⟩
  · rw [if_pos hl, dotLoop_ok F (xs := xs) (ys := ys) rfl rfl xs ys 0 0 (by simp) (by simp) hl]
    obtain ⟨w', e, h⟩ := encFloat_eq (b := b) w (dotSpec F xs ys) hf
    exact ⟨w', by rw [← e]; rfl, h⟩
  · rw [dotLoop_ok F (xs := xs) (ys := xs) rfl rfl xs xs 0 0 (by simp) (by simp) rfl]
    obtain ⟨w', e, h⟩ := encFloat_eq (b := b) w (sqrt32 (dotSpec F xs xs)) hf
    exact ⟨w', by rw [← e]; rfl, h⟩

example : ∃ w', extDot (b := .b32) F demo [.vec 10, .vec 20] = .ok (w', .num (.float (F.add32 (F.add32 0 (F.mul32 1 5)) (F.mul32 2 6)))) ∧ w'.objs = demo.objs ∧ w'.free + 1 = demo.free :=
  (C111_dot F demo (.vec 10) (.vec 20) [1, 2] [5, 6] demo_vec demo_vec2 (by decide) id).1 rfl

/-- C111: vectors of different lengths have no sum and no product. -/
theorem C111_lengths (w : World) (m : Mem) (n : Num b) (x y : V b) (xs ys : List (BitVec 32)) (hx : IsVec w x xs) (hy : IsVec w y ys)
    (hl : xs.length ≠ ys.length) :
    extAxpy F w m [.num n, x, y] = .ok (w, terror) ∧ extDot F w [x, y] = .ok (w, terror) := by
  obtain ⟨a, rfl, ha⟩ := hx
  obtain ⟨c, rfl, hc⟩ := hy
  simp [extAxpy, extDot, World.at, ha, hc, hl]

/-- C111: `(list-to-matrix cols l)` is a matrix with the numbers of the list row by row, if their number is a multiple of `cols`; otherwise a type error. -/
theorem C111_list_to_matrix (w : World) (m : Mem) (c : Num b) (hi : c.ty.int = true) (h0 : 0 < c.val) (h1 : c.val < 2 ^ 32) (ns : List (Num b)) (hn : 0 < ns.length)
    (hb : ns.length + 2 < 2 ^ 30) (hm : Ample w m) :
    (ns.length % c.val.toNat = 0 → Fresh w (extListToMatrix F w m [.num c, listOf (ns.map .num)]) fun w' v =>
      IsMat w' v (ns.length / c.val.toNat) c.val.toNat (ns.map (asFloat F))) ∧
    (ns.length % c.val.toNat ≠ 0 → extListToMatrix F w m [.num c, listOf (ns.map .num)] = .ok (w, terror)) := by
  have hd : (decAsU32 F (.num c)).toNat = c.val.toNat := by
    rw [Arith.decAsU32_eq F c hi, BitVec.toNat_ofInt]
    congr 1
    exact Int.emod_eq_of_lt (by omega) h1
  have hl : isList (listOf (ns.map (V.num (b := b)))) = true := by cases ns <;> simp [listOf, isList, nil]
  have hw := fillList_ok F (listOf (ns.map V.num)) 0 (List.replicate ns.length none) (by simp [nums_listOf])
  rw [nums_listOf, toArith_num, List.take_zero, List.nil_append] at hw
  simp only [extListToMatrix, hl, if_true, lengthPred_eq, nums_listOf, all_num, List.length_map, and_true, hd]
  rw [Nat.mod_eq_of_lt (show ns.length < 2 ^ 32 by omega), if_pos hn, if_neg (by omega)]
  refine ⟨fun hdvd => ?_, fun hnd => by rw [if_neg hnd]⟩
  have hmul : ns.length / c.val.toNat * c.val.toNat = ns.length := Nat.div_mul_cancel (Nat.dvd_of_mod_eq_zero hdvd)
  rw [if_pos hdvd, hmul, Nat.mod_eq_of_lt (show ns.length < 2 ^ 32 by omega)]
  obtain ⟨w', v, h2, ⟨a, rfl, h3⟩, h4⟩ := build_fresh (hdr := 2) (rows := ns.length / c.val.toNat) (cols := c.val.toNat) (wrap := V.mat (b := b)) (by omega) hb hw hm
  exact ⟨w', _, h2, ⟨a, rfl, h3, by simp [hmul]⟩, h4⟩

example : Fresh demo (extListToMatrix (b := .b32) F demo ⟨some 30, true⟩ [.num (.char 2), listOf ([.float 1, .float 2, .float 3, .float 4].map .num)]) fun w' v =>
    IsMat w' v 2 2 [1, 2, 3, 4] :=
  (C111_list_to_matrix F demo ⟨some 30, true⟩ (.char 2) rfl (by decide) (by decide) [.float 1, .float 2, .float 3, .float 4] (by decide) (by decide) demo_ample).1 (by decide)

/-- C111, violated: a matrix with zero columns is a division by zero. -/
theorem C111_zero_columns_violated (w : World) (m : Mem) (ns : List (Num b)) (hn : 0 < ns.length) (hb : ns.length < 2 ^ 32) :
    extListToMatrix F w m [.num (.char 0), listOf (ns.map .num)] = .ub := by
  have hl : isList (listOf (ns.map (V.num (b := b)))) = true := by cases ns <;> simp [listOf, isList, nil]
  simp only [extListToMatrix, hl, if_true, lengthPred_eq, nums_listOf, all_num, List.length_map, and_true]
  rw [Nat.mod_eq_of_lt hb, if_pos hn]
  simp [decAsU32]

/-- C111: `matrix-to-list` gives the elements row by row; if there are too few cells it asks for memory. -/
theorem C111_matrix_to_list (w : World) (v : V b) (rows cols : Nat) (xs : List (BitVec 32)) (hx : 0 < xs.length) (hb : xs.length < 2 ^ 32) (hv : IsMat w v rows cols xs) :
    (listCells b xs.length ≤ w.free → extMatrixToList w [v] = .ok ({ w with free := w.free - listCells b xs.length }, floatList xs)) ∧
    (¬ listCells b xs.length ≤ w.free → ∃ w', extMatrixToList w [v] = .ok (w', merror) ∧ w'.objs = w.objs) := by
  obtain ⟨a, rfl, ha, hl⟩ := hv
  have hmod : rows * cols % 2 ^ b.w = xs.length := by
    rw [← hl, Nat.mod_eq_of_lt]
    cases b <;> simp only [Build.w] <;> omega
  simp only [extMatrixToList, World.at, ha, hmod]
  rw [if_neg (by omega)]
  have h1 := encLoop_ok (b := b) (o := ⟨rows, cols, xs.map some⟩) (xs := xs) rfl xs 0 (w.free - xs.length) (by simp)
  refine ⟨fun hf => ?_, fun hf => ?_⟩
  · have hle : xs.length ≤ w.free := by unfold listCells at hf; split at hf <;> omega
    rw [if_neg (by omega), h1.1 (by unfold listCells at hf; split at hf <;> simp_all; omega)]
    simp only [listCells]
    split
    · rw [Nat.sub_sub]; congr 3; omega
    · rfl
  · by_cases hle : w.free < xs.length
    · rw [if_pos hle]; exact ⟨w, rfl, rfl⟩
    · rw [if_neg hle, h1.2 (by unfold listCells at hf; split at hf <;> simp_all; omega)]
      exact ⟨_, rfl, rfl⟩

example : ∃ w', extMatrixToList (b := .b64) { demo with objs := fun _ => some ⟨2, 2, [some 1, some 2, some 3, some 4]⟩ } [.mat 5] = .ok (w', floatList [1, 2, 3, 4]) :=
  ⟨_, (C111_matrix_to_list { demo with objs := fun _ => some ⟨2, 2, [some 1, some 2, some 3, some 4]⟩ } (.mat 5) 2 2 [1, 2, 3, 4] (by decide) (by decide) ⟨5, rfl, rfl, rfl⟩).1 (by decide)⟩

theorem build_safe {w : World} {m : Mem} {hdr rows cols n : Nat} {wrap : Nat → V b}
    {write : List (Option (BitVec 32)) → Out (List (Option (BitVec 32)))} {xs : List (BitVec 32)}
    (hh : hdr ≤ 2) (hn : n + 2 < 2 ^ 30) (hwr : write (List.replicate n none) = .ok (xs.map some)) (hx : xs.length = rows * cols) (hx0 : 0 < xs.length)
    (hnx : xs.length = n) (hw : Whole w) (hm : ∀ a, m.data = some a → w.objs a = none ∧ m.custom = true)
    (hwrap : wrap = .vec ∧ rows = 1 ∨ wrap = .mat) :
    ∃ w' v, build w m hdr rows cols n wrap write = .ok (w', v) ∧ Whole w' ∧ LiveArg w' v ∧ ∀ a o, w.objs a = some o → w'.objs a = some o := by
  have hlive : LiveArg w (merror (b := b)) := ⟨by simp [merror], by simp [merror]⟩
  rw [build_eq hh hn hwr]
  cases hd : m.data with
  | none => exact ⟨w, merror, rfl, hw, hlive, fun _ _ h => h⟩
  | some a =>
    obtain ⟨hna, hc⟩ := hm a hd
    simp only [hc, if_true]
    by_cases hf : w.free = 0
    · rw [if_pos hf]; exact ⟨w, merror, rfl, hw, hlive, fun _ _ h => h⟩
    · rw [if_neg hf]
      refine ⟨_, _, rfl, ?_, ?_, ?_⟩
      · intro k o hk
        simp only at hk
        split at hk
        · cases hk; exact ⟨by simp only; omega, by simp only; omega, xs, rfl, hx⟩
        · exact hw k o hk
      · rcases hwrap with ⟨rfl, rfl⟩ | rfl
        · exact ⟨fun k hk => by cases hk; exact ⟨_, if_pos rfl, rfl⟩, by simp⟩
        · exact ⟨by simp, fun k hk => by cases hk; exact ⟨_, if_pos rfl⟩⟩
      · intro k o hk
        simp only
        rw [if_neg (by rintro rfl; simp [hna] at hk)]
        exact hk

/-- C111: no call, whatever its arguments, reads or writes outside of a vector or matrix, and all of them stay complete, as long as the
matrices asked for have columns and the allocation of a custom value does not fail after that of its numbers. The arguments stay as they are. -/
theorem C111_safe_partial (sqrt32 : BitVec 32 → BitVec 32) (w : World) (m : Mem) (args : List (V b)) (fn : Fn) (hw : Whole w) (hl : ∀ v ∈ args, LiveArg w v)
    (hm : ∀ a, m.data = some a → w.objs a = none ∧ m.custom = true) (hn : args.length + 2 < 2 ^ 30) (hs : ∀ v ∈ args, (nums v).length + 2 < 2 ^ 30)
    (hc : fn = .listToMatrix → ∀ n l, args = [.num n, l] → (decAsU32 F (.num n)).toNat ≠ 0) :
    ∃ w' v, call F sqrt32 w m args fn = .ok (w', v) ∧ Whole w' ∧ LiveArg w' v ∧ ∀ a o, w.objs a = some o → w'.objs a = some o := by
  have hbad : ∀ (w' : World), Whole w' → ∀ id : Nat, LiveArg w' (V.sym (b := b) id) := fun w' _ id => ⟨by simp, by simp⟩
  have hfail : ∃ w' v, (Out.ok (w, terror) : Out (World × V b)) = .ok (w', v) ∧ Whole w' ∧ LiveArg w' v ∧ ∀ a o, w.objs a = some o → w'.objs a = some o :=
    ⟨w, terror, rfl, hw, hbad w hw _, fun _ _ h => h⟩
  have hvec : ∀ a, V.vec a ∈ args → ∃ xs : List (BitVec 32), w.objs a = some ⟨1, xs.length, xs.map some⟩ ∧ 0 < xs.length ∧ xs.length + 2 < 2 ^ 30 := by
    intro a ha
    obtain ⟨⟨r, c, d⟩, ho, hr⟩ := (hl _ ha).1 a rfl
    obtain ⟨h1, h2, xs, h3, h4⟩ := hw a _ ho
    simp only at hr h1 h2 h3 h4
    subst hr h3
    rw [Nat.one_mul] at h1 h2 h4
    subst h4
    exact ⟨xs, ho, h1, h2⟩
  have henc : ∀ x, ∃ w' v, (Out.ok (encFloat w x) : Out (World × V b)) = .ok (w', v) ∧ Whole w' ∧ LiveArg w' v ∧ ∀ a o, w.objs a = some o → w'.objs a = some o := by
    intro x
    unfold encFloat
    split
    · split
      · exact ⟨w, merror, rfl, hw, hbad w hw _, fun _ _ h => h⟩
      · exact ⟨_, _, rfl, hw, ⟨by simp, by simp⟩, fun _ _ h => h⟩
    · exact ⟨_, _, rfl, hw, ⟨by simp, by simp⟩, fun _ _ h => h⟩
  have hfl : ∀ (xs : List (BitVec 32)) (w' : World), LiveArg w' (floatList (b := b) xs) := by
    intro xs w'
    cases xs <;> exact ⟨by simp [floatList, listOf, nil], by simp [floatList, listOf, nil]⟩
  have hloop : ∀ (o : Obj) (xs : List (BitVec 32)) (f : Nat), o.data = xs.map some →
      ∃ w' v, (match encLoop (b := b) o xs.length 0 f with
        | .ub => (.ub : Out (World × V b))
        | .ok (f, some l) => .ok ({ w with free := f }, l)
        | .ok (f, none) => .ok ({ w with free := f }, merror)) = .ok (w', v) ∧ Whole w' ∧ LiveArg w' v ∧ ∀ a o, w.objs a = some o → w'.objs a = some o := by
    intro o xs f ho
    obtain ⟨h1, h2⟩ := encLoop_ok (b := b) ho xs 0 f (by simp)
    by_cases hle : (if b = .b32 then xs.length else 0) ≤ f
    · rw [h1 hle]; exact ⟨_, _, rfl, hw, hfl _ _, fun _ _ h => h⟩
    · rw [h2 hle]; exact ⟨_, _, rfl, hw, hbad { w with free := 0 } hw _, fun _ _ h => h⟩
  cases fn <;> simp only [call]
  case vector =>
    rw [extVector]
    by_cases ha : args.all isNum = true
    · rw [if_pos ha]
      by_cases h0 : args.length < 1
      · rw [if_pos h0]; exact hfail
      · rw [if_neg h0]
        obtain ⟨ns, rfl⟩ := of_all_num ha
        exact build_safe (by omega) hn (vector_write F ns) (by simp) (by rw [List.length_map] at h0 ⊢; omega) (by simp) hw hm (.inl ⟨rfl, rfl⟩)
    · rw [if_neg ha]; exact hfail
  case listToVector =>
    unfold extListToVector
    split
    · rename_i l
      split
      · simp only [lengthPred_eq]
        have hsl := hs l (by simp)
        split
        · rename_i hc2
          rw [Nat.mod_eq_of_lt (by omega)] at hc2 ⊢
          obtain ⟨ns, hns⟩ := of_all_num hc2.2
          have hwr := fillList_ok F l 0 (List.replicate (nums l).length none) (by simp)
          rw [hns, toArith_num, List.take_zero, List.nil_append] at hwr
          rw [hns] at hsl hc2 ⊢
          exact build_safe (by omega) hsl hwr (by simp) (by simpa using hc2.1) (by simp) hw hm (.inl ⟨rfl, rfl⟩)
        · exact hfail
      · exact hfail
    · exact hfail
  case vectorToList =>
    unfold extVectorToList
    split
    · rename_i a
      obtain ⟨xs, ho, h1, h2⟩ := hvec a (by simp)
      simp only [World.at, ho]
      rw [if_neg (by omega)]
      split
      · exact hfail
      · exact hloop _ xs _ rfl
    · exact hfail
  case vproj =>
    unfold extVproj
    split
    · rename_i a n
      obtain ⟨xs, ho, h1, h2⟩ := hvec a (by simp)
      simp only [World.at, ho]
      split
      · rename_i hlt
        rw [get_ok (xs := xs) rfl (List.getElem?_eq_getElem hlt)]
        exact henc _
      · exact hfail
    · exact hfail
  case axpy =>
    unfold extAxpy
    split
    · rename_i n x y
      obtain ⟨xs, hx, hx0, hx1⟩ := hvec x (by simp)
      obtain ⟨ys, hy, hy0, hy1⟩ := hvec y (by simp)
      simp only [World.at, hx, hy]
      split
      · rename_i heq
        have hwr := fill_ok (axpyAt F (decAsFloat F (.num n)) ⟨1, xs.length, xs.map some⟩ ⟨1, ys.length, ys.map some⟩)
          (List.zipWith (fun u t => F.add32 (F.mul32 (asFloat F n) u) t) xs ys) 0 (List.replicate xs.length none) (by
            intro j z hz
            rw [List.getElem?_zipWith] at hz
            cases hu : xs[j]? with
            | none => simp [hu] at hz
            | some u =>
              cases ht : ys[j]? with
              | none => simp [hu, ht] at hz
              | some t =>
                simp [hu, ht] at hz
                simp only [Nat.zero_add]
                rw [axpyAt, get_ok (xs := xs) rfl hu, get_ok (xs := ys) rfl ht]
                simp only [Out.ok.injEq]
                exact hz) (by simp [heq])
        have hlen : (List.zipWith (fun u t => F.add32 (F.mul32 (asFloat F n) u) t) xs ys).length = xs.length := by simp [heq]
        rw [hlen, List.take_zero, List.nil_append] at hwr
        exact build_safe (by omega) hx1 hwr (by rw [hlen, Nat.one_mul]) (by omega) hlen hw hm (.inl ⟨rfl, rfl⟩)
      · exact hfail
    · exact hfail
  case dot =>
    unfold extDot
    split
    · rename_i x y
      obtain ⟨xs, hx, hx0, hx1⟩ := hvec x (by simp)
      obtain ⟨ys, hy, hy0, hy1⟩ := hvec y (by simp)
      simp only [World.at, hx, hy]
      split
      · rename_i heq
        rw [dotLoop_ok F (xs := xs) (ys := ys) rfl rfl xs ys 0 0 (by simp) (by simp) heq]
        exact henc _
      · exact hfail
    · exact hfail
  case mag =>
    unfold extMag
    split
    · rename_i x
      obtain ⟨xs, hx, hx0, hx1⟩ := hvec x (by simp)
      simp only [World.at, hx]
      rw [dotLoop_ok F (xs := xs) (ys := xs) rfl rfl xs xs 0 0 (by simp) (by simp) rfl]
      exact henc _
    · exact hfail
  case vmult =>
    unfold extVmult
    split
    · rename_i n x
      obtain ⟨xs, hx, hx0, hx1⟩ := hvec x (by simp)
      simp only [World.at, hx]
      have hwr := fill_ok (multAt F (decAsFloat F (.num n)) ⟨1, xs.length, xs.map some⟩)
        (xs.map (F.mul32 (asFloat F n))) 0 (List.replicate xs.length none) (by
          intro j z hz
          simp only [List.getElem?_map, Option.map_eq_some_iff] at hz
          obtain ⟨u, hu, rfl⟩ := hz
          rw [Nat.zero_add, multAt, get_ok (xs := xs) rfl hu]
          rfl) (by simp)
      rw [List.length_map, List.take_zero, List.nil_append] at hwr
      exact build_safe (by omega) hx1 hwr (by simp) (by simpa using hx0) (by simp) hw hm (.inl ⟨rfl, rfl⟩)
    · exact hfail
  case listToMatrix =>
    replace hc := hc rfl
    unfold extListToMatrix
    split
    · rename_i n l
      replace hc := hc n l rfl
      split
      · simp only [lengthPred_eq]
        have hsl := hs l (by simp)
        split
        · rename_i hc2
          rw [Nat.mod_eq_of_lt (show (nums l).length < 2 ^ 32 by omega)] at hc2 ⊢
          split
          · rename_i hdvd
            obtain ⟨ns, hns⟩ := of_all_num hc2.2
            have hmul := Nat.div_mul_cancel (Nat.dvd_of_mod_eq_zero hdvd)
            rw [hmul, Nat.mod_eq_of_lt (show (nums l).length < 2 ^ 32 by omega)]
            have hwr := fillList_ok F l 0 (List.replicate (nums l).length none) (by simp)
            rw [hns, toArith_num, List.take_zero, List.nil_append] at hwr
            rw [hns] at hsl hc2 hmul ⊢
            exact build_safe (by omega) hsl hwr (by rw [hmul]; simp) (by simpa using hc2.1) (by simp) hw hm (.inr rfl)
          · exact hfail
        · exact hfail
      · exact hfail
    · exact hfail
  case matrixToList =>
    unfold extMatrixToList
    split
    · rename_i a
      obtain ⟨⟨r, c, d⟩, ho⟩ := (hl (.mat a) (by simp)).2 a rfl
      obtain ⟨h1, h2, xs, h3, h4⟩ := hw a _ ho
      simp only at h1 h2 h3 h4
      have hmod : r * c % 2 ^ b.w = xs.length := by
        rw [← h4, Nat.mod_eq_of_lt]
        cases b <;> simp only [Build.w] <;> omega
      simp only [World.at, ho, hmod]
      rw [if_neg (by omega)]
      split
      · exact ⟨w, merror, rfl, hw, hbad w hw _, fun _ _ h => h⟩
      · exact hloop _ xs _ h3
    · exact hfail

/-- The hypotheses hold for the two vectors of `demo`. -/
example (sqrt32 : BitVec 32 → BitVec 32) : ∃ w' v, call (b := .b32) F sqrt32 demo ⟨some 30, true⟩ [.num (.char 3), .vec 10, .vec 20] .axpy = .ok (w', v) ∧ Whole w' ∧ LiveArg w' v ∧
    ∀ a o, demo.objs a = some o → w'.objs a = some o :=
  C111_safe_partial F sqrt32 demo ⟨some 30, true⟩ _ .axpy demo_whole
    (by simp only [List.mem_cons, List.not_mem_nil, or_false]
        rintro v (rfl | rfl | rfl)
        · exact ⟨by simp, by simp⟩
        · exact ⟨fun a h => by cases h; exact ⟨_, rfl, rfl⟩, by simp⟩
        · exact ⟨fun a h => by cases h; exact ⟨_, rfl, rfl⟩, by simp⟩)
    (by rintro a h; cases h; exact ⟨rfl, rfl⟩) (by decide)
    (by simp only [List.mem_cons, List.not_mem_nil, or_false]
        rintro v (rfl | rfl | rfl) <;> simp [nums]) (by simp)

/-- C111, violated: when there is memory for the numbers but not for the custom value, the functions go on with nil in place of the new vector. -/
theorem C111_custom_violated (w : World) (a : Nat) (n : Num b) (ns : List (Num b)) (hn : 0 < ns.length) (hb : ns.length < 2 ^ 32) (x : V b) (xs : List (BitVec 32)) (hx : IsVec w x xs) :
    extVector F w ⟨some a, false⟩ (ns.map .num) = .ub ∧ extListToVector F w ⟨some a, false⟩ [listOf (ns.map .num)] = .ub ∧
    extVmult F w ⟨some a, false⟩ [.num n, x] = .ub ∧ extAxpy F w ⟨some a, false⟩ [.num n, x, x] = .ub := by
  have hl : isList (listOf (ns.map (V.num (b := b)))) = true := by cases ns <;> simp [listOf, isList, nil]
  obtain ⟨c, rfl, hc⟩ := hx
  refine ⟨?_, ?_, ?_, ?_⟩
  · rw [extVector, if_pos (all_num ns), if_neg (by rw [List.length_map]; omega)]; rfl
  · simp only [extListToVector, hl, if_true, lengthPred_eq, nums_listOf, all_num, List.length_map, and_true]
    rw [Nat.mod_eq_of_lt hb, if_pos hn]; rfl
  · simp [extVmult, World.at, hc, build, allocate]
  · simp [extAxpy, World.at, hc, build, allocate]

end Verif.Matvec
