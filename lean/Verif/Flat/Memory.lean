import Verif.Flat.Host

/-!
# `flatten` and the memory (C136)

`flatten_value` with the allocations that it makes (`src/lbm_flat_value.c:447-492`) and `apply_flatten` (`src/eval_cps.c:2701-2722`).
-/

namespace Verif.Flat

open Verif.Val (Build payload)

/-- The memory of the system and the number of free cells of the heap. -/
structure World where
  mem : Mem.Mem
  free : Nat

/-- What `flatten_value` returns: a symbol, or a byte array with the address of its header, the address of its bytes, its size and what was written. -/
inductive Flattened where
  | sym (id : Nat)
  | array (hdr data size : Nat) (bytes : List Byte)

/-- `flatten_value` (lbm_flat_value.c:447-492). `none`: an allocation does not return. The cell that is given up when it fails (462, 469, 490) is garbage: it is free again after the next collection. -/
def flattenMem (b : Build) (syms : Syms) (maxDepth : Nat) (s : World) (v : FV) : Option (World × Flattened) :=
  if s.free = 0 then some (s, .sym 0x23)
  else
    let n := flattenValueSize b syms maxDepth v
    if n > 0 then
      match Mem.malloc s.mem (2 * (s.mem.w / 8)) with
      | none => none
      | some (m, none) => some (⟨m, s.free - 1⟩, .sym 0x23)
      | some (m, some p) =>
        match startFlatten m n.toNat with
        | none => none
        | some (m', none) => some (⟨(Mem.free m' p).1, s.free - 1⟩, .sym 0x23)
        | some (m', some fv) =>
          let r := flattenC b syms ⟨n.toNat, []⟩ v
          if r.2 = 0 then some (⟨m', s.free - 1⟩, .array p fv.addr fv.size r.1.out)
          else some (⟨m', s.free - 1⟩, .sym (handleFlattenError n))
    else some (⟨s.mem, s.free - 1⟩, .sym (handleFlattenError n))

/-- What a call of `flatten` ends with: an error or a byte array. -/
inductive Applied where
  | error (id : Nat)
  | value (hdr data size : Nat) (bytes : List Byte)

/-- The end of `apply_flatten` (eval_cps.c:2712-2718): a symbol is an error. -/
def applied : World × Flattened → World × Applied
  | (s, .sym e) => (s, .error e)
  | (s, .array p d n bs) => (s, .value p d n bs)

/-- `apply_flatten` (eval_cps.c:2701-2722). `gc` is a collection. -/
def applyFlatten (b : Build) (syms : Syms) (maxDepth : Nat) (gc : World → World) (s : World) : List FV → Option (World × Applied)
  | [v] =>
    match flattenMem b syms maxDepth s v with
    | none => none
    | some (s', .sym e) => if e = 0x23 then (flattenMem b syms maxDepth (gc s') v).map applied else some (s', .error e)
    | some r => some (applied r)
  | _ => some (s, .error 0x21)

/-! ## Specification -/

/-- The value has no channel, custom value or other part that cannot be written. -/
inductive NoOther : FV → Prop
  | cons {a d} : NoOther a → NoOther d → NoOther (.cons a d)
  | lispArray {es} : (∀ e ∈ es, NoOther e) → NoOther (.lispArray es)
  | leaf {v} : (∀ a d, v ≠ .cons a d) → (∀ es, v ≠ .lispArray es) → v ≠ .other → NoOther v

/-- The value has no empty byte array, and nothing in an array of values that cannot be written. -/
inductive Tame : FV → Prop
  | cons {a d} : Tame a → Tame d → Tame (.cons a d)
  | lispArray {es} : (∀ e ∈ es, Tame e) → (∀ e ∈ es, NoOther e) → Tame (.lispArray es)
  | leaf {v} : (∀ a d, v ≠ .cons a d) → (∀ es, v ≠ .lispArray es) → v ≠ .array [] → Tame v

/-! ## Proofs -/

/-- The size is right and is enough. -/
structure Fits (b : Build) (syms : Syms) (maxDepth : Nat) (v : FV) : Prop where
  neg : ∀ depth e, sizeInternal b syms maxDepth depth v = .error e → e = -5 ∨ e = -7 ∨ e = -1
  ok : ∀ depth n (buf : Buf), sizeInternal b syms maxDepth depth v = .ok n → 0 < n → buf.out.length + n ≤ buf.size →
    (flattenC b syms buf v).2 = 0 ∧ (flattenC b syms buf v).1.size = buf.size ∧ ((flattenC b syms buf v).1.out.length : Int) = buf.out.length + n
  pos : NoOther v → ∀ depth n, sizeInternal b syms maxDepth depth v = .ok n → 0 < n

theorem code_put {b : Build} {buf : Buf} {c : Put} (h : buf.out.length + (c.bytes b).length ≤ buf.size) :
    (code (put b buf c)).2 = 0 ∧ (code (put b buf c)).1.size = buf.size ∧ ((code (put b buf c)).1.out.length : Int) = buf.out.length + (c.bytes b).length := by
  rw [put_ok b c h]
  refine ⟨rfl, rfl, ?_⟩
  simp [code]

theorem fits_leaf {b : Build} {syms : Syms} {maxDepth : Nat} {v : FV} {c : Put} (hs : ∀ depth, sizeInternal b syms maxDepth depth v = if depth > maxDepth then .error (-5) else pure ((c.bytes b).length : Int))
    (hf : ∀ buf, flattenC b syms buf v = code (put b buf c)) (h0 : 0 < (c.bytes b).length) : Fits b syms maxDepth v := by
  refine ⟨fun depth e he => ?_, fun depth n buf hn hp hr => ?_, fun _ depth n hn => ?_⟩
  · rw [hs] at he
    split at he
    · cases he; decide
    · cases he
  · rw [hs] at hn
    split at hn
    · cases hn
    · cases hn
      rw [hf]
      exact code_put (by omega)
  · rw [hs] at hn
    split at hn
    · cases hn
    · cases hn; omega

theorem fits (b : Build) (syms : Syms) (maxDepth : Nat) : ∀ v, Tame v → Fits b syms maxDepth v := by
  refine FV.ind ?_ ?_ ?_
  · intro a d iha ihd ht
    have ⟨ta, td⟩ : Tame a ∧ Tame d := by
      cases ht with
      | cons h1 h2 => exact ⟨h1, h2⟩
      | leaf h _ _ => exact absurd rfl (h _ _)
    have fa := iha ta
    have fd := ihd td
    refine ⟨fun depth e he => ?_, fun depth n buf hn hp hr => ?_, fun hno depth n hn => ?_⟩
    · rw [sizeInternal] at he
      split at he
      · cases he; decide
      · cases e1 : sizeInternal b syms maxDepth (depth + 1) a with
        | error x => rw [e1] at he; cases he; exact fa.neg _ _ e1
        | ok s1 =>
          rw [e1] at he
          simp only [bind, Except.bind] at he
          split at he
          · cases e2 : sizeInternal b syms maxDepth (depth + 1) d with
            | error x => rw [e2] at he; cases he; exact fd.neg _ _ e2
            | ok s2 =>
              rw [e2] at he
              simp only at he
              split at he <;> cases he
          · cases he
    · rw [sizeInternal] at hn
      split at hn
      · cases hn
      · cases e1 : sizeInternal b syms maxDepth (depth + 1) a with
        | error x => rw [e1] at hn; cases hn
        | ok s1 =>
          rw [e1] at hn
          simp only [bind, Except.bind] at hn
          split at hn
          · rename_i hs1
            cases e2 : sizeInternal b syms maxDepth (depth + 1) d with
            | error x => rw [e2] at hn; cases hn
            | ok s2 =>
              rw [e2] at hn
              simp only at hn
              split at hn
              · rename_i hs2
                cases hn
                have hput := put_ok (size := buf.size) (out := buf.out) b .cons (by simp [Put.bytes]; omega)
                simp only [put, Put.bytes] at hput
                simp only [flattenC, hput, if_true]
                obtain ⟨a1, a2, a3⟩ := fa.ok _ _ { buf with out := buf.out ++ [0x01] } e1 hs1 (by simp; omega)
                simp only [a1, if_true]
                obtain ⟨d1, d2, d3⟩ := fd.ok _ _ (flattenC b syms { buf with out := buf.out ++ [0x01] } a).1 e2 hs2 (by rw [a2, a3]; simp; omega)
                refine ⟨d1, by rw [d2, a2], ?_⟩
                rw [d3, a3]; simp; omega
              · cases hn; omega
          · cases hn; omega
    · have ⟨na, nd⟩ : NoOther a ∧ NoOther d := by
        cases hno with
        | cons h1 h2 => exact ⟨h1, h2⟩
        | leaf h _ _ => exact absurd rfl (h _ _)
      rw [sizeInternal] at hn
      split at hn
      · cases hn
      · cases e1 : sizeInternal b syms maxDepth (depth + 1) a with
        | error x => rw [e1] at hn; cases hn
        | ok s1 =>
          have p1 := fa.pos na _ _ e1
          rw [e1] at hn
          simp only [bind, Except.bind, p1, if_true, gt_iff_lt] at hn
          cases e2 : sizeInternal b syms maxDepth (depth + 1) d with
          | error x => rw [e2] at hn; cases hn
          | ok s2 =>
            have p2 := fd.pos nd _ _ e2
            rw [e2] at hn
            simp only [p2, if_true] at hn
            cases hn; omega
  · intro es ih ht
    have te : ∀ e ∈ es, Tame e ∧ NoOther e := by
      cases ht with
      | lispArray h h' => exact fun e he => ⟨h e he, h' e he⟩
      | leaf _ h _ => exact absurd rfl (h _)
    have key : ∀ l : List FV, (∀ e ∈ l, Fits b syms maxDepth e ∧ NoOther e) → ∀ depth sum,
        (∀ e, sizeInternal.sizeElems b syms maxDepth depth l sum = .error e → e = -5 ∨ e = -7 ∨ e = -1) ∧
        (∀ n, sizeInternal.sizeElems b syms maxDepth depth l sum = .ok n → sum ≤ n ∧ ∀ buf : Buf, buf.out.length + (n - sum) ≤ buf.size →
          (flattenC.flattenElems b syms buf l).2 = 0 ∧ (flattenC.flattenElems b syms buf l).1.size = buf.size ∧ ((flattenC.flattenElems b syms buf l).1.out.length : Int) = buf.out.length + (n - sum)) := by
      intro l
      induction l with
      | nil =>
        intro _ depth sum
        refine ⟨fun e he => by (simp [sizeInternal.sizeElems] at he; cases he), fun n hn => ?_⟩
        simp only [sizeInternal.sizeElems] at hn
        cases hn
        exact ⟨by omega, fun buf _ => ⟨rfl, rfl, by simp [flattenC.flattenElems]⟩⟩
      | cons e l ihl =>
        intro hl depth sum
        obtain ⟨fe, ne⟩ := hl e (by simp)
        have hl' := fun e' he' => hl e' (List.mem_cons_of_mem _ he')
        simp only [sizeInternal.sizeElems, bind, Except.bind]
        cases e1 : sizeInternal b syms maxDepth (depth + 1) e with
        | error x =>
          refine ⟨fun y hy => ?_, fun n hn => ?_⟩
          · cases hy; exact fe.neg _ _ e1
          · cases hn
        | ok s1 =>
          have p1 := fe.pos ne _ _ e1
          obtain ⟨k1, k2⟩ := ihl hl' depth (sum + s1)
          refine ⟨k1, fun n hn => ?_⟩
          obtain ⟨k3, k4⟩ := k2 n hn
          refine ⟨by omega, fun buf hb => ?_⟩
          obtain ⟨a1, a2, a3⟩ := fe.ok _ _ buf e1 p1 (by omega)
          simp only [flattenC.flattenElems, a1, if_true]
          obtain ⟨d1, d2, d3⟩ := k4 (flattenC b syms buf e).1 (by rw [a2, a3]; omega)
          exact ⟨d1, by rw [d2, a2], by rw [d3, a3]; omega⟩
    have hall : ∀ e ∈ es, Fits b syms maxDepth e ∧ NoOther e := fun e he => ⟨ih e he (te e he).1, (te e he).2⟩
    refine ⟨fun depth e he => ?_, fun depth n buf hn hp hr => ?_, fun hno depth n hn => ?_⟩
    · rw [sizeInternal] at he
      split at he
      · cases he; decide
      · exact (key es hall depth _).1 e he
    · rw [sizeInternal] at hn
      split at hn
      · cases hn
      · obtain ⟨k1, k2⟩ := (key es hall depth _).2 n hn
        have hput := put_ok (size := buf.size) (out := buf.out) b (.lispArray es.length) (by simp [Put.bytes, bigEndian_length]; omega)
        simp only [put, Put.bytes] at hput
        simp only [flattenC, hput, if_true]
        obtain ⟨d1, d2, d3⟩ := k2 { buf with out := buf.out ++ (0x1F :: bigEndian 4 (es.length % 2 ^ 32)) } (by simp [bigEndian_length]; omega)
        refine ⟨d1, d2, ?_⟩
        rw [d3]; simp [bigEndian_length]; omega
    · rw [sizeInternal] at hn
      split at hn
      · cases hn
      · have := ((key es hall depth _).2 n hn).1
        omega
  · intro v hc hl ht
    have hb : ∀ bs, v = .array bs → bs ≠ [] := by
      intro bs hv hbs
      cases ht with
      | leaf _ _ h => exact h (by rw [hv, hbs])
      | cons => exact hc _ _ rfl
      | lispArray => exact hl _ rfl
    cases v with
    | cons a d => exact absurd rfl (hc a d)
    | lispArray es => exact absurd rfl (hl es)
    | byte c => exact fits_leaf (c := .byte c) (fun _ => rfl) (fun _ => rfl) (by simp [Put.bytes])
    | int z => cases b <;> exact fits_leaf (c := .int z) (fun _ => rfl) (fun _ => rfl) (by simp [Put.bytes])
    | uint z => cases b <;> exact fits_leaf (c := .uint z) (fun _ => rfl) (fun _ => rfl) (by simp [Put.bytes])
    | i32 x => exact fits_leaf (c := .i32 x) (fun _ => rfl) (fun _ => rfl) (by simp [Put.bytes])
    | u32 x => exact fits_leaf (c := .u32 x) (fun _ => rfl) (fun _ => rfl) (by simp [Put.bytes])
    | float x => exact fits_leaf (c := .float x) (fun _ => rfl) (fun _ => rfl) (by simp [Put.bytes])
    | i64 x => exact fits_leaf (c := .i64 x) (fun _ => rfl) (fun _ => rfl) (by simp [Put.bytes])
    | u64 x => exact fits_leaf (c := .u64 x) (fun _ => rfl) (fun _ => rfl) (by simp [Put.bytes])
    | double x => exact fits_leaf (c := .double x) (fun _ => rfl) (fun _ => rfl) (by simp [Put.bytes])
    | sym id =>
      cases hn : syms.nameOf id with
      | some s => exact fits_leaf (c := .name s) (fun depth => by simp [sizeInternal, hn, Put.bytes]; split <;> first | rfl | (congr 1; omega)) (fun buf => by simp [flattenC, hn, put]) (by simp [Put.bytes])
      | none =>
        refine ⟨fun depth e he => ?_, fun depth n buf h => ?_, fun _ depth n h => ?_⟩
        · simp only [sizeInternal, hn] at he; split at he <;> cases he <;> decide
        · simp only [sizeInternal, hn] at h; split at h <;> cases h
        · simp only [sizeInternal, hn] at h; split at h <;> cases h
    | array bs =>
      have hpos : 0 < bs.length := List.length_pos_iff.2 (hb bs rfl)
      exact fits_leaf (c := .array bs) (fun depth => by simp only [sizeInternal, Put.bytes, List.length_cons, List.length_append, bigEndian_length, hpos, gt_iff_lt, if_true]; split <;> first | rfl | (congr 1; omega))
        (fun buf => by simp only [flattenC, put, hpos, gt_iff_lt, if_true]) (by simp [Put.bytes])
    | freedArray =>
      refine ⟨fun depth e he => ?_, fun depth n buf h => ?_, fun _ depth n h => ?_⟩
      · simp only [sizeInternal] at he; split at he <;> cases he <;> decide
      · simp only [sizeInternal] at h; split at h <;> cases h
      · simp only [sizeInternal] at h; split at h <;> cases h
    | other =>
      refine ⟨fun depth e he => ?_, fun depth n buf h hp => ?_, fun hno => ?_⟩
      · simp only [sizeInternal] at he; split at he <;> cases he <;> decide
      · simp only [sizeInternal] at h; split at h <;> cases h; omega
      · cases hno with
        | leaf _ _ h => exact absurd rfl h

theorem size_low {b : Build} {syms : Syms} {maxDepth : Nat} {v : FV} (ht : Tame v) {depth : Nat} {n : Int} (h : sizeInternal b syms maxDepth depth v = .ok n) : -1 ≤ n := by
  have hpos := (fits b syms maxDepth v ht).pos
  cases ht with
  | cons ha hd =>
    rw [sizeInternal] at h
    split at h
    · cases h
    · cases e1 : sizeInternal b syms maxDepth (depth + 1) _ with
      | error x => rw [e1] at h; cases h
      | ok s1 =>
        rw [e1] at h
        simp only [bind, Except.bind] at h
        split at h
        · cases e2 : sizeInternal b syms maxDepth (depth + 1) _ with
          | error x => rw [e2] at h; cases h
          | ok s2 =>
            rw [e2] at h
            simp only at h
            split at h <;> cases h <;> omega
        · cases h; omega
  | lispArray h1 h2 => have := hpos (.lispArray h2) depth n h; omega
  | leaf h1 h2 h3 =>
    by_cases ho : v = .other
    · subst ho
      simp only [sizeInternal] at h
      split at h <;> cases h
      omega
    · have := hpos (.leaf h1 h2 ho) depth n h; omega

theorem words_two {w : Nat} (hw8 : 8 ≤ w) : Mem.bytesToWords w (2 * (w / 8)) = 2 := by
  have hq : 0 < w / 8 := Nat.div_pos hw8 (by decide)
  unfold Mem.bytesToWords
  rw [if_pos (Nat.mul_mod_left _ _), Nat.mul_div_cancel _ hq]

theorem malloc_two {valid : Bool} {w size : Nat} {m : Mem.Mem} {live : List Mem.Block} (h0 : 0 < size) (hw : size < 2 ^ w) (hw8 : 8 ≤ w) (h : Mem.Reach valid w size m live) :
    (∃ m', Mem.malloc m (2 * (m.w / 8)) = some (m', none) ∧ Mem.Reach valid w size m' live) ∨
    ∃ m' p, Mem.malloc m (2 * (m.w / 8)) = some (m', some p) ∧ Mem.Reach valid w size m' ((p, 2) :: live) := by
  have hmw : m.w = w := by obtain ⟨_, hh⟩ := Mem.reach_inv h0 hw h; exact hh.hw
  have hlt : 2 * (w / 8) < 2 ^ w := by
    have h1 : 2 * (w / 8) < w := by omega
    exact Nat.lt_trans h1 Nat.lt_two_pow_self
  have hne : Mem.malloc m (2 * (m.w / 8)) ≠ none := by
    unfold Mem.malloc
    split
    · simp
    · exact (Mem.C01_blocks_disjoint h0 hw h).2.2 _
  rw [hmw] at hne ⊢
  cases e : Mem.malloc m (2 * (w / 8)) with
  | none => exact absurd e hne
  | some r =>
    obtain ⟨m', o⟩ := r
    cases o with
    | none => exact .inl ⟨m', rfl, .mallocFail h hlt e⟩
    | some p =>
      have := Mem.Reach.malloc h hlt e
      rw [words_two hw8] at this
      exact .inr ⟨m', p, rfl, this⟩

theorem start_or {valid : Bool} {w size n : Nat} {m : Mem.Mem} {live : List Mem.Block} (h0 : 0 < size) (hw : size < 2 ^ w) (h : Mem.Reach valid w size m live) (hn : n < 2 ^ w) :
    (∃ m', startFlatten m n = some (m', none) ∧ Mem.Reach valid w size m' live) ∨
    ∃ m' p, startFlatten m n = some (m', some ⟨p, n, 0⟩) ∧ Mem.Reach valid w size m' ((p, Mem.bytesToWords w n) :: live) := by
  have hI := Mem.reach_inv h0 hw h
  have hne : Mem.mallocReserve m n ≠ none := by
    have hI2 : Mem.Inv valid w size (if Mem.wsub m.w m.numFree (Mem.bytesToWords m.w n) < m.reserve then { m with gcReq := true } else m) live := by
      split
      · exact hI.congr rfl rfl rfl rfl
      · exact hI
    simp only [Mem.mallocReserve]
    split
    · simp
    · rcases Mem.allocateInternal_inv hw hI2 (Mem.bytesToWords m.w n) with ⟨m2, p2, e, _⟩ | ⟨e, _⟩ <;> rw [e] <;> simp
  cases e : Mem.mallocReserve m n with
  | none => exact absurd e hne
  | some r =>
    obtain ⟨m', o⟩ := r
    cases o with
    | none => exact .inl ⟨m', by simp [startFlatten, e], .mallocReserveFail h hn e⟩
    | some p => exact .inr ⟨m', p, by simp [startFlatten, e], .mallocReserve h hn e⟩

/-- The ways in which `flatten_value` ends, with the blocks that are live afterwards. -/
inductive Ends (b : Build) (syms : Syms) (maxDepth : Nat) (valid : Bool) (w size : Nat) (live : List Mem.Block) (s : World) (v : FV) : World → Flattened → Prop
  | noCell : s.free = 0 → Ends b syms maxDepth valid w size live s v s (.sym 0x23)
  | noHeader {m} : 0 < s.free → 0 < flattenValueSize b syms maxDepth v → Mem.Reach valid w size m live →
      (∀ m' p, Mem.malloc s.mem (2 * (s.mem.w / 8)) ≠ some (m', some p)) → Ends b syms maxDepth valid w size live s v ⟨m, s.free - 1⟩ (.sym 0x23)
  | noBuffer {m m1 p} : 0 < s.free → 0 < flattenValueSize b syms maxDepth v → Mem.Reach valid w size m live →
      Mem.Reach valid w size m1 ((p, 2) :: live) → (∀ m' fv, startFlatten m1 (flattenValueSize b syms maxDepth v).toNat ≠ some (m', some fv)) →
      Ends b syms maxDepth valid w size live s v ⟨m, s.free - 1⟩ (.sym 0x23)
  | done {m p d} : 0 < s.free → 0 < flattenValueSize b syms maxDepth v → (flattenC b syms ⟨(flattenValueSize b syms maxDepth v).toNat, []⟩ v).2 = 0 →
      Mem.Reach valid w size m ((d, Mem.bytesToWords w (flattenValueSize b syms maxDepth v).toNat) :: (p, 2) :: live) →
      Ends b syms maxDepth valid w size live s v ⟨m, s.free - 1⟩ (.array p d (flattenValueSize b syms maxDepth v).toNat (flattenC b syms ⟨(flattenValueSize b syms maxDepth v).toNat, []⟩ v).1.out)
  | leak {m p d} : 0 < s.free → 0 < flattenValueSize b syms maxDepth v → (flattenC b syms ⟨(flattenValueSize b syms maxDepth v).toNat, []⟩ v).2 ≠ 0 →
      Mem.Reach valid w size m ((d, Mem.bytesToWords w (flattenValueSize b syms maxDepth v).toNat) :: (p, 2) :: live) →
      Ends b syms maxDepth valid w size live s v ⟨m, s.free - 1⟩ (.sym (handleFlattenError (flattenValueSize b syms maxDepth v)))
  | refused : 0 < s.free → flattenValueSize b syms maxDepth v ≤ 0 →
      Ends b syms maxDepth valid w size live s v ⟨s.mem, s.free - 1⟩ (.sym (handleFlattenError (flattenValueSize b syms maxDepth v)))

theorem ends {b : Build} {syms : Syms} {maxDepth : Nat} {valid : Bool} {w size : Nat} {live : List Mem.Block} {s : World} {v : FV} (h0 : 0 < size) (hw : size < 2 ^ w) (hw8 : 8 ≤ w)
    (h : Mem.Reach valid w size s.mem live) (hn : flattenValueSize b syms maxDepth v < 2 ^ w) :
    ∃ s' r, flattenMem b syms maxDepth s v = some (s', r) ∧ Ends b syms maxDepth valid w size live s v s' r := by
  have hnn : (flattenValueSize b syms maxDepth v).toNat < 2 ^ w := by
    have : ((2 ^ w : Nat) : Int) = 2 ^ w := by push_cast; rfl
    omega
  unfold flattenMem
  by_cases hf : s.free = 0
  · exact ⟨_, _, by rw [if_pos hf], .noCell hf⟩
  · rw [if_neg hf]
    have hf' : 0 < s.free := by omega
    simp only
    by_cases hp : flattenValueSize b syms maxDepth v > 0
    · rw [if_pos hp]
      rcases malloc_two h0 hw hw8 h with ⟨m, e, hr⟩ | ⟨m, p, e, hr⟩
      · rw [e]
        exact ⟨_, _, rfl, .noHeader hf' hp hr (by rw [e]; simp)⟩
      · rw [e]
        simp only
        rcases start_or h0 hw hr hnn with ⟨m', e', hr'⟩ | ⟨m', d, e', hr'⟩
        · rw [e']
          have hfr := Mem.Reach.free hr' (show (p, 2) ∈ (p, 2) :: live by simp)
          rw [List.erase_cons_head] at hfr
          exact ⟨_, _, rfl, .noBuffer hf' hp hfr hr (by rw [e']; simp)⟩
        · rw [e']
          simp only
          by_cases hc : (flattenC b syms ⟨(flattenValueSize b syms maxDepth v).toNat, []⟩ v).2 = 0
          · rw [if_pos hc]
            exact ⟨_, _, rfl, .done hf' hp hc hr'⟩
          · rw [if_neg hc]
            exact ⟨_, _, rfl, .leak hf' hp hc hr'⟩
    · rw [if_neg hp]
      exact ⟨_, _, rfl, .refused hf' (by omega)⟩

/-- C136: `flatten` ends. When it delivers an array, this has exactly the bytes of the value, and its header and its bytes are two new blocks of memory, the second one less than a word larger than the bytes; it takes one cell. -/
theorem C136_array {b : Build} {syms : Syms} {maxDepth : Nat} {valid : Bool} {w size : Nat} {live : List Mem.Block} {s : World} {v : FV} (h0 : 0 < size) (hw : size < 2 ^ w) (hw8 : 8 ≤ w)
    (h : Mem.Reach valid w size s.mem live) (hn : flattenValueSize b syms maxDepth v < 2 ^ w) :
    ∃ s' r, flattenMem b syms maxDepth s v = some (s', r) ∧
      ∀ p d n bytes, r = .array p d n bytes → flattenValue b syms maxDepth v = .ok bytes ∧ n = bytes.length ∧ s'.free + 1 = s.free ∧
        ∃ k, n ≤ k * (w / 8) ∧ k * (w / 8) < n + w / 8 ∧ Mem.Reach valid w size s'.mem ((d, k) :: (p, 2) :: live) := by
  obtain ⟨s', r, e, he⟩ := ends h0 hw hw8 h hn
  refine ⟨s', r, e, fun p d n bytes hr => ?_⟩
  cases he with
  | done hf hp hc hm =>
    cases hr
    have hok : flattenValue b syms maxDepth v = .ok (flattenC b syms ⟨(flattenValueSize b syms maxDepth v).toNat, []⟩ v).1.out := by
      simp only [flattenValue]
      rw [if_pos hp, if_pos hc]
    have hl := C14_size_exact b syms maxDepth v _ hok
    obtain ⟨c1, c2, -⟩ := words_cover w (flattenValueSize b syms maxDepth v).toNat hw8
    exact ⟨hok, by omega, by simp only; omega, _, c1, c2, hm⟩
  | _ => cases hr

/-- C136: when it fails and the value is `Tame`, no memory stays allocated, and at most the one cell is used, which is garbage. The error is the one that belongs to the value, or, for a value that can be flattened or without a cell, the memory error. -/
theorem C136_nothing_lost_partial {b : Build} {syms : Syms} {maxDepth : Nat} {valid : Bool} {w size : Nat} {live : List Mem.Block} {s s' : World} {v : FV} {e : Nat} (h0 : 0 < size) (hw : size < 2 ^ w) (hw8 : 8 ≤ w)
    (h : Mem.Reach valid w size s.mem live) (hn : flattenValueSize b syms maxDepth v < 2 ^ w) (ht : Tame v) (hr : flattenMem b syms maxDepth s v = some (s', .sym e)) :
    Mem.Reach valid w size s'.mem live ∧ s'.free ≤ s.free ∧ s.free ≤ s'.free + 1 ∧
    (∀ bytes, flattenValue b syms maxDepth v = .ok bytes → e = 0x23) ∧
    (∀ e', flattenValue b syms maxDepth v = .error e' → 0 < s.free → e = e' ∧ e ≠ 0x23) := by
  have hfit := fits b syms maxDepth v ht
  have hpos : 0 < flattenValueSize b syms maxDepth v → (flattenC b syms ⟨(flattenValueSize b syms maxDepth v).toNat, []⟩ v).2 = 0 := by
    intro hp
    unfold flattenValueSize at hp ⊢
    cases e1 : sizeInternal b syms maxDepth 0 v with
    | error x =>
      have := hfit.neg _ _ e1
      rw [e1] at hp
      simp only at hp
      rw [if_neg (by omega)] at hp
      omega
    | ok n =>
      rw [e1] at hp
      simp only at hp ⊢
      exact (hfit.ok 0 n ⟨n.toNat, []⟩ e1 hp (by simp; omega)).1
  obtain ⟨s1, r1, e1, he⟩ := ends h0 hw hw8 h hn
  rw [e1] at hr
  have hok : 0 < flattenValueSize b syms maxDepth v → ∃ bytes, flattenValue b syms maxDepth v = .ok bytes := by
    intro hp
    simp only [flattenValue]
    rw [if_pos hp, if_pos (hpos hp)]
    exact ⟨_, rfl⟩
  cases he with
  | noCell hf => cases hr; exact ⟨h, by omega, by omega, fun _ _ => rfl, fun _ _ hf' => by omega⟩
  | noHeader hf hp hm => cases hr; exact ⟨hm, by simp only; omega, by simp only; omega, fun _ _ => rfl, fun _ he' _ => by obtain ⟨_, hb⟩ := hok hp; rw [hb] at he'; cases he'⟩
  | noBuffer hf hp hm => cases hr; exact ⟨hm, by simp only; omega, by simp only; omega, fun _ _ => rfl, fun _ he' _ => by obtain ⟨_, hb⟩ := hok hp; rw [hb] at he'; cases he'⟩
  | done => cases hr
  | leak hf hp hc => exact absurd (hpos hp) hc
  | refused hf hp =>
    cases hr
    have herr : flattenValue b syms maxDepth v = .error (handleFlattenError (flattenValueSize b syms maxDepth v)) := by
      simp only [flattenValue]
      rw [if_neg (by omega)]
    refine ⟨h, by simp only; omega, by simp only; omega, fun _ hb => by (rw [herr] at hb; cases hb), fun e' he' _ => ?_⟩
    rw [herr] at he'
    cases he'
    refine ⟨rfl, ?_⟩
    have hs : flattenValueSize b syms maxDepth v = -5 ∨ flattenValueSize b syms maxDepth v = -7 ∨ flattenValueSize b syms maxDepth v = -1 ∨ flattenValueSize b syms maxDepth v = 0 := by
      unfold flattenValueSize at hp ⊢
      cases e2 : sizeInternal b syms maxDepth 0 v with
      | error x =>
        have hx := hfit.neg _ _ e2
        simp only
        rw [if_neg (by omega)]
        omega
      | ok n =>
        have := size_low ht e2
        rw [e2] at hp
        simp only at hp ⊢
        omega
    rcases hs with hs | hs | hs | hs <;> rw [hs] <;> decide

/-- There is room for the header and the bytes: enough words above the reserve for the header, and a free run of the header's words and twice those of the bytes. -/
def Room (w size : Nat) (m : Mem.Mem) (live : List Mem.Block) (n : Nat) : Prop :=
  2 + m.reserve ≤ size - Mem.liveWords live ∧ ∃ q, Mem.freeRun size live q (2 * Mem.bytesToWords w n + 2)

/-- C136: with room and a free cell a value that can be flattened is flattened. -/
theorem C136_enough {b : Build} {syms : Syms} {maxDepth : Nat} {w size : Nat} {live : List Mem.Block} {s : World} {v : FV} {bytes : List Byte} (h0 : 0 < size) (hw : size < 2 ^ w) (hw8 : 8 ≤ w)
    (h : Mem.Reach true w size s.mem live) (hn : flattenValueSize b syms maxDepth v < 2 ^ w) (hok : flattenValue b syms maxDepth v = .ok bytes) (hf : 0 < s.free) (hroom : Room w size s.mem live bytes.length) :
    ∃ s' p d, flattenMem b syms maxDepth s v = some (s', .array p d bytes.length bytes) := by
  obtain ⟨s', r, e, he⟩ := ends h0 hw hw8 h hn
  have hsz := C14_size_exact b syms maxDepth v _ hok
  have hnat : (flattenValueSize b syms maxDepth v).toNat = bytes.length := by omega
  obtain ⟨hres, q, hq⟩ := hroom
  have hmw : s.mem.w = w := by obtain ⟨_, hh⟩ := Mem.reach_inv h0 hw h; exact hh.hw
  have h2w : 2 < 2 ^ w := Nat.lt_of_lt_of_le (show 2 < 2 ^ 8 by decide) (Nat.pow_le_pow_right (by decide) hw8)
  cases he with
  | noCell hf' => omega
  | noHeader _ hp _ hno =>
    exfalso
    obtain ⟨m', p, ha⟩ := (Mem.C02_allocation_complete h0 hw h (n := 2) (by decide) h2w).2 ⟨hres, q, fun i hi => hq i (by omega)⟩
    refine hno m' p ?_
    have hz : 2 * (w / 8) ≠ 0 := by
      have : 0 < w / 8 := Nat.div_pos hw8 (by decide)
      omega
    simp only [Mem.malloc, hmw]
    rw [if_neg hz, words_two hw8]
    exact ha
  | @noBuffer m m1 p _ hp _ hr1 hno =>
    exfalso
    rw [hnat] at hno
    have hl : 0 < bytes.length := by omega
    have hb := (words_cover w bytes.length hw8).2.2 hl
    have hrun : ∃ q', Mem.freeRun size ((p, 2) :: live) q' (Mem.bytesToWords w bytes.length) := by
      by_cases hc : q + Mem.bytesToWords w bytes.length ≤ p
      · refine ⟨q, fun i hi => ⟨(hq i (by omega)).1, fun x hx => ?_⟩⟩
        rcases List.mem_cons.1 hx with rfl | hx
        · simp only [Mem.Block.covers]; omega
        · exact (hq i (by omega)).2 x hx
      · refine ⟨q + Mem.bytesToWords w bytes.length + 2, fun i hi => ?_⟩
        have hx1 := hq (Mem.bytesToWords w bytes.length + 2 + i) (by omega)
        rw [show q + (Mem.bytesToWords w bytes.length + 2 + i) = q + Mem.bytesToWords w bytes.length + 2 + i by omega] at hx1
        refine ⟨hx1.1, fun x hx => ?_⟩
        rcases List.mem_cons.1 hx with rfl | hx
        · simp only [Mem.Block.covers]; omega
        · exact hx1.2 x hx
    obtain ⟨m', d, ha⟩ := (Mem.C02_malloc_reserve_complete h0 hw hr1 hl hb).2 hrun
    exact hno m' ⟨d, bytes.length, 0⟩ (by simp [startFlatten, ha])
  | done _ hp hc hm =>
    have : flattenValue b syms maxDepth v = .ok (flattenC b syms ⟨(flattenValueSize b syms maxDepth v).toNat, []⟩ v).1.out := by
      simp only [flattenValue]
      rw [if_pos hp, if_pos hc]
    rw [hok] at this
    have hby : bytes = _ := Except.ok.inj this
    exact ⟨_, _, _, by rw [e, ← hby, hnat]⟩
  | leak _ hp hc =>
    exfalso
    simp only [flattenValue] at hok
    rw [if_pos hp, if_neg hc] at hok
    cases hok
  | refused _ hp =>
    exfalso
    simp only [flattenValue] at hok
    rw [if_neg (by omega)] at hok
    cases hok

/-- C136, violated: when the computed size is positive but the value cannot be written, the header and the buffer stay allocated although nothing refers to them; the result is the symbol nil. -/
theorem C136_leak_violated {b : Build} {syms : Syms} {maxDepth : Nat} {valid : Bool} {w size : Nat} {live : List Mem.Block} {s s' : World} {v : FV} {e : Nat} (h0 : 0 < size) (hw : size < 2 ^ w) (hw8 : 8 ≤ w)
    (h : Mem.Reach valid w size s.mem live) (hn : flattenValueSize b syms maxDepth v < 2 ^ w) (hp : 0 < flattenValueSize b syms maxDepth v) (hv : ∀ bytes, flattenValue b syms maxDepth v ≠ .ok bytes)
    (hr : flattenMem b syms maxDepth s v = some (s', .sym e)) (he : e ≠ 0x23) :
    e = 0 ∧ ∃ d k p, 1 ≤ k ∧ Mem.Reach valid w size s'.mem ((d, k) :: (p, 2) :: live) ∧ s'.mem.numFree + k + 2 = s.mem.numFree := by
  obtain ⟨s1, r1, e1, hx⟩ := ends h0 hw hw8 h hn
  rw [e1] at hr
  cases hx with
  | noCell | noHeader | noBuffer => cases hr; exact absurd rfl he
  | done => cases hr
  | @leak m p d _ _ _ hm =>
    cases hr
    refine ⟨?_, d, _, p, (words_cover w _ hw8).2.2 (by omega), hm, ?_⟩
    · unfold handleFlattenError
      repeat rw [if_neg (by omega)]
    · have a1 := Mem.C03_num_free_exact h0 hw h
      have a2 := Mem.C03_num_free_exact h0 hw hm
      simp only [Mem.liveWords, List.map_cons, List.sum_cons] at a1 a2 ⊢
      omega
  | refused _ hle => omega

/-- C136: the memory error is given only after a collection has been tried and the second attempt has failed as well. With another number of arguments there is a type error and nothing else happens. -/
theorem C136_apply (b : Build) (syms : Syms) (maxDepth : Nat) (gc : World → World) (s s' : World) :
    (∀ v, applyFlatten b syms maxDepth gc s [v] = some (s', .error 0x23) →
      ∃ s1, flattenMem b syms maxDepth s v = some (s1, .sym 0x23) ∧ flattenMem b syms maxDepth (gc s1) v = some (s', .sym 0x23)) ∧
    (∀ args, args.length ≠ 1 → applyFlatten b syms maxDepth gc s args = some (s, .error 0x21)) := by
  refine ⟨fun v h => ?_, fun args ha => ?_⟩
  · simp only [applyFlatten] at h
    split at h
    · cases h
    · rename_i s1 e he
      split at h
      · rename_i h23
        subst h23
        refine ⟨s1, he, ?_⟩
        cases hx : flattenMem b syms maxDepth (gc s1) v with
        | none => rw [hx] at h; cases h
        | some r =>
          rw [hx] at h
          obtain ⟨s2, r⟩ := r
          cases r <;> cases h
          rfl
      · rename_i hne
        cases h
        exact absurd rfl hne
    · rename_i r hr1 hr2
      obtain ⟨s2, r⟩ := r
      cases r with
      | sym e => exact absurd rfl (hr1 s2 e)
      | array => cases h
  · match args with
    | [] => rfl
    | [_] => exact absurd rfl ha
    | _ :: _ :: _ => rfl

/-- C136: a value that can be flattened is flattened by `flatten` if there is room after a collection. -/
theorem C136_collected {b : Build} {syms : Syms} {maxDepth : Nat} {w size : Nat} {live : List Mem.Block} {s : World} {v : FV} {bytes : List Byte} {gc : World → World} (h0 : 0 < size) (hw : size < 2 ^ w) (hw8 : 8 ≤ w)
    (h : Mem.Reach true w size s.mem live) (hn : flattenValueSize b syms maxDepth v < 2 ^ w) (ht : Tame v) (hok : flattenValue b syms maxDepth v = .ok bytes)
    (hgc : ∀ s1 : World, Mem.Reach true w size s1.mem live → ∃ live', Mem.Reach true w size (gc s1).mem live' ∧ 0 < (gc s1).free ∧ Room w size (gc s1).mem live' bytes.length) :
    ∃ s' p d, applyFlatten b syms maxDepth gc s [v] = some (s', .value p d bytes.length bytes) := by
  obtain ⟨s1, r, e, ha⟩ := C136_array h0 hw hw8 h hn
  cases r with
  | array p d n bs =>
    obtain ⟨a1, a2, -⟩ := ha p d n bs rfl
    rw [hok] at a1
    cases a1
    refine ⟨s1, p, d, ?_⟩
    simp only [applyFlatten, e, applied, a2]
  | sym x =>
    obtain ⟨b1, -, -, b2, -⟩ := C136_nothing_lost_partial h0 hw hw8 h hn ht e
    have hx := b2 bytes hok
    subst hx
    obtain ⟨live', c1, c2, c3⟩ := hgc s1 b1
    obtain ⟨s2, p, d, e2⟩ := C136_enough h0 hw hw8 c1 hn hok c2 c3
    refine ⟨s2, p, d, ?_⟩
    simp only [applyFlatten, e, if_true, e2, Option.map, applied]

/-! ## Examples -/

/-- A pair of numbers in an empty memory is flattened. -/
example : ∃ s' p d, flattenMem .b32 exSyms 2000 ⟨Mem.init 32 64 6, 5⟩ (.cons (.byte 1) (.i32 7)) = some (s', .array p d 8 [1, 4, 1, 7, 0, 0, 0, 7]) :=
  C136_enough (b := .b32) (syms := exSyms) (maxDepth := 2000) (v := .cons (.byte 1) (.i32 7)) (s := ⟨Mem.init 32 64 6, 5⟩) (bytes := [1, 4, 1, 7, 0, 0, 0, 7]) (w := 32) (size := 64) (live := []) (by decide) (by decide) (by decide) (.init 6) (by decide) rfl (by decide)
    ⟨by decide, 0, fun i hi => ⟨by simp [Mem.bytesToWords] at hi; omega, by simp⟩⟩

/-- A channel in a list is refused, and nothing is lost. -/
example : Tame (.cons (.byte 1) .other) ∧ flattenMem .b32 exSyms 2000 ⟨Mem.init 32 64 6, 5⟩ (.cons (.byte 1) .other) = some (⟨Mem.init 32 64 6, 4⟩, .sym 0) :=
  ⟨.cons (.leaf (by simp) (by simp) (by simp)) (.leaf (by simp) (by simp) (by simp)), rfl⟩

/-- A channel in an array of values: three words are lost. -/
example : ∃ m, flattenMem .b32 exSyms 2000 ⟨Mem.init 32 64 6, 5⟩ (.lispArray [.other]) = some (⟨m, 4⟩, .sym 0) ∧ m.numFree = 61 :=
  ⟨_, rfl, rfl⟩

/-- An empty byte array: also three words. -/
example : ∃ m, flattenMem .b64 exSyms 2000 ⟨Mem.init 64 64 6, 5⟩ (.array []) = some (⟨m, 4⟩, .sym 0) ∧ m.numFree = 61 :=
  ⟨_, rfl, rfl⟩

/-- No memory at first, and enough of it after a collection. -/
example : ∃ s' p d, applyFlatten .b32 exSyms 2000 (fun _ => ⟨Mem.init 32 64 6, 9⟩) ⟨Mem.init 32 64 6, 0⟩ [.byte 5] = some (s', .value p d 2 [4, 5]) :=
  C136_collected (b := .b32) (syms := exSyms) (maxDepth := 2000) (v := .byte 5) (s := ⟨Mem.init 32 64 6, 0⟩) (bytes := [4, 5]) (w := 32) (size := 64) (live := []) (by decide) (by decide) (by decide) (.init 6) (by decide) (.leaf (by simp) (by simp) (by simp)) rfl
    fun _ _ => ⟨[], .init 6, by decide, by decide, 0, fun i hi => ⟨by simp [Mem.bytesToWords] at hi; omega, by simp⟩⟩

end Verif.Flat
