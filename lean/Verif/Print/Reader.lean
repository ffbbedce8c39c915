import Verif.Print.Printer
import Verif.Tok.Blank
import Verif.Sym.Props
import Verif.Val.Props

/-! # What the reader makes of a printed text -/

namespace Verif.Print

open Verif.Tok (Byte ascii FollowedBy Delimiter)
open Verif.Eq (T NTy Val Heap Obj)

/-! ## Tokens -/

/-- The literal of an integer. -/
def litOf (t : NTy) (z : Int) : Tok.IntLit :=
  { neg := decide (z < 0), hex := none, digits := digits10 z.natAbs,
    suffix := match t with
      | .char => .byte | .i => .none | .u => .u | .i32 => .i32 | .u32 => .u32 | .i64 => .i64 | .u64 => .u64
      | .float => .none | .double => .none }

theorem litOf_text (t : NTy) (z : Int) : (litOf t z).text = intLiteral t z := by
  unfold Tok.IntLit.text intLiteral litOf
  simp only [List.append_nil]
  by_cases h : z < 0
  · simp only [decide_eq_true h, if_pos h, if_true]
    cases t <;> rfl
  · simp only [decide_eq_false h, if_neg h, Bool.false_eq_true, if_false]
    cases t <;> rfl

theorem digit_value : ∀ d : Fin 10, Tok.digitValue 10 (BitVec.ofNat 8 (48 + d.1)) = some d.1 := by decide +kernel

theorem positional_append (b : Nat) (ds : List Byte) (c : Byte) :
    Tok.positional b (ds ++ [c]) = Tok.positional b ds * b + (Tok.digitValue b c).getD 0 := by
  simp [Tok.positional]

theorem digits10_facts (n : Nat) : (∀ c ∈ digits10 n, (Tok.digitValue 10 c).isSome) ∧ Tok.positional 10 (digits10 n) = n := by
  induction n using Nat.strongRecOn with
  | ind n ih =>
    by_cases h : n < 10
    · rw [digits10_lt h]
      have := digit_value ⟨n, h⟩
      simp only at this
      refine ⟨fun c hc => ?_, ?_⟩
      · rw [List.mem_singleton.1 hc, this]; rfl
      · simp [Tok.positional, this]
    · have hi := ih (n / 10) (by omega)
      have := digit_value ⟨n % 10, Nat.mod_lt _ (by omega)⟩
      simp only at this
      rw [digits10_ge (by omega)]
      refine ⟨fun c hc => ?_, ?_⟩
      · rcases List.mem_append.1 hc with hc | hc
        · exact hi.1 c hc
        · rw [List.mem_singleton.1 hc, this]; rfl
      · rw [positional_append, hi.2, this, Option.getD_some]
        omega

theorem litOf_ok (t : NTy) (z : Int) : (litOf t z).Ok :=
  ⟨digits10_ne _, (digits10_facts _).1, fun h => by cases h⟩

theorem litOf_value (t : NTy) (z : Int) : (litOf t z).value = z := by
  have : (litOf t z).value = if decide (z < 0) then -(z.natAbs : Int) else z.natAbs := by
    unfold Tok.IntLit.value
    rw [show Tok.positional (litOf t z).base (litOf t z).digits = z.natAbs from (digits10_facts _).2]
    rfl
  rw [this]
  by_cases h : z < 0
  · rw [decide_eq_true h]; simp only [if_true]; omega
  · rw [decide_eq_false h]; simp only [Bool.false_eq_true, if_false]; omega

/-- The number that the reader gets for the text of a number in range. -/
theorem intVal_eq {b : Verif.Val.Build} {t : NTy} {z : Int} (h : InRange b t z) :
    intVal b (litOf t z).neg (BitVec.ofNat 64 (Tok.positional (litOf t z).base (litOf t z).digits)) t = z := by
  have hv : ∀ w, w ≤ 64 → Tok.readerInt (litOf t z).neg (BitVec.ofNat 64 (Tok.positional (litOf t z).base (litOf t z).digits)) w =
      BitVec.ofInt w z := fun w hw => by rw [Tok.C17_value _ w hw, litOf_value]
  have hw : b.w ≤ 64 := by cases b <;> decide
  have hi : ∀ w, (2 : Int) ^ (w + 1) = 2 * 2 ^ w := fun w => by rw [Int.pow_succ]; omega
  cases t with
  | char =>
    simp only [intVal, hv 8 (by omega), Val.C11_char, BitVec.toNat_ofInt]
    simp only [InRange] at h
    omega
  | i =>
    simp only [InRange] at h
    simp only [intVal, hv b.w hw]
    have hz : (BitVec.ofInt b.w z).toInt = z := by
      rw [BitVec.toInt_ofInt]
      cases b <;> simp only [bits, Val.Build.w, Nat.reduceSub, Int.reducePow, Int.reduceNeg] at * <;>
        apply Int.bmod_eq_of_le <;> omega
    rw [Val.C11_signed, hz] <;> rw [hz]
    · cases b <;> simp only [bits, Val.payload, Val.Build.w, Nat.reduceSub, Int.reducePow, Int.reduceNeg] at * <;> omega
    · cases b <;> simp only [bits, Val.payload, Val.Build.w, Nat.reduceSub, Int.reducePow, Int.reduceNeg] at * <;> omega
  | u =>
    simp only [InRange] at h
    simp only [intVal, hv b.w hw, Val.C11_unsigned, BitVec.toNat_ofInt]
    cases b <;> simp only [bits, Val.payload, Val.Build.w, Nat.reduceSub, Int.reducePow, Int.reduceNeg, Nat.reducePow] at * <;> omega
  | i32 =>
    simp only [InRange] at h
    simp only [intVal, hv 32 (by omega), BitVec.toInt_ofInt]
    apply Int.bmod_eq_of_le <;> omega
  | u32 =>
    simp only [InRange] at h
    simp only [intVal, hv 32 (by omega), BitVec.toNat_ofInt]
    omega
  | i64 =>
    simp only [InRange] at h
    simp only [intVal, hv 64 (by omega), BitVec.toInt_ofInt]
    apply Int.bmod_eq_of_le <;> omega
  | u64 =>
    simp only [InRange] at h
    simp only [intVal, hv 64 (by omega), BitVec.toNat_ofInt]
    omega
  | float => exact h.elim
  | double => exact h.elim

theorem token_int {b : Verif.Val.Build} {t : NTy} {z : Int} (h : InRange b t z) {rest : List Byte} {e : Bool}
    (hr : FollowedBy rest e) : Tok.nextToken ⟨intLiteral t z ++ rest, e, false⟩ =
      (.token (.int (litOf t z).suffix.type (litOf t z).neg
        (BitVec.ofNat 64 (Tok.positional (litOf t z).base (litOf t z).digits))), ⟨rest, e, false⟩) := by
  have hl := intLiteral_length h
  rw [← litOf_text] at hl ⊢
  exact Tok.C17_integer_literal _ (litOf_ok t z) rest e hr (by intro _; omega)

theorem tokNTy_lit {b : Verif.Val.Build} {t : NTy} {z : Int} (h : InRange b t z) : tokNTy (litOf t z).suffix.type = some t := by
  cases t <;> first | rfl | exact h.elim

/-- The items of a printed string. -/
def itemOf (c : Byte) : Tok.Item :=
  if c = 34 then .esc 34 else if c = 10 then .esc 110 else if c = 13 then .esc 114 else if c = 9 then .esc 116
  else if c = 92 then .esc 92 else .raw c

theorem itemOf_facts : ∀ c : Byte, (itemOf c).Ok ∧ (itemOf c).text = charText c ∧ (itemOf c).denotes = c := by
  decide +kernel

theorem stringText_eq (s : List Byte) : stringText s = Tok.strText (s.map itemOf) := by
  have : ∀ s : List Byte, (s.map itemOf).flatMap Tok.Item.text = s.flatMap charText := by
    intro s
    induction s with
    | nil => rfl
    | cons c s ih => simp only [List.map_cons, List.flatMap_cons, ih, (itemOf_facts c).2.1]
  unfold stringText Tok.strText
  rw [this]
  rfl

theorem token_string {s : List Byte} (hs : s.length ≤ 256) {rest : List Byte} {e : Bool} :
    Tok.nextToken ⟨stringText s ++ rest, e, false⟩ = (.token (.string s), ⟨rest, e, false⟩) := by
  rw [stringText_eq, Tok.C18_string_literal]
  · have : (s.map itemOf).map Tok.Item.denotes = s := by
      rw [List.map_map]
      conv => rhs; rw [← List.map_id s]
      exact List.map_congr_left (fun c _ => (itemOf_facts c).2.2)
    rw [this]
  · intro i hi
    obtain ⟨c, _, rfl⟩ := List.mem_map.1 hi
    exact (itemOf_facts c).1
  · simpa using hs

/-- Tokens of one character. -/
theorem token_syntax {c : Byte} {k : Nat} {rest : List Byte} {e : Bool}
    (h : (c, k) ∈ ([(40, 1), (41, 2), (91, 3), (93, 4), (46, 5), (95, 6), (63, 11)] : List (Byte × Nat))) :
    Tok.nextToken ⟨c :: rest, e, false⟩ = (.token (.syntax k), ⟨rest, e, false⟩) := by
  have key : ∀ (c : Byte) (k : Nat), Tok.tokSyntax (Tok.Stream.peek ⟨c :: rest, e, false⟩) = .ok (1, k) →
      c ≠ 59 ∧ Tok.isSpace c = false →
      Tok.nextToken ⟨c :: rest, e, false⟩ = (.token (.syntax k), ⟨rest, e, false⟩) := by
    intro c k h1 h2
    refine Tok.nextToken_at (a := []) (rest := rest) (n := 1) (o := .token (.syntax k)) h2 ?_
    show Tok.dispatch _ _ = _
    unfold Tok.dispatch
    simp only [List.cons_append, List.nil_append, h1, Tok.positive, Tok.orElse]
  simp only [List.mem_cons, Prod.mk.injEq, List.not_mem_nil, or_false] at h
  rcases h with ⟨rfl, rfl⟩ | ⟨rfl, rfl⟩ | ⟨rfl, rfl⟩ | ⟨rfl, rfl⟩ | ⟨rfl, rfl⟩ | ⟨rfl, rfl⟩ | ⟨rfl, rfl⟩ <;>
    exact key _ _ rfl (by decide)

theorem token_space {text : List Byte} (h : text ≠ []) {e : Bool} :
    Tok.nextToken ⟨32 :: text, e, false⟩ = Tok.nextToken ⟨text, e, false⟩ :=
  Tok.C54_blanks_ignored [.space 32] (by intro b hb; simp at hb; subst hb; unfold Tok.Blank.Ok; decide) text e h

/-! ## Running -/

/-- At least one step. -/
def Plus (D : Dev) (m m' : RS) : Prop := ∃ n, rrun D (n + 1) m = .run m'

theorem rrun_add {D : Dev} (n k : Nat) (m : RS) : rrun D (n + k) m =
    match rrun D n m with
    | .run q => rrun D k q
    | r => r := by
  induction n generalizing m with
  | zero => rw [Nat.zero_add]; rfl
  | succ n ih =>
    rw [Nat.succ_add]
    simp only [rrun]
    cases rstep D m with
    | run q => exact ih q
    | _ => rfl

theorem Plus.trans {D : Dev} {a b c : RS} (h1 : Plus D a b) (h2 : Plus D b c) : Plus D a c := by
  obtain ⟨n, h1⟩ := h1
  obtain ⟨k, h2⟩ := h2
  refine ⟨n + 1 + k, ?_⟩
  rw [Nat.add_assoc, rrun_add, h1]
  exact h2

theorem Plus.one {D : Dev} {a b : RS} (h : rstep D a = .run b) : Plus D a b := ⟨0, by simp only [rrun, h]⟩

/-- The first step of two states is the same. -/
theorem Plus.same {D : Dev} {a a' b : RS} (h : rstep D a = rstep D a') (h1 : Plus D a' b) : Plus D a b := by
  obtain ⟨n, h1⟩ := h1
  refine ⟨n, ?_⟩
  simp only [rrun, h] at h1 ⊢
  exact h1

/-- A state of the reader. -/
def S (tab : Sym.Tab) (tot : Nat) (e : Bool) (h : Heap) (n : Nat) (text : List Byte) (K : List RF) (r : Val) : RS :=
  ⟨h, n, tab, ⟨text, e, false⟩, tot, K, r⟩

/-- Cells before `n` and constants are the same. -/
def Old (n : Nat) (h h' : Heap) : Prop := ∀ k i, k = true ∨ i < n → h' k i = h k i

/-- `v` is `t`, as long as the cells from `lo` to `hi` stay as they are. -/
def Built (h : Heap) (lo hi : Nat) (v : Val) (t : T) : Prop :=
  ∀ h', (∀ i, lo ≤ i → i < hi → h' false i = h false i) → Eq.Rep h' v t

/-- `f` is a list that is open at the cell `il`. -/
def Hole (h : Heap) (lo hi : Nat) (f : Val) (il : Nat) (C : T → T) : Prop :=
  lo ≤ il ∧ il < hi ∧ ∃ a, h false il = .pair a (.sym 0) ∧
    ∀ h' d td, (∀ i, lo ≤ i → i < hi → i ≠ il → h' false i = h false i) → h' false il = .pair a d →
      Eq.Rep h' d td → Eq.Rep h' f (C td)

theorem Old.trans {n n' : Nat} {h h' h'' : Heap} (h1 : Old n h h') (h2 : Old n' h' h'') (hn : n ≤ n') : Old n h h'' :=
  fun k i hi => (h2 k i (hi.imp_right (by omega))).trans (h1 k i hi)

theorem old_upd (n : Nat) (h : Heap) (i : Nat) (hi : n ≤ i) (o : Obj) : Old n h (upd h i o) := by
  intro k j hj
  refine if_neg ?_
  rintro ⟨rfl, rfl⟩
  rcases hj with hj | hj
  · cases hj
  · omega

theorem Built.mono {h h' : Heap} {lo hi lo' hi' : Nat} {v : Val} {t : T} (hb : Built h lo hi v t)
    (he : ∀ i, lo ≤ i → i < hi → h' false i = h false i) (h1 : lo' ≤ lo) (h2 : hi ≤ hi') : Built h' lo' hi' v t :=
  fun g hg => hb g (fun i a b => (hg i (by omega) (by omega)).trans (he i a b))

section
variable {D : Dev} {tab : Sym.Tab} {tot : Nat} {e : Bool}

/-- The text is read as `t`. -/
def Reads (D : Dev) (tab : Sym.Tab) (tot : Nat) (e : Bool) (text : List Byte) (t : T) : Prop :=
  ∀ rest h n K r, FollowedBy rest e → ∃ h' n' v,
    Plus D (S tab tot e h n (text ++ rest) (.next :: K) r) (S tab tot e h' n' rest K v) ∧ n ≤ n' ∧ Old n h h' ∧
    Built h' n n' v t ∧ isTokSym v = false

/-- The text closes a list. -/
def Closes (D : Dev) (tab : Sym.Tab) (tot : Nat) (e : Bool) (text : List Byte) (t : T) : Prop :=
  ∀ rest h lo n f il C K r, FollowedBy rest e → Hole h lo n f il C → ∃ h' n',
    Plus D (S tab tot e h n (text ++ rest) (.next :: .append f (.ptr .cons false il) :: K) r)
      (S tab tot e h' n' rest K f) ∧ n ≤ n' ∧ Old lo h h' ∧ Built h' lo n' f (C t)

theorem step_syntax {h : Heap} {n k : Nat} {c : Byte} {rest : List Byte} {K : List RF} {r : Val}
    (hk : (c, k) ∈ ([(40, 1), (41, 2), (91, 3), (93, 4), (46, 5), (95, 6), (63, 11)] : List (Byte × Nat))) :
    rstep D (S tab tot e h n (c :: rest) (.next :: K) r) = syntaxToken (S tab tot e h n rest (.next :: K) r) K k := by
  simp only [rstep, S, nextStep, token_syntax hk]

theorem step_space {h : Heap} {n : Nat} {text : List Byte} {K : List RF} {r : Val} (ht : text ≠ []) :
    rstep D (S tab tot e h n (32 :: text) (.next :: K) r) = rstep D (S tab tot e h n text (.next :: K) r) := by
  simp only [rstep, S, nextStep, token_space ht]

/-- Leading space. -/
theorem Reads.space {text : List Byte} {t : T} (h : Reads D tab tot e text t) (ht : text ≠ []) :
    Reads D tab tot e (32 :: text) t := by
  intro rest hp n K r hr
  obtain ⟨h', n', v, h1, h2⟩ := h rest hp n K r hr
  exact ⟨h', n', v, .same (step_space (by simp [ht])) h1, h2⟩

/-! ## Atoms -/

theorem reads_int {t : NTy} {z : Int} (hz : InRange D.b t z) : Reads D tab tot e (intLiteral t z) (.num t z) := by
  intro rest h n K r hr
  have ht := token_int hz hr
  cases hi : immediate D.b t with
  | true =>
    refine ⟨h, n, .imm t z, .one ?_, Nat.le_refl _, fun _ _ _ => rfl, fun _ _ => .imm, rfl⟩
    simp only [rstep, S, nextStep, ht, tokNTy_lit hz, RS.number, hi, intVal_eq hz, if_true]
  | false =>
    refine ⟨upd h n (.num z), n + 1, .ptr (.num t) false n, .one ?_, by omega, old_upd n h n (Nat.le_refl _) _,
      fun h' hh => .boxed ?_, rfl⟩
    · simp only [rstep, S, nextStep, ht, tokNTy_lit hz, RS.number, hi, intVal_eq hz, RS.alloc, Bool.false_eq_true, if_false]
    · rw [hh n (by omega) (by omega)]
      exact if_pos ⟨rfl, rfl⟩

theorem reads_string {s : List Byte} (hs : s.length ≤ 256) : Reads D tab tot e (stringText s) (.bytes (s ++ [0])) := by
  intro rest h n K r hr
  refine ⟨upd h n (.bytes (s ++ [0])), n + 1, .ptr .array false n, .one ?_, by omega, old_upd n h n (Nat.le_refl _) _,
    fun h' hh => .bytes ?_, rfl⟩
  · simp only [rstep, S, nextStep, token_string hs, RS.alloc]
  · rw [hh n (by omega) (by omega)]
    exact if_pos ⟨rfl, rfl⟩

theorem tok_names : ((List.range 22).all fun i => match Sym.getName (Sym.init0 0) (0x70 + i) with
    | some n => n.head? == some 91
    | none => true) = true := by decide +kernel

theorem readable_head {n : List Byte} (h : ReadableName n) : n.head? ≠ some 91 := by
  rcases h with ⟨h, _⟩ | rfl | rfl
  · cases n with
    | nil => exact h.elim
    | cons c n =>
      intro e
      cases e
      exact absurd h.1 (by decide)
  · decide
  · decide

theorem not_tokSym {id : Nat} {n : Sym.Name} (h1 : Sym.getName tab id = some n) (h2 : ReadableName (nameBytes n)) :
    isTokSym (.sym id) = false := by
  cases hb : isTokSym (.sym id) with
  | false => rfl
  | true =>
    simp only [isTokSym, Bool.and_eq_true, decide_eq_true_eq] at hb
    have ha := List.all_eq_true.1 tok_names (id - 0x70) (by rw [List.mem_range]; omega)
    have hid : 0x70 + (id - 0x70) = id := by omega
    rw [hid] at ha
    have he : Sym.getName (Sym.init0 0) id = Sym.getName tab id := by
      have : id >>> 16 = 0 := by rw [Nat.shiftRight_eq_div_pow]; omega
      simp only [Sym.getName, this, true_or, if_true]
    rw [he, h1] at ha
    have := readable_head h2
    cases n with
    | nil => simp at ha
    | cons c n =>
      simp only [List.head?_cons, beq_iff_eq, Option.some.injEq] at ha
      subst ha
      exact absurd rfl this

theorem nameBytes_back {n : Sym.Name} (h : ∀ c ∈ n, c < 256) : (nameBytes n).map BitVec.toNat = n := by
  unfold nameBytes
  rw [List.map_map]
  conv => rhs; rw [← List.map_id n]
  refine List.map_congr_left (fun c hc => ?_)
  have := h c hc
  simp only [Function.comp, BitVec.toNat_ofNat, id]
  omega

theorem reads_sym {id : Nat} {n : Sym.Name} {extMax : Nat} (hm : extMax ≤ 0x10000) (hr : Sym.Reach extMax tab)
    (h1 : Sym.getName tab id = some n) (h2 : ∀ c ∈ n, c < 256) (h3 : ReadableName (nameBytes n)) :
    Reads D tab tot e (nameBytes n) (.sym id) := by
  intro rest h nx K r hf
  have hid := Sym.C25_id_of_name hm hr h1
  refine ⟨h, nx, .sym id, .one ?_, Nat.le_refl _, fun _ _ _ => rfl, fun _ _ => .sym, not_tokSym h1 h3⟩
  have builtin : ∀ (c : Nat) (i : Nat), n = [c] → Sym.listFind [c] Sym.specialTable = some i → id = i := by
    intro c i hn hi
    rw [hn] at hid
    simp only [Sym.getByName, hi, Option.some.injEq] at hid
    exact hid.symm
  rcases h3 with ⟨h3, h4, h5⟩ | h3 | h3
  · have ht := Tok.C52_symbol (nameBytes n) h3 h4 rest e hf
    rw [h5] at ht
    simp only [rstep, S, nextStep, ht, nameBytes_back h2, Sym.readSymbol, hid]
  · have hn : n = [95] := by rw [← nameBytes_back h2, h3]; rfl
    have := builtin 95 9 hn (by decide +kernel)
    subst this
    rw [h3]
    exact step_syntax (c := 95) (k := 6) (by decide)
  · have hn : n = [63] := by rw [← nameBytes_back h2, h3]; rfl
    have := builtin 63 0x41 hn (by decide +kernel)
    subst this
    rw [h3]
    exact step_syntax (c := 63) (k := 11) (by decide)

/-! ## Byte arrays -/

theorem upd_upd (h : Heap) (i : Nat) (a b : Obj) : upd (upd h i a) i b = upd h i b := by
  funext k j
  unfold upd
  split <;> rfl

theorem upd_same (h : Heap) (i : Nat) (a : Obj) : upd h i a false i = a := if_pos ⟨rfl, rfl⟩

/-- The text after a byte of an array. -/
def arrTail (ys : List Byte) : List Byte := ys.flatMap (fun y => 32 :: digits10 y.toNat) ++ [93]

theorem arrayText_cons (x : Byte) (ys : List Byte) : arrayText (x :: ys) = 91 :: (digits10 x.toNat ++ arrTail ys) := by
  have : ∀ (x : Byte) (ys : List Byte), (((x :: ys).map fun c => digits10 c.toNat).intersperse (ascii " ")).flatten =
      digits10 x.toNat ++ ys.flatMap (fun y => 32 :: digits10 y.toNat) := by
    intro x ys
    induction ys generalizing x with
    | nil => simp
    | cons y ys ih =>
      have h := ih y
      simp only [List.map_cons, List.flatMap_cons] at h ⊢
      rw [List.intersperse_cons₂]
      simp only [List.flatten_cons, h, List.cons_append]
      rfl
  unfold arrayText arrTail
  rw [this]
  simp [ascii]

theorem byte_literal (x : Byte) : digits10 x.toNat = intLiteral .i x.toNat ∧ InRange D.b .i x.toNat := by
  have := x.isLt
  refine ⟨?_, ?_⟩
  · unfold intLiteral
    rw [if_neg (by omega)]
    simp
  · simp only [InRange]
    cases D.b <;> simp only [bits, Nat.reduceSub, Int.reducePow, Int.reduceNeg] <;> omega

theorem arrTail_follow (ys rest : List Byte) (e : Bool) : FollowedBy (arrTail ys ++ rest) e := by
  cases ys with
  | nil => show Delimiter 93; decide
  | cons y ys => show Delimiter 32; decide

theorem step_byte (x : Byte) (ys rest : List Byte) {h : Heap} {n : Nat} {K : List RF} {r : Val} :
    rstep D (S tab tot e h n (digits10 x.toNat ++ (arrTail ys ++ rest)) (.next :: K) r) =
      .run (S tab tot e h n (arrTail ys ++ rest) K (.imm .i x.toNat)) := by
  obtain ⟨h1, h2⟩ := byte_literal (D := D) x
  rw [h1]
  have ht := token_int h2 (arrTail_follow ys rest e)
  simp only [rstep, S, nextStep, ht, tokNTy_lit h2, RS.number, immediate, intVal_eq h2, if_true]

theorem byteOf_imm (x : Byte) (h : Heap) : byteOf D h (.imm .i x.toNat) = some x := by
  simp [byteOf, Verif.Eq.Val.tag, Eq.numOf]

theorem arr_loop {i n : Nat} {K : List RF} (rest : List Byte) : ∀ (ys l : List Byte) (x : Byte) (h : Heap),
    h false i = .bytes l → l.length + ys.length + 3 ≤ D.room →
    Plus D (S tab tot e h n (arrTail ys ++ rest) (.appendArray (.ptr .array false i) D.room l.length :: K) (.imm .i x.toNat))
      (S tab tot e (upd h i (.bytes (l ++ x :: ys))) n rest K (.ptr .array false i)) := by
  intro ys
  induction ys with
  | nil =>
    intro l x h hi hl
    simp only [List.length_nil, Nat.add_zero] at hl
    refine .trans (b := S tab tot e (upd h i (.bytes (l ++ [x]))) n (arrTail [] ++ rest)
      (.next :: .appendArray (.ptr .array false i) D.room (l.length + 1) :: K) (.imm .i x.toNat)) (.one ?_) ?_
    · simp only [rstep, S, Eq.bytesOf, hi, byteOf_imm]
      rw [if_neg (by omega)]
    refine .trans (.one (step_syntax (c := 93) (k := 4) (by decide))) (.one ?_)
    simp only [rstep, S, Eq.bytesOf, upd_same]
    rw [if_neg (by omega)]
    rfl
  | cons y ys ih =>
    intro l x h hi hl
    simp only [List.length_cons] at hl
    refine .trans (b := S tab tot e (upd h i (.bytes (l ++ [x]))) n (arrTail (y :: ys) ++ rest)
      (.next :: .appendArray (.ptr .array false i) D.room (l.length + 1) :: K) (.imm .i x.toNat)) (.one ?_) ?_
    · simp only [rstep, S, Eq.bytesOf, hi, byteOf_imm]
      rw [if_neg (by omega)]
    have ht : arrTail (y :: ys) ++ rest = 32 :: (digits10 y.toNat ++ (arrTail ys ++ rest)) := by
      simp [arrTail]
    rw [ht]
    refine .trans (.one ((step_space (by simp [digits10_ne])).trans (step_byte y ys rest))) ?_
    have := ih (l ++ [x]) y (upd h i (.bytes (l ++ [x]))) (upd_same _ _ _) (by simp only [List.length_append, List.length_singleton]; omega)
    rw [List.length_append, List.length_singleton, upd_upd, List.append_assoc, List.singleton_append] at this
    exact this

theorem reads_array {l : List Byte} (hl : l.length + 2 ≤ D.room) : Reads D tab tot e (arrayText l) (.bytes l) := by
  intro rest h n K r hf
  refine ⟨upd h n (.bytes l), n + 1, .ptr .array false n, ?_, by omega, old_upd n h n (Nat.le_refl _) _,
    fun h' hh => .bytes ?_, rfl⟩
  · cases l with
    | nil =>
      have ht : arrayText [] ++ rest = 91 :: 93 :: rest := rfl
      rw [ht]
      refine .trans (.one (step_syntax (c := 91) (k := 3) (by decide))) ?_
      refine .trans (.one (step_syntax (c := 93) (k := 4) (by decide))) (.one ?_)
      rfl
    | cons x ys =>
      rw [arrayText_cons]
      have ht : (91 :: (digits10 x.toNat ++ arrTail ys)) ++ rest = 91 :: (digits10 x.toNat ++ (arrTail ys ++ rest)) := by simp
      rw [ht]
      refine .trans (.one (step_syntax (c := 91) (k := 3) (by decide))) ?_
      refine .trans (.one (step_byte x ys rest)) ?_
      refine .trans (b := S tab tot e (upd h n (.bytes [])) (n + 1) (arrTail ys ++ rest)
        (.appendArray (.ptr .array false n) D.room 0 :: K) (.imm .i x.toNat)) (.one ?_) ?_
      · simp only [rstep, S, byteOf_imm, RS.alloc]
        rw [if_neg (by simp [symCloseBrack])]
      · have := arr_loop (D := D) (tab := tab) (tot := tot) (e := e) (i := n) (n := n + 1) (K := K) rest ys [] x (upd h n (.bytes []))
          (upd_same _ _ _) (by simp only [List.length_cons, List.length_nil] at hl ⊢; omega)
        rw [upd_upd] at this
        exact this
  · rw [hh n (by omega) (by omega)]
    exact upd_same _ _ _

theorem reads_bytes {l : List Byte} (h1 : StringData l l.dropLast → l.length ≤ 257)
    (h2 : ¬ StringData l l.dropLast → l.length + 2 ≤ D.room) : Reads D tab tot e (bytesText l) (.bytes l) := by
  unfold bytesText
  by_cases hs : StringData l l.dropLast
  · rw [if_pos hs]
    have hl := h1 hs
    have he := hs.1
    have : l.dropLast.length ≤ 256 := by rw [List.length_dropLast]; omega
    generalize l.dropLast = s at *
    subst he
    exact reads_string this
  · rw [if_neg hs]
    exact reads_array (h2 hs)

/-! ## Lists -/

theorem hole_first {h : Heap} {lo n : Nat} {v : Val} {t : T} (hl : lo ≤ n) (hb : Built h lo n v t) :
    Hole (upd h n (.pair v (.sym 0))) lo (n + 1) (.ptr .cons false n) n (.cons t) := by
  refine ⟨hl, by omega, v, upd_same _ _ _, fun h' d td h1 h2 h3 => .cons h2 (hb h' fun i a b => ?_) h3⟩
  rw [h1 i a (by omega) (by omega)]
  exact if_neg (by omega)

theorem hole_next {h h1 : Heap} {lo n n1 il : Nat} {f v : Val} {t : T} {C : T → T} (hh : Hole h lo n f il C) (ho : Old n h h1)
    (hn : n ≤ n1) (hb : Built h1 n n1 v t) :
    Hole (setCdr (upd h1 n1 (.pair v (.sym 0))) (.ptr .cons false il) (.ptr .cons false n1)) lo (n1 + 1) f n1
      (fun d => C (.cons t d)) := by
  obtain ⟨a1, a2, a, a3, a4⟩ := hh
  have hil : h1 false il = .pair a (.sym 0) := (ho false il (.inr a2)).trans a3
  have hu : upd h1 n1 (.pair v (.sym 0)) false il = .pair a (.sym 0) := (if_neg (by omega)).trans hil
  have hset : setCdr (upd h1 n1 (.pair v (.sym 0))) (.ptr .cons false il) (.ptr .cons false n1) =
      upd (upd h1 n1 (.pair v (.sym 0))) il (.pair a (.ptr .cons false n1)) := by
    simp only [setCdr, hu]
  rw [hset]
  refine ⟨by omega, by omega, v, ?_, fun h' d td b1 b2 b3 => ?_⟩
  · exact (if_neg (by omega)).trans (upd_same _ _ _)
  · refine a4 h' (.ptr .cons false n1) (.cons t td) (fun i c1 c2 c3 => ?_) ?_ (.cons b2 (hb h' fun i c1 c2 => ?_) b3)
    · rw [b1 i c1 (by omega) (by omega)]
      refine (if_neg (by omega)).trans ((if_neg (by omega)).trans (ho false i (.inr c2)))
    · rw [b1 il a1 (by omega) (by omega)]
      exact upd_same _ _ _
    · rw [b1 i (by omega) (by omega) (by omega)]
      exact (if_neg (by omega)).trans (if_neg (by omega))

theorem hole_close {h h1 : Heap} {lo n n1 il : Nat} {f v : Val} {t : T} {C : T → T} (hh : Hole h lo n f il C) (ho : Old n h h1)
    (hn : n ≤ n1) (hb : Built h1 n n1 v t) :
    Built (setCdr h1 (.ptr .cons false il) v) lo n1 f (C t) ∧ Old lo h (setCdr h1 (.ptr .cons false il) v) := by
  obtain ⟨a1, a2, a, a3, a4⟩ := hh
  have hil : h1 false il = .pair a (.sym 0) := (ho false il (.inr a2)).trans a3
  have hset : setCdr h1 (.ptr .cons false il) v = upd h1 il (.pair a v) := by simp only [setCdr, hil]
  rw [hset]
  refine ⟨fun h' b1 => a4 h' v t (fun i c1 c2 c3 => ?_) ?_ (hb h' fun i c1 c2 => ?_), ?_⟩
  · rw [b1 i c1 (by omega)]
    exact (if_neg (by omega)).trans (ho false i (.inr c2))
  · rw [b1 il a1 (by omega)]; exact upd_same _ _ _
  · rw [b1 i (by omega) (by omega)]; exact if_neg (by omega)
  · intro k i hi
    refine Eq.trans ?_ (ho k i (hi.imp_right (by omega)))
    refine if_neg ?_
    rintro ⟨rfl, rfl⟩
    rcases hi with hi | hi
    · cases hi
    · omega

theorem not_close {v : Val} (h : isTokSym v = false) : v ≠ symClosePar ∧ v ≠ symDot := by
  constructor <;> (rintro rfl; exact absurd h (by decide))

/-- An element is read and the list goes on. -/
theorem closes_elem {ta td : List Byte} {a d : T} (ha : Reads D tab tot e ta a) (hd : Closes D tab tot e td d) (hta : ta ≠ [])
    (hfol : ∀ rest, FollowedBy (td ++ rest) e) : Closes D tab tot e (32 :: (ta ++ td)) (.cons a d) := by
  intro rest h lo n f il C K r hf hh
  obtain ⟨h1, n1, v, p1, g1, g2, g3, g4⟩ := ha.space hta (td ++ rest) h n (.append f (.ptr .cons false il) :: K) r (hfol rest)
  have hh2 := hole_next hh g2 g1 g3
  obtain ⟨h3, n3, p3, g5, g6, g7⟩ := hd rest _ lo (n1 + 1) f n1 _ K v hf hh2
  refine ⟨h3, n3, .trans (b := S tab tot e h1 n1 (td ++ rest) (.append f (.ptr .cons false il) :: K) v) ?_ (.trans (.one ?_) p3),
    by omega, ?_, g7⟩
  · have : 32 :: (ta ++ td) ++ rest = 32 :: ta ++ (td ++ rest) := by simp
    rw [this]; exact p1
  · exact (if_neg (not_close g4).1).trans (if_neg (not_close g4).2)
  · obtain ⟨a1, a2, a', a3, a4⟩ := hh
    refine Old.trans ?_ g6 (Nat.le_refl _)
    have hil : h1 false il = .pair a' (.sym 0) := (g2 false il (.inr a2)).trans a3
    have hu : upd h1 n1 (.pair v (.sym 0)) false il = .pair a' (.sym 0) := (if_neg (by omega)).trans hil
    intro k i hi
    simp only [setCdr, hu]
    refine (old_upd lo _ il a1 _ k i hi).trans ((old_upd lo _ n1 (by omega) _ k i hi).trans (g2 k i (hi.imp_right (by omega))))

theorem reads_list {ta td : List Byte} {a d : T} (ha : Reads D tab tot e ta a) (hd : Closes D tab tot e td d)
    (hfol : ∀ rest, FollowedBy (td ++ rest) e) : Reads D tab tot e (40 :: (ta ++ td)) (.cons a d) := by
  intro rest h n K r hf
  obtain ⟨h1, n1, v, p1, g1, g2, g3, g4⟩ := ha (td ++ rest) h n (.append (.sym 0) (.sym 0) :: K) symOpenPar (hfol rest)
  obtain ⟨h3, n3, p3, g5, g6, g7⟩ := hd rest _ n (n1 + 1) _ n1 _ K v hf (hole_first g1 g3)
  refine ⟨h3, n3, .ptr .cons false n1, .trans (.one ?_) (.trans p1 (.trans (.one ?_) p3)), by omega, ?_, g7, rfl⟩
  · have : 40 :: (ta ++ td) ++ rest = 40 :: (ta ++ (td ++ rest)) := by simp
    rw [this]; exact step_syntax (k := 1) (by decide)
  · exact (if_neg (not_close g4).1).trans (if_neg (not_close g4).2)
  · exact Old.trans (g2.trans (old_upd n _ n1 g1 _) (Nat.le_refl _)) g6 (Nat.le_refl _)

theorem closes_nil : Closes D tab tot e (ascii ")") (.sym 0) := by
  intro rest h lo n f il C K r hf hh
  obtain ⟨h1, h2⟩ := hole_close hh (fun _ _ _ => rfl) (Nat.le_refl _) (v := .sym 0) (t := .sym 0) (fun _ _ => .sym)
  refine ⟨_, n, .trans (.one (step_syntax (c := 41) (k := 2) (by decide))) (.one ?_), Nat.le_refl _, h2, h1⟩
  rfl

theorem closes_dot {ta : List Byte} {t : T} (ha : Reads D tab tot e ta t) (hta : ta ≠ []) :
    Closes D tab tot e (ascii " . " ++ ta ++ ascii ")") t := by
  intro rest h lo n f il C K r hf hh
  have hfol : FollowedBy (ascii ")" ++ rest) e := by show Delimiter 41; decide
  obtain ⟨h1, n1, v, p1, g1, g2, g3, g4⟩ := ha.space hta (ascii ")" ++ rest) h n
    (.dotTerm f (.ptr .cons false il) :: K) symDot hfol
  obtain ⟨c1, c2⟩ := hole_close hh g2 g1 g3
  refine ⟨_, n1, .trans (b := S tab tot e h n (32 :: ta ++ (ascii ")" ++ rest)) (.append f (.ptr .cons false il) :: K) symDot)
    (.one ?_) (.trans (.one ?_) (.trans p1 (.trans
      (b := S tab tot e (setCdr h1 (.ptr .cons false il) v) n1 (41 :: rest) (.next :: .expectClose f :: K) f) (.one ?_)
    (.trans (.one (step_syntax (c := 41) (k := 2) (by decide))) (.one ?_))))), g1, c2, c1⟩
  · have : ascii " . " ++ ta ++ ascii ")" ++ rest = 32 :: (46 :: (32 :: ta ++ (ascii ")" ++ rest))) := by simp [ascii]
    rw [this, step_space (by simp)]
    exact step_syntax (k := 5) (by decide)
  · rfl
  · exact if_neg (not_or.2 (not_close g4))
  · rfl

theorem follow_tail (t : T) (rest : List Byte) (e : Bool) : FollowedBy (txt tab true t ++ rest) e := by
  cases t with
  | sym id =>
    cases id with
    | zero => show Delimiter 41; decide
    | succ id => show Delimiter 32; decide
  | _ => show Delimiter 32; decide

/-- The text of a value is read as that value, alone and as the rest of a list. -/
theorem reads_tree {extMax : Nat} (hm : extMax ≤ 0x10000) (hr : Sym.Reach extMax tab) :
    ∀ t : T, Printable D tab t → Readable D tab t →
      Reads D tab tot e (txt tab false t) t ∧ Closes D tab tot e (txt tab true t) t
  | .sym id, hp, hd => by
    obtain ⟨n, h1, h2, h3⟩ := hd
    have ha : Reads D tab tot e (atomText tab (.sym id)) (.sym id) := by
      simp only [atomText, h1, Option.getD_some]
      exact reads_sym hm hr h1 h2 h3
    refine ⟨by rw [txt_atom (by simp)]; exact ha, ?_⟩
    cases id with
    | zero => exact closes_nil
    | succ id => exact closes_dot ha (atomText_ne hp (by simp))
  | .num t z, hp, _ => ⟨reads_int hp, closes_dot (reads_int hp) (atomText_ne hp (by simp))⟩
  | .bytes l, hp, hd => ⟨reads_bytes hd.1 hd.2, closes_dot (reads_bytes hd.1 hd.2) (atomText_ne (t := .bytes l) hp (by simp))⟩
  | .cons a d, hp, hd => by
    have ha := (reads_tree hm hr a hp.1 hd.1).1
    have hc := (reads_tree hm hr d hp.2 hd.2).2
    have e1 : txt tab false (.cons a d) = 40 :: (txt tab false a ++ txt tab true d) := by simp [txt, ascii]
    have e2 : txt tab true (.cons a d) = 32 :: (txt tab false a ++ txt tab true d) := by simp [txt, ascii]
    rw [e1, e2]
    exact ⟨reads_list ha hc fun rest => follow_tail d rest e, closes_elem ha hc (txt_ne hp.1) fun rest => follow_tail d rest e⟩
  | .arr _, hp, _ => hp.elim
  | .obj _, hp, _ => hp.elim

/-! ## The text is a C string -/

theorem digits10_ne_zero (n : Nat) : (0 : Byte) ∉ digits10 n := by
  induction n using Nat.strongRecOn with
  | ind n ih =>
    have hd : ∀ k, k < 10 → (0 : Byte) ≠ BitVec.ofNat 8 (48 + k) := by decide
    by_cases h : n < 10
    · rw [digits10_lt h]; simpa using hd n h
    · rw [digits10_ge (by omega)]
      simp only [List.mem_append, List.mem_singleton, not_or]
      exact ⟨ih _ (by omega), hd _ (by omega)⟩

theorem charText_ne_zero : ∀ c : Byte, c ≠ 0 → (0 : Byte) ∉ charText c := by decide +kernel

theorem symbolStart_ne_zero : (0 : Byte) ∉ Tok.symbolStart ∧ (0 : Byte) ∉ Tok.symbolRest := by decide +kernel

theorem arrTail_ne_zero (l : List Byte) : (0 : Byte) ∉ arrTail l := by
  simp only [arrTail, List.mem_append, List.mem_flatMap, List.mem_cons, not_or, not_exists, not_and]
  refine ⟨fun y _ => ⟨by decide, digits10_ne_zero _⟩, by decide⟩

theorem atomText_ne_zero {t : T} (h : Readable D tab t) : (0 : Byte) ∉ atomText tab t := by
  cases t with
  | sym id =>
    obtain ⟨n, h1, _, h3⟩ := h
    simp only [atomText, h1, Option.getD_some]
    generalize nameBytes n = x at h3
    rcases h3 with ⟨h3, _⟩ | rfl | rfl
    · cases x with
      | nil => exact h3.elim
      | cons c cs =>
        rw [List.mem_cons, not_or]
        exact ⟨fun e => symbolStart_ne_zero.1 (e ▸ h3.1), fun e => symbolStart_ne_zero.2 (h3.2.1 _ e)⟩
    · decide
    · decide
  | num t z =>
    simp only [atomText, intLiteral, List.mem_append, not_or]
    refine ⟨⟨?_, digits10_ne_zero _⟩, ?_⟩
    · split <;> decide
    · cases t <;> decide
  | bytes l =>
    simp only [atomText, bytesText]
    split
    · next hs =>
      simp only [stringText, List.mem_append, List.mem_flatMap, not_or, not_exists, not_and]
      refine ⟨⟨by decide, fun c hc => charText_ne_zero c ?_⟩, by decide⟩
      rintro rfl
      have := hs.2.2 0 hc
      revert this; decide
    · cases l with
      | nil => decide
      | cons x ys =>
        rw [arrayText_cons, List.mem_cons, List.mem_append]
        simp only [not_or]
        exact ⟨by decide, digits10_ne_zero _, arrTail_ne_zero _⟩
  | _ => simp [atomText]

theorem txt_ne_zero : ∀ (t : T) (tail : Bool), Readable D tab t → (0 : Byte) ∉ txt tab tail t
  | .cons a d, tail, h => by
    simp only [txt, List.mem_append, not_or]
    exact ⟨⟨by cases tail <;> decide, txt_ne_zero a false h.1⟩, txt_ne_zero d true h.2⟩
  | .sym id, tail, h => by
    have ha := atomText_ne_zero h
    cases tail with
    | false => rw [txt_atom (by simp)]; exact ha
    | true =>
      cases id with
      | zero => show (0 : Byte) ∉ ascii ")"; decide
      | succ id =>
        simp only [txt, List.mem_append, not_or]
        exact ⟨⟨by decide, ha⟩, by decide⟩
  | .num t z, tail, h => by
    have ha := atomText_ne_zero h
    cases tail with
    | false => exact ha
    | true =>
      simp only [txt, List.mem_append, not_or]
      exact ⟨⟨by decide, ha⟩, by decide⟩
  | .bytes l, tail, h => by
    have ha := atomText_ne_zero h
    cases tail with
    | false => exact ha
    | true =>
      simp only [txt, List.mem_append, not_or]
      exact ⟨⟨by decide, ha⟩, by decide⟩
  | .arr l, tail, h => by cases tail <;> simp [txt, atomText] <;> decide
  | .obj l, tail, h => by cases tail <;> simp [txt, atomText] <;> decide

theorem cstr_text {l : List Byte} (h : (0 : Byte) ∉ l) (n : Nat) : cstr (l ++ List.replicate (n + 1) 0) = l := by
  unfold cstr
  rw [List.takeWhile_append_of_pos (by
    intro a ha
    simp only [ne_eq, decide_not, Bool.not_eq_true', decide_eq_false_iff_not]
    rintro rfl; exact h ha)]
  simp [List.replicate_succ]

theorem rep_same {H h' : Heap} (key : ∀ k i, H k i ≠ .other → h' k i = H k i) :
    ∀ (t : T) (v : Val), Printable D tab t → Eq.Rep H v t → Eq.Rep h' v t
  | .sym id, v, _, hv => by cases hv; exact .sym
  | .num t z, v, _, hv => by
    cases hv with
    | imm => exact .imm
    | boxed h1 => exact .boxed ((key _ _ (by rw [h1]; simp)).trans h1)
  | .cons a d, v, hp, hv => by
    cases hv with
    | cons h1 h2 h3 =>
      exact .cons ((key _ _ (by rw [h1]; simp)).trans h1) (rep_same key a _ hp.1 h2) (rep_same key d _ hp.2 h3)
  | .bytes l, v, _, hv => by
    cases hv with
    | bytes h1 => exact .bytes ((key _ _ (by rw [h1]; simp)).trans h1)
  | .arr l, v, hp, _ => hp.elim
  | .obj n, v, hp, _ => hp.elim

/-- A value stays what it is when free cells are written. -/
theorem rep_old {H h' : Heap} {n : Nat} (hfree : ∀ i, n ≤ i → H false i = .other) (ho : Old n H h') {t : T} {v : Val}
    (hp : Printable D tab t) (hv : Eq.Rep H v t) : Eq.Rep h' v t := by
  refine rep_same (fun k i hne => ho k i ?_) t v hp hv
  cases k with
  | true => exact .inl rfl
  | false => exact .inr (Nat.lt_of_not_le fun hle => hne (hfree i hle))

end

end Verif.Print
