import Verif.Print.Reader
import Verif.Tok.Blank
import Verif.Eq.Props

/-!
# C49: printing and reading are inverse
-/

namespace Verif.Print

open Verif.Tok (Byte ascii Delimiter FollowedBy Blank)
open Verif.Eq (T NTy Val Obj Heap)

section
variable {D : Dev} {tab : Sym.Tab} {H : Heap}

/-! ## Printing -/

/-- **C49**: printing into a buffer of `len` bytes writes the text of the value (`txt`) or the first part of it,
followed by zeros to the end of the buffer, and nothing outside of it.  It reports success only if the whole
text is there; and if the buffer is large enough and lists are not nested too deep for the print stack it does. -/
theorem C49_print_partial {size len : Nat} {t : T} {v : Val} (hv : Eq.Rep H v t) (hp : Printable D tab t)
    (h1 : 1 ≤ len) (h2 : len < 2 ^ 32) :
    ∃ n a ok, a <+: txt tab false t ∧ a.length < len ∧
      (∀ fuel ≥ n, printValue D tab H size len fuel v = some (a ++ List.replicate (len - a.length) 0, ok)) ∧
      (ok = true → a = txt tab false t) ∧
      ((txt tab false t).length < len → 4 * depth t + 2 < size → ok = true) := by
  obtain ⟨n, a, ok, ha, hl, hok, h⟩ := print_tries (size := size) hv hp h1 h2
  refine ⟨n, a, ok, ha, hl, h, hok, fun hlen hs => ?_⟩
  obtain ⟨m, h'⟩ := print_text hv hp hs h1 h2
  have e := (h (max n m) (by omega)).symm.trans (h' (max n m) (by omega))
  rw [decide_eq_true hlen] at e
  simp only [Option.some.injEq, Prod.mk.injEq] at e
  exact e.2

/-! ## Round trip -/

theorem rrun_done {n : Nat} {a s : RS} (h : rrun D n a = .done s) (k : Nat) (hk : n ≤ k) : rrun D k a = .done s := by
  obtain ⟨j, rfl⟩ := Nat.exists_eq_add_of_le hk
  rw [rrun_add, h]

/-- Reading the text of a value. -/
theorem read_text {extMax : Nat} (hm : extMax ≤ 0x10000) (hr : Sym.Reach extMax tab) {t : T} (hp : Printable D tab t)
    (hd : Readable D tab t) (h : Heap) (nxt : Nat) {text : List Byte} (ht : cstr text = txt tab false t) :
    ∃ n s, (∀ fuel ≥ n, rrun D fuel (readStart h nxt tab false text) = .done s) ∧ s.tab = tab ∧ nxt ≤ s.nxt ∧ Old nxt h s.h ∧
      Eq.Rep s.h s.r t := by
  obtain ⟨h', n', v, ⟨k, h1⟩, h2, h3, h4, h5⟩ := (reads_tree (D := D) (tot := (txt tab false t).length) (e := true) hm hr t hp hd).1
    [] h nxt [.done false] (.sym 0) rfl
  refine ⟨k + 1 + 1, S tab (txt tab false t).length true h' n' [] [.done false] v, fun fuel hf => rrun_done ?_ fuel hf,
    rfl, h2, h3, h4 h' fun _ _ _ => rfl⟩
  rw [rrun_add]
  have e : readStart h nxt tab false text = S tab (txt tab false t).length true h nxt (txt tab false t ++ []) [.next, .done false] (.sym 0) := by
    simp only [readStart, ht, S, List.append_nil]; rfl
  rw [e, h1]
  have : rstep D (S tab (txt tab false t).length true h' n' [] [.done false] v) =
      .done (S tab (txt tab false t).length true h' n' [] [.done false] v) := by
    show (if isTokSym v = true then _ else _) = _
    rw [h5]; rfl
  simp only [rrun, this]

theorem plain_of_printable (p : NTy → Int → Prop) : ∀ t : T, Printable D tab t → Eq.Plain p t
  | .sym _, _ => trivial
  | .num t z, h => by
    rintro (rfl | rfl)
    · exact h.elim
    · exact h.elim
  | .cons a d, h => ⟨plain_of_printable p a h.1, plain_of_printable p d h.2⟩
  | .bytes _, _ => trivial
  | .arr _, h => h.elim
  | .obj _, h => h.elim

/-- **C49**: print a value of integers, symbols, strings, byte arrays and lists.  If printing reports success then
reading the buffer as an expression yields a value that is structurally equal to the one printed; the symbol table is
what it was, and no cell that was in use has changed.  And printing does report success if the buffer is large enough and lists
are not nested too deep for the print stack.

Conditions: the heap has its free cells from `nxt` on;
symbols have the names of symbols (see `ReadableName`), strings at most 256 characters, byte arrays fit into
the memory the reader sets aside; and (unless reading before the start of an array is defined, `D.stray`) arrays begin with
a printable character or have one byte. -/
theorem C49_roundtrip_partial (F : Eq.Flt) {extMax size len nxt : Nat} (hm : extMax ≤ 0x10000) (hr : Sym.Reach extMax tab)
    (hfree : ∀ i, nxt ≤ i → H false i = .other) {t : T} {v : Val} (hv : Eq.Rep H v t) (hp : Printable D tab t)
    (hd : Readable D tab t) (h1 : 1 ≤ len) (h2 : len < 2 ^ 32) :
    ∃ n buf ok, (∀ fuel ≥ n, printValue D tab H size len fuel v = some (buf, ok)) ∧
      (ok = true → ∃ s, ∀ fuel ≥ n, rrun D fuel (readStart H nxt tab false buf) = .done s ∧
        Eq.structEq F s.h fuel v s.r = some true ∧
        Eq.Rep s.h v t ∧ Eq.Rep s.h s.r t ∧ s.tab = tab ∧
        ∀ k i, H k i ≠ .other → s.h k i = H k i) ∧
      ((txt tab false t).length < len → 4 * depth t + 2 < size → ok = true) := by
  obtain ⟨n1, a, ok, ha, hl, hpr, hok, hsucc⟩ := C49_print_partial (size := size) (len := len) hv hp h1 h2
  cases ok with
  | false => exact ⟨n1, _, false, hpr, (by simp), hsucc⟩
  | true =>
    have ha := hok rfl
    subst ha
    have hbuf : cstr (txt tab false t ++ List.replicate (len - (txt tab false t).length) 0) = txt tab false t := by
      rw [show len - (txt tab false t).length = len - 1 - (txt tab false t).length + 1 by omega]
      exact cstr_text (txt_ne_zero t false hd) _
    obtain ⟨n2, s, hrd, htab, hnx, hold, hrep⟩ := read_text hm hr hp hd H nxt hbuf
    have hv' := rep_old hfree hold hp hv
    obtain ⟨n3, heq⟩ := Eq.C29_decides (F := F) hv' hrep
    rw [Eq.same_refl (plain_of_printable _ t hp)] at heq
    refine ⟨max n1 (max n2 n3), _, true, fun fuel hf => hpr fuel (by omega), fun _ => ⟨s, fun fuel hf =>
      ⟨hrd fuel (by omega), heq fuel (by omega), hv', hrep, htab, ?_⟩⟩, hsucc⟩
    intro k i hne
    refine hold k i ?_
    cases k with
    | true => exact .inl rfl
    | false => exact .inr (Nat.lt_of_not_le fun hle => hne (hfree i hle))

/-! ## Different values have different texts -/

theorem rep_unique : ∀ (t s : T) (v : Val), Printable D tab t → Eq.Rep H v t → Eq.Rep H v s → t = s
  | .sym id, s, v, _, h1, h2 => by cases h1; cases h2; rfl
  | .num t z, s, v, _, h1, h2 => by
    cases h1 with
    | imm => cases h2; rfl
    | boxed h => cases h2 with | boxed h' => rw [h] at h'; cases h'; rfl
  | .cons a d, s, v, hp, h1, h2 => by
    cases h1 with
    | cons e a1 d1 =>
      cases h2 with
      | cons e' a2 d2 =>
        rw [e] at e'; cases e'
        rw [rep_unique a _ _ hp.1 a1 a2, rep_unique d _ _ hp.2 d1 d2]
  | .bytes l, s, v, _, h1, h2 => by
    cases h1 with
    | bytes e => cases h2 with | bytes e' => rw [e] at e'; cases e'; rfl
  | .arr _, s, v, hp, _, _ => hp.elim
  | .obj _, s, v, hp, _, _ => hp.elim

/-- **C49**: values that can be read back and are printed alike are the same. -/
theorem C49_text_determines {extMax : Nat} (hm : extMax ≤ 0x10000) (hr : Sym.Reach extMax tab) {t s : T}
    (ht : Printable D tab t ∧ Readable D tab t) (hs : Printable D tab s ∧ Readable D tab s)
    (h : txt tab false t = txt tab false s) : t = s := by
  have hc : cstr (txt tab false t) = txt tab false t := by
    have h0 := txt_ne_zero t false ht.2
    unfold cstr
    generalize txt tab false t = l at h0
    induction l with
    | nil => rfl
    | cons c l ih =>
      simp only [List.mem_cons, not_or] at h0
      rw [List.takeWhile_cons_of_pos (by simpa using fun e => h0.1 e.symm), ih h0.2]
  obtain ⟨n1, s1, h1, -, -, -, r1⟩ := read_text hm hr ht.1 ht.2 (fun _ _ => .other) 0 hc
  obtain ⟨n2, s2, h2, -, -, -, r2⟩ := read_text hm hr hs.1 hs.2 (fun _ _ => .other) 0 (hc.trans h)
  have := (h1 (max n1 n2) (by omega)).symm.trans (h2 (max n1 n2) (by omega))
  cases this
  exact rep_unique t s _ ht.1 r1 r2

/-! ## Programs -/

/-- A program: blanks, then expressions with blanks after each. -/
def programText (tab : Sym.Tab) : List Blank → List (T × List Blank) → List Byte
  | bs, [] => bs.flatMap Blank.text
  | bs, (t, bs') :: r => bs.flatMap Blank.text ++ (txt tab false t ++ programText tab bs' r)

/-- Expressions that can be read, blanks that are blanks, and something between two expressions. -/
def ProgramOk (D : Dev) (tab : Sym.Tab) : List (T × List Blank) → Prop
  | [] => True
  | (t, bs) :: r => (Printable D tab t ∧ Readable D tab t) ∧ (∀ b ∈ bs, b.Ok) ∧ (r ≠ [] → bs ≠ []) ∧ ProgramOk D tab r

/-- The list of some values. -/
def listOf : List T → T
  | [] => .sym 0
  | t :: ts => .cons t (listOf ts)

theorem blank_follow {b : Blank} (hb : b.Ok) (rest : List Byte) (e : Bool) : FollowedBy (b.text ++ rest) e := by
  cases b with
  | space c =>
    have : ∀ c ∈ ([32, 9, 10, 11, 12, 13] : List Byte), Delimiter c := by decide
    exact this c hb
  | comment t => show Delimiter 59; decide

theorem program_follow (bs : List Blank) (hb : ∀ b ∈ bs, b.Ok) (r : List (T × List Blank)) (h : r ≠ [] → bs ≠ []) :
    FollowedBy (programText tab bs r) true := by
  cases bs with
  | nil =>
    cases r with
    | nil => rfl
    | cons => exact absurd rfl (h (by simp))
  | cons b bs =>
    have : ∃ x, programText tab (b :: bs) r = b.text ++ x := by
      cases r with
      | nil => exact ⟨_, by rw [programText, List.flatMap_cons]⟩
      | cons p r => exact ⟨_, by rw [programText, List.flatMap_cons, List.append_assoc]⟩
    obtain ⟨x, hx⟩ := this
    rw [hx]
    exact blank_follow (hb b (by simp)) x true

theorem Reads.blanks {tot : Nat} {e : Bool} {text : List Byte} {t : T} (h : Reads D tab tot e text t) (ht : text ≠ []) (bs : List Blank)
    (hb : ∀ b ∈ bs, b.Ok) : Reads D tab tot e (bs.flatMap Blank.text ++ text) t := by
  intro rest hp n K r hr
  obtain ⟨h', n', v, h1, h2⟩ := h rest hp n K r hr
  refine ⟨h', n', v, .same ?_ h1, h2⟩
  simp only [rstep, S, nextStep, List.append_assoc, Tok.C54_blanks_ignored bs hb (text ++ rest) e (by simp [ht])]

/-- At the end of a program the list is closed. -/
theorem program_end {tot : Nat} {h : Heap} {n : Nat} {bs : List Blank} (hb : ∀ b ∈ bs, b.Ok) {f l r : Val} (hr : isTokSym r = false)
    (hf : f.tag = .cons → l.tag = .cons ∧ isTokSym f = false) (hl : f.tag ≠ .cons → f = .sym 0 ∧ l = .sym 0) :
    ∃ k s, rrun D k (S tab tot true h n (bs.flatMap Blank.text) [.next, .append f l, .done true] r) = .done s ∧ s.tab = tab ∧ s.r = f ∧
      s.h = if l.tag = .cons then setCdr h l (.sym 0) else h := by
  have h1 := Tok.C54_only_blanks bs hb
  generalize hx : Tok.nextToken ⟨bs.flatMap Blank.text, true, false⟩ = x at h1
  obtain ⟨x1, x2⟩ := x
  cases h1
  have s1 : rstep D (S tab tot true h n (bs.flatMap Blank.text) [.next, .append f l, .done true] r) =
      .run ⟨h, n, tab, x2, tot, [.append f l, .done true], symClosePar⟩ := by
    simp only [rstep, S, nextStep, hx, readFinish, hr, Bool.false_eq_true, if_false]
  by_cases hc : f.tag = .cons
  · obtain ⟨h2, h3⟩ := hf hc
    refine ⟨3, ⟨setCdr h l (.sym 0), n, tab, x2, tot, [.done true], f⟩, ?_, rfl, rfl, (if_pos h2).symm⟩
    have s2 : rstep D ⟨h, n, tab, x2, tot, [.append f l, .done true], symClosePar⟩ =
        .run ⟨setCdr h l (.sym 0), n, tab, x2, tot, [.done true], f⟩ := by
      simp only [rstep, if_true, h2]
    have s3 : rstep D ⟨setCdr h l (.sym 0), n, tab, x2, tot, [.done true], f⟩ = .done ⟨setCdr h l (.sym 0), n, tab, x2, tot, [.done true], f⟩ := by
      simp only [rstep, h3, Bool.false_eq_true, if_false]
    simp only [rrun, s1, s2, s3]
  · obtain ⟨rfl, rfl⟩ := hl hc
    refine ⟨3, ⟨h, n, tab, x2, tot, [.done true], .sym 0⟩, ?_, rfl, rfl, rfl⟩
    simp only [rrun, s1]
    rfl

theorem program_loop {extMax : Nat} (hm : extMax ≤ 0x10000) (hr : Sym.Reach extMax tab) {tot : Nat} :
    ∀ (ps : List (T × List Blank)) (bs : List Blank) (h : Heap) (lo n il i0 : Nat) (C : T → T) (r : Val), ProgramOk D tab ps →
      (∀ b ∈ bs, b.Ok) → isTokSym r = false → Hole h lo n (.ptr .cons false i0) il C →
      ∃ k s, rrun D k (S tab tot true h n (programText tab bs ps)
        [.next, .append (.ptr .cons false i0) (.ptr .cons false il), .done true] r) = .done s ∧
        s.tab = tab ∧ Old lo h s.h ∧ Eq.Rep s.h s.r (C (listOf (ps.map Prod.fst)))
  | [], bs, h, lo, n, il, i0, C, r, _, hb, hrr, hh => by
    obtain ⟨k, s, h1, h2, h3, h4⟩ := program_end (D := D) (tab := tab) (tot := tot) (h := h) (n := n) hb (f := .ptr .cons false i0)
      (l := .ptr .cons false il) hrr (fun _ => ⟨rfl, rfl⟩) (fun h => absurd rfl h)
    obtain ⟨c1, c2⟩ := hole_close hh (fun _ _ _ => rfl) (Nat.le_refl _) (v := .sym 0) (t := .sym 0) (fun _ _ => .sym)
    have h5 : s.h = setCdr h (.ptr .cons false il) (.sym 0) := h4
    refine ⟨k, s, h1, h2, h5 ▸ c2, ?_⟩
    rw [h3, h5]
    exact c1 _ fun _ _ _ => rfl
  | (t, bs') :: ps, bs, h, lo, n, il, i0, C, r, hp, hb, hrr, hh => by
    obtain ⟨⟨hp1, hp2⟩, hp3, hp4, hp5⟩ := hp
    have ha := ((reads_tree (D := D) (tot := tot) (e := true) hm hr t hp1 hp2).1).blanks (txt_ne hp1) bs hb
    obtain ⟨h1, n1, v, p1, g1, g2, g3, g4⟩ := ha (programText tab bs' ps) h n
      [.append (.ptr .cons false i0) (.ptr .cons false il), .done true] r (program_follow bs' hp3 ps hp4)
    have hh2 := hole_next hh g2 g1 g3
    obtain ⟨k3, s, p3, g5, g6, g7⟩ := program_loop hm hr (tot := tot) ps bs' _ lo (n1 + 1) n1 i0 _ v hp5 hp3 g4 hh2
    have p2 : Plus D (S tab tot true h1 n1 (programText tab bs' ps) [.append (.ptr .cons false i0) (.ptr .cons false il), .done true] v)
        (S tab tot true (setCdr (upd h1 n1 (.pair v (.sym 0))) (.ptr .cons false il) (.ptr .cons false n1)) (n1 + 1)
          (programText tab bs' ps) [.next, .append (.ptr .cons false i0) (.ptr .cons false n1), .done true] v) :=
      .one ((if_neg (not_close g4).1).trans (if_neg (not_close g4).2))
    obtain ⟨k, p4⟩ := p1.trans p2
    refine ⟨k + 1 + k3, s, ?_, g5, ?_, g7⟩
    · have e : programText tab bs ((t, bs') :: ps) = bs.flatMap Blank.text ++ txt tab false t ++ programText tab bs' ps := by
        simp only [programText, List.append_assoc]
      rw [rrun_add, e, p4]
      exact p3
    · obtain ⟨a1, a2, a', a3, a4⟩ := hh
      refine Old.trans ?_ g6 (Nat.le_refl _)
      have hil : h1 false il = .pair a' (.sym 0) := (g2 false il (.inr a2)).trans a3
      have hu : upd h1 n1 (.pair v (.sym 0)) false il = .pair a' (.sym 0) := (if_neg (by omega)).trans hil
      intro k i hi
      simp only [setCdr, hu]
      exact (old_upd lo _ il a1 _ k i hi).trans ((old_upd lo _ n1 (by omega) _ k i hi).trans (g2 k i (hi.imp_right (by omega))))

/-- **C49**: a program made of printed values, with white space and comments around them, is read as the list of
these values. -/
theorem C49_program_partial {extMax nxt : Nat} (hm : extMax ≤ 0x10000) (hr : Sym.Reach extMax tab) (h : Heap)
    (bs : List Blank) (hb : ∀ b ∈ bs, b.Ok) (ps : List (T × List Blank)) (hp : ProgramOk D tab ps)
    (hz : (0 : Byte) ∉ programText tab bs ps) :
    ∃ n s, (∀ fuel ≥ n, rrun D fuel (readStart h nxt tab true (programText tab bs ps ++ [0])) = .done s) ∧ s.tab = tab ∧
      Old nxt h s.h ∧ Eq.Rep s.h s.r (listOf (ps.map Prod.fst)) := by
  have e : readStart h nxt tab true (programText tab bs ps ++ [0]) = S tab (programText tab bs ps).length true h nxt (programText tab bs ps)
      [.next, .append (.sym 0) (.sym 0), .done true] (.sym 0) := by
    simp only [readStart, cstr_text hz 0, show ([0] : List Byte) = List.replicate (0 + 1) 0 from rfl, S]; rfl
  rw [e]
  suffices ∃ n s, rrun D n (S tab (programText tab bs ps).length true h nxt (programText tab bs ps)
      [.next, .append (.sym 0) (.sym 0), .done true] (.sym 0)) = .done s ∧ s.tab = tab ∧
      Old nxt h s.h ∧ Eq.Rep s.h s.r (listOf (ps.map Prod.fst)) by
    obtain ⟨n, s, h1, h2⟩ := this
    exact ⟨n, s, fun fuel hf => rrun_done h1 fuel hf, h2⟩
  generalize (programText tab bs ps).length = tot
  cases ps with
  | nil =>
    obtain ⟨k, s, h1, h2, h3, h4⟩ := program_end (D := D) (tab := tab) (tot := tot) (h := h) (n := nxt) hb (f := .sym 0) (l := .sym 0)
      (r := .sym 0) rfl (fun h => absurd h (by simp [Verif.Eq.Val.tag])) (fun _ => ⟨rfl, rfl⟩)
    have h5 : s.h = h := h4
    refine ⟨k, s, h1, h2, fun _ _ _ => by rw [h5], ?_⟩
    rw [h3]; exact .sym
  | cons p ps =>
    obtain ⟨t, bs'⟩ := p
    obtain ⟨⟨hp1, hp2⟩, hp3, hp4, hp5⟩ := hp
    have ha := ((reads_tree (D := D) (tot := tot) (e := true) hm hr t hp1 hp2).1).blanks (txt_ne hp1) bs hb
    obtain ⟨h1, n1, v, p1, g1, g2, g3, g4⟩ := ha (programText tab bs' ps) h nxt
      [.append (.sym 0) (.sym 0), .done true] (.sym 0) (program_follow bs' hp3 ps hp4)
    obtain ⟨k3, s, p3, g5, g6, g7⟩ := program_loop hm hr (tot := tot) ps bs' _ nxt (n1 + 1) n1 n1 _ v hp5 hp3 g4 (hole_first g1 g3)
    have p2 : Plus D (S tab tot true h1 n1 (programText tab bs' ps) [.append (.sym 0) (.sym 0), .done true] v)
        (S tab tot true (upd h1 n1 (.pair v (.sym 0))) (n1 + 1)
          (programText tab bs' ps) [.next, .append (.ptr .cons false n1) (.ptr .cons false n1), .done true] v) :=
      .one ((if_neg (not_close g4).1).trans (if_neg (not_close g4).2))
    obtain ⟨k, p4⟩ := p1.trans p2
    refine ⟨k + 1 + k3, s, ?_, g5, ?_, g7⟩
    · have e : programText tab bs ((t, bs') :: ps) = bs.flatMap Blank.text ++ txt tab false t ++ programText tab bs' ps := by
        simp only [programText, List.append_assoc]
      rw [rrun_add, e, p4]
      exact p3
    · exact (g2.trans (old_upd nxt _ n1 g1 _) (Nat.le_refl _)).trans g6 (Nat.le_refl _)


/-! ## What is printed but not read back -/

/-- The printed text, the value read, and its bytes if it is a byte array. -/
def readBack (D : Dev) (tab : Sym.Tab) (H : Heap) (nxt len fuel : Nat) (v : Val) : Option (List Byte × Option (Val × Option (List Byte))) :=
  match printValue D tab H 256 len fuel v with
  | some (buf, true) =>
    match rrun D fuel (readStart H nxt tab false buf) with
    | .done s => some (cstr buf, some (s.r, Eq.bytesOf s.h s.r))
    | _ => some (cstr buf, none)
  | _ => none

/-- A device without floats, other types, or memory before an array. -/
def demoDev : Dev := ⟨.b32, none, fun _ _ => [], fun _ _ => 0, fun _ _ => 0, fun _ => none, 6⟩

def demoTab : Sym.Tab := (Sym.addSymbol (Sym.init 100 true true) (Sym.str "A") true).1

/-- `("a\"b" quote . -5)`, lisp arrays, byte arrays, a list with a boxed number, a long string. -/
def demoHeap : Heap := fun k i =>
  if k then .other
  else if i = 0 then .pair (.ptr .array false 1) (.ptr .cons false 2)
  else if i = 1 then .bytes [97, 34, 98, 0]
  else if i = 2 then .pair (.sym 0x100) (.imm .i (-5))
  else if i = 3 then .arr [.imm .i 1, .imm .i 2]
  else if i = 4 then .arr []
  else if i = 5 then .bytes []
  else if i = 6 then .bytes [65, 2, 0, 255]
  else if i = 7 then .bytes [65, 2, 3, 4, 255]
  else if i = 8 then .bytes (List.replicate 257 97 ++ [0])
  else if i = 9 then .pair (.ptr (.num .u64) false 10) (.ptr .cons false 11)
  else if i = 10 then .num (2 ^ 64 - 1)
  else if i = 11 then .pair (.ptr .array false 6) (.sym 0)
  else .other

/-- A symbol made from the string "A" is printed as `A`, which is read as `a`, another symbol. -/
theorem C49_upper_case_violated : readBack demoDev demoTab demoHeap 20 200 10 (.sym 0x40002) =
    some (ascii "A", some (.sym 0x40003, none)) := by
  decide +kernel

/-- A lisp array is printed like a byte array and read as one. -/
theorem C49_lisp_array_violated : readBack demoDev demoTab demoHeap 20 200 30 (.ptr .lispArray false 3) =
    some (ascii "[1 2]", some (.ptr .array false 20, some [1, 2])) := by
  decide +kernel

/-- An empty lisp array is printed as `[)`, which cannot be read. -/
theorem C49_empty_lisp_array_violated : readBack demoDev demoTab demoHeap 20 200 30 (.ptr .lispArray false 4) =
    some (ascii "[)", none) := by
  decide +kernel

/-- A byte array that is larger than the memory set aside by the reader, less two bytes, is not read. -/
theorem C49_large_array_violated : readBack demoDev demoTab demoHeap 20 200 30 (.ptr .array false 7) =
    some (ascii "[65 2 3 4 255]", none) := by
  decide +kernel

/-- A string of more than 256 characters is printed, but the text cannot be read. -/
theorem C49_long_string_violated {k : Bool} {i size len nxt : Nat} {x : List Byte} (hx : StringData (x ++ [0]) x) (hi : H k i = .bytes (x ++ [0]))
    (hl : 256 < x.length) (hs : 2 < size) (h1 : (stringText x).length < len) (h2 : len < 2 ^ 32) :
    ∃ n buf, ∀ fuel ≥ n, printValue D tab H size len fuel (.ptr .array k i) = some (buf, true) ∧
      rrun D fuel (readStart H nxt tab false buf) = .error := by
  have hb : ∀ c, (x ++ [0]).head? = some c → (32 ≤ c.toNat ∧ c.toNat ≤ 126) ∨ (8 ≤ c.toNat ∧ c.toNat ≤ 13) := by
    intro c hc
    cases x with
    | nil => simp at hl
    | cons y x => cases hc; exact hx.2.2 _ (by simp)
  have hp : Printable D tab (.bytes (x ++ [0])) := by
    intro hlb
    cases hh : (x ++ [0]).head? with
    | none => simp at hh
    | some c => exact absurd (hb c hh) (hlb.2 c hh)
  have ht : txt tab false (.bytes (x ++ [0])) = stringText x := by
    show bytesText (x ++ [0]) = _
    unfold bytesText
    rw [List.dropLast_concat, if_pos hx]
  obtain ⟨n, h⟩ := print_text (tab := tab) (H := H) (v := .ptr .array k i) (size := size) (len := len) (.bytes hi) hp (by simpa [depth] using hs)
    (by omega) h2
  rw [ht, decide_eq_true h1, List.take_of_length_le (by omega)] at h
  refine ⟨n + 1, _, fun fuel hf => ⟨h fuel (by omega), ?_⟩⟩
  have hz : (0 : Byte) ∉ stringText x := by
    simp only [stringText, List.mem_append, List.mem_flatMap, not_or, not_exists, not_and]
    refine ⟨⟨by decide, fun c hc => charText_ne_zero c ?_⟩, by decide⟩
    rintro rfl
    have := hx.2.2 0 hc
    revert this; decide
  rw [show len - min (len - 1) (stringText x).length = len - 1 - (stringText x).length + 1 by omega]
  obtain ⟨f, rfl⟩ := Nat.exists_eq_add_of_le' (show 1 ≤ fuel by omega)
  have e := Tok.C18_too_long (x.map itemOf) (by
    intro i hi
    obtain ⟨c, _, rfl⟩ := List.mem_map.1 hi
    exact (itemOf_facts c).1) (by simpa using hl) [] true
  rw [← stringText_eq, List.append_nil] at e
  generalize hr : Tok.nextToken ⟨stringText x, true, false⟩ = r at e
  obtain ⟨r1, r2⟩ := r
  cases e
  have : rstep D (readStart H nxt tab false (stringText x ++ List.replicate (len - 1 - (stringText x).length + 1) 0)) = .error := by
    simp only [readStart, cstr_text hz, rstep, nextStep, Bool.false_eq_true, if_false, hr]
  simp only [rrun, this]

/-- Printing an array that is empty, or begins with a character that is not printable and has more than one
byte, reads before the start of its data. -/
theorem C49_looks_back_violated (hD : D.stray = none) {k : Bool} {i : Nat} {l : List Byte} (hl : H k i = .bytes l)
    (h : LooksBack l) (size len fuel : Nat) (hs : 2 < size) : printValue D tab H size len fuel (.ptr .array k i) = none := by
  have hpush : (pushN size 2 [.print (.ptr .array k i)] []).getD [] = [.print (.ptr .array k i)] := by
    rw [show pushN size 2 [.print (.ptr .array k i)] [] = some ([.print (.ptr .array k i)] ++ []) from
      if_pos (by simp only [sp, List.map_nil, List.sum_nil]; omega)]
    rfl
  unfold printValue
  rw [hpush]
  cases fuel with
  | zero => rfl
  | succ n =>
    have : pstep D tab H size ⟨[.print (.ptr .array k i)], ⟨[], len, false⟩, false⟩ = .ub := by
      simp only [pstep, Verif.Eq.Val.tag, Eq.bytesOf, hl, emitByteArray, isString_ub D hD l h, if_true]
    simp only [prun, this]

end

/-! ## Examples -/

/-- `("a\"b" quote . -5)` -/
def demoT : T := .cons (.bytes [97, 34, 98, 0]) (.cons (.sym 0x100) (.num .i (-5)))

/-- `(18446744073709551615u64 [65 2 0 255])` -/
def demoU : T := .cons (.num .u64 (2 ^ 64 - 1)) (.cons (.bytes [65, 2, 0, 255]) (.sym 0))

theorem demo_reach : Sym.Reach 100 demoTab :=
  ⟨true, true, .step (.refl _) (.add _ _ _ (by unfold Sym.CStr; decide))⟩

theorem demoT_rep : Eq.Rep demoHeap (.ptr .cons false 0) demoT := .cons rfl (.bytes rfl) (.cons rfl .sym .imm)

theorem demoU_rep : Eq.Rep demoHeap (.ptr .cons false 9) demoU := .cons rfl (.boxed rfl) (.cons rfl (.bytes rfl) .sym)

theorem demoT_ok : Printable demoDev demoTab demoT ∧ Readable demoDev demoTab demoT := by
  refine ⟨⟨?_, ⟨Sym.str "quote", by decide +kernel, by decide⟩, ?_⟩, ⟨by decide +kernel, by decide +kernel⟩,
    ⟨Sym.str "quote", by decide +kernel, by decide, .inl ⟨?_, by decide, by decide⟩⟩, trivial⟩
  · intro h
    exact absurd h.2 (by simp)
  · exact ⟨by decide, by decide⟩
  · refine ⟨by decide, by decide, fun h => absurd h (by decide)⟩

theorem demoU_ok : Printable demoDev demoTab demoU ∧ Readable demoDev demoTab demoU := by
  refine ⟨⟨?_, ?_, Sym.str "nil", by decide +kernel, by decide⟩, trivial, ⟨by decide +kernel, by decide +kernel⟩,
    Sym.str "nil", by decide +kernel, by decide, .inl ⟨?_, by decide, by decide⟩⟩
  · exact ⟨by decide, by decide⟩
  · intro h
    exact absurd h.2 (by simp)
  · refine ⟨by decide, by decide, fun h => absurd h (by decide)⟩

/-- The texts of the examples. -/
example : txt demoTab false demoT = ascii "(\"a\\\"b\" quote . -5)" ∧
    txt demoTab false demoU = ascii "(18446744073709551615u64 [65 2 0 255])" := by
  decide +kernel

theorem demo_free (i : Nat) (h : 20 ≤ i) : demoHeap false i = .other := by
  simp only [demoHeap, Bool.false_eq_true, if_false]
  iterate 12 rw [if_neg (by omega)]

/-- They are printed and read back. -/
example (F : Eq.Flt) : ∃ n buf, (∀ fuel ≥ n, printValue demoDev demoTab demoHeap 256 100 fuel (.ptr .cons false 9) = some (buf, true)) ∧
    ∃ s, ∀ fuel ≥ n, rrun demoDev fuel (readStart demoHeap 20 demoTab false buf) = .done s ∧
      Eq.structEq F s.h fuel (.ptr .cons false 9) s.r = some true := by
  obtain ⟨n, buf, ok, h1, h2, h3⟩ := C49_roundtrip_partial (size := 256) (len := 100) (nxt := 20) F (by decide) demo_reach demo_free
    demoU_rep demoU_ok.1 demoU_ok.2 (by decide) (by decide)
  have e := h3 (by decide +kernel) (by decide)
  subst e
  obtain ⟨s, hs⟩ := h2 rfl
  exact ⟨n, buf, h1, s, fun f hf => ⟨(hs f hf).1, (hs f hf).2.1⟩⟩

/-- A small print stack: the text is cut off and printing fails. -/
example : printValue demoDev demoTab demoHeap 6 100 100 (.ptr .cons false 0) =
    some (ascii "(\"a\\\"b\" " ++ List.replicate 92 0, false) := by
  decide +kernel

/-- A program of both. -/
example : ∃ n s, (∀ fuel ≥ n, rrun demoDev fuel (readStart demoHeap 20 demoTab true
    (programText demoTab [.comment (ascii " a program")] [(demoT, [.space 10]), (demoU, [])] ++ [0])) = .done s) ∧ s.tab = demoTab ∧
    Old 20 demoHeap s.h ∧ Eq.Rep s.h s.r (.cons demoT (.cons demoU (.sym 0))) :=
  C49_program_partial (by decide) demo_reach demoHeap _ (by
      intro b hb
      simp only [List.mem_singleton] at hb
      subst hb
      unfold Blank.Ok; decide) _
    ⟨demoT_ok, (by
      intro b hb
      simp only [List.mem_singleton] at hb
      subst hb
      unfold Blank.Ok; decide), (by simp), demoU_ok, (by simp), (by simp), trivial⟩ (by decide +kernel)

/-- A string of 300 characters is data of the theorem on long strings. -/
example : StringData (List.replicate 300 97 ++ [0]) (List.replicate 300 97) ∧ 256 < (List.replicate 300 (97 : Byte)).length :=
  ⟨⟨rfl, by decide, fun c hc => by rw [List.eq_of_mem_replicate hc]; decide⟩, by rw [List.length_replicate]; decide⟩

/-- The empty array, and the text "\27x". -/
example : LooksBack [] ∧ LooksBack [27, 120, 0] := by
  refine ⟨⟨by decide, by simp⟩, by decide, ?_⟩
  intro c hc
  cases hc
  decide

end Verif.Print
