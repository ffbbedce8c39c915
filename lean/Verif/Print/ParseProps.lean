import Verif.Print.Parse6

/-!
# C91: which texts the reader accepts, and what it makes of them
-/

namespace Verif.Print

open Verif.Tok (Byte ascii Token Stream)
open Verif.Eq (T NTy Val Heap Obj)

section
variable {D : Dev} {tab : Sym.Tab} {extMax nxt : Nat} {h : Heap} {text : List Byte}

/-! ## Runs with a result -/

theorem done_of_to {m q e : RS} {n : Nat} (h1 : To D m (.run q)) (h2 : rrun D n m = .done e) : ∃ k, rrun D k q = .done e := by
  obtain ⟨j, h1⟩ := h1
  have h3 := rrun_done h2 (j + 1 + n) (by omega)
  rw [rrun_add, h1] at h3
  exact ⟨n, h3⟩

theorem not_stops {m e : RS} {n : Nat} (h1 : Stops D m) (h2 : rrun D n m = .done e) : False := by
  rcases h1 with ⟨j, h1⟩ | ⟨j, h1⟩ | ⟨j, h1⟩ <;>
  · have h3 := rrun_done h2 (j + 1 + n) (by omega)
    rw [rrun_add, h1] at h3
    cases h3

theorem to_done {m e : RS} (h : To D m (.done e)) : ∃ n, ∀ fuel ≥ n, rrun D fuel m = .done e :=
  let ⟨n, h⟩ := h
  ⟨n + 1, fun fuel hf => rrun_done h fuel hf⟩

theorem done_step {h : Heap} {n : Nat} {s : Stream} {tot : Nat} {b : Bool} {v : Val} {tab : Sym.Tab} (hv : isTokSym v = false) :
    rstep D ⟨h, n, tab, s, tot, [.done b], v⟩ = .done ⟨h, n, tab, s, tot, [.done b], v⟩ := if_neg (by simp [hv])

theorem done_inv {h : Heap} {n k : Nat} {s : Stream} {tot : Nat} {b : Bool} {v : Val} {tab : Sym.Tab} {e : RS}
    (hd : rrun D k ⟨h, n, tab, s, tot, [.done b], v⟩ = .done e) : e = ⟨h, n, tab, s, tot, [.done b], v⟩ ∧ isTokSym v = false := by
  cases k with
  | zero => cases hd
  | succ k =>
    cases hv : isTokSym v with
    | false =>
      simp only [rrun, done_step hv, RRes.done.injEq] at hd
      exact ⟨hd.symm, rfl⟩
    | true =>
      have : rstep D ⟨h, n, tab, s, tot, [.done b], v⟩ = .error := if_pos hv
      simp only [rrun, this] at hd
      cases hd

/-! ## The tokens of a text -/

/-- Every text has exactly one sequence of tokens. -/
theorem tokens_exist (text : List Byte) : ∃ ts o, Tokens text ts o ∧ ∀ ts' o', Tokens text ts' o' → ts' = ts ∧ o' = o := by
  refine ⟨_, _, ⟨_, Tok.lexAll_lexes (cstr text), rfl⟩, ?_⟩
  rintro ts' o' ⟨raw, h1, rfl⟩
  obtain ⟨rfl, rfl⟩ := Tok.Lexes.unique h1 (Tok.lexAll_lexes (cstr text))
  exact ⟨rfl, rfl⟩

theorem tokens_of_took {s : Stream} {pre : List Token} (h : Took ⟨cstr text, true, false⟩ pre s) (he : s.ended = true) :
    ∃ rest o, Tokens text (pre ++ rest) o := by
  have h2 := Tok.lexN_lexes (s.avail.length + 1) s he (by omega)
  obtain ⟨raw, h3, h4⟩ := lexes_raw h h2
  exact ⟨_, _, raw, h3, h4.symm⟩

/-! ## Reading one expression -/

/-- **C91**: a text that begins with the tokens of an expression is read, and the result is this expression.  Whatever was in use
on the heap is unchanged.  `rest` is ignored. -/
theorem C91_read_accepts (hm : extMax ≤ 0x10000) (hr : Sym.Reach extMax tab) {loose : Bool} {pre rest : List Token} {o : Tok.Out} {x : X}
    (ht : Tokens text (pre ++ rest) o) (hx : Expr D loose pre x) (hf : NamesFit tab pre) :
    ∃ n m, (∀ fuel ≥ n, rrun D fuel (readStart h nxt tab false text) = .done m) ∧ Means m.tab m.h m.r x ∧ Old nxt h m.h := by
  obtain ⟨raw, h1, h2⟩ := ht
  obtain ⟨s', raw', h3, h4, h5⟩ := took_of_lexes h1 h2.symm
  have hi := hr.inv hm
  obtain ⟨tab', hen⟩ := enters_of_fit hi h3 hf
  obtain ⟨h', n', v, hto, hrd⟩ := go_expr (tot := (cstr text).length) hx _ _ tab tab' h nxt [.done false] (.sym 0) h3 hen hi
  obtain ⟨n, hn⟩ := to_done (hto.trans (.one (done_step hrd.mark)))
  exact ⟨n, _, hn, ⟨hrd.known, hrd.built _ fun _ _ _ => rfl⟩, hrd.old⟩

/-- **C91**: if a text is read then it is empty and the result is `nil`, or it begins with the tokens of an expression, and the
result is this expression. -/
theorem C91_read_accepts_only_partial (hm : extMax ≤ 0x10000) (hr : Sym.Reach extMax tab) {n : Nat} {m : RS}
    (hd : rrun D n (readStart h nxt tab false text) = .done m) :
    (cstr text = [] ∧ m.r = .sym 0) ∨
    ∃ pre rest o x, Tokens text (pre ++ rest) o ∧ Expr D true pre x ∧ Means m.tab m.h m.r x ∧ Old nxt h m.h := by
  have hi := hr.inv hm
  by_cases he : cstr text = []
  · refine .inl ⟨he, ?_⟩
    have hd := rrun_done hd (n + 2) (by omega)
    have e : readStart h nxt tab false text = ⟨h, nxt, tab, ⟨[], true, false⟩, 0, [.next, .done false], .sym 0⟩ := by
      simp [readStart, he]
    rw [e] at hd
    have : rrun D (n + 2) ⟨h, nxt, tab, ⟨[], true, false⟩, 0, [.next, .done false], .sym 0⟩ =
      .done ⟨h, nxt, tab, ⟨[], true, false⟩, 0, [.done false], .sym 0⟩ := rfl
    rw [this] at hd
    cases hd
    rfl
  · right
    have ht : (cstr text).length ≠ 0 := by simpa using he
    cases (got_all (D := D) ht _).1 ⟨cstr text, true, false⟩ rfl (Nat.le_refl _) tab h nxt [.done false] (.sym 0) hi (fun _ e => by cases e) with
    | stops h1 => exact (not_stops h1 hd).elim
    | eof h1 h2 =>
      rw [finish_error ht (atEnd_finished h1) (by intro f l K' e; cases e)] at h2
      exact (not_stops (.inl h2) hd).elim
    | stray hw _ hto =>
      obtain ⟨k, hk⟩ := done_of_to hto hd
      have := (done_inv hk).2
      exfalso
      revert this hw
      unfold strayOf
      split <;> intro hw <;> cases hw <;> decide
    | expr h1 h2 h3 _ h5 hto =>
      obtain ⟨k, hk⟩ := done_of_to hto hd
      obtain ⟨rfl, _⟩ := done_inv hk
      obtain ⟨rest, o, htk⟩ := tokens_of_took h2 h3
      exact ⟨_, rest, o, _, htk, h1, ⟨h5.known, h5.built _ fun _ _ _ => rfl⟩, h5.old⟩

/-! ## Reading a program -/

/-- **C91**: a text that consists of expressions is read as a program, and the result is the list of these expressions. -/
theorem C91_program_accepts (hm : extMax ≤ 0x10000) (hr : Sym.Reach extMax tab) {ts : List Token} {xs : List X}
    (ht : Tokens text ts .finished) (hx : Seq D false ts xs) (hf : NamesFit tab ts) :
    ∃ n m, (∀ fuel ≥ n, rrun D fuel (readStart h nxt tab true text) = .done m) ∧ Means m.tab m.h m.r (listX xs nilX) ∧ Old nxt h m.h := by
  obtain ⟨raw, h1, h2⟩ := ht
  obtain ⟨s', raw', h3, h4, h5⟩ := took_of_lexes (ts := ts) (ts' := []) h1 (by simpa using h2.symm)
  have hi := hr.inv hm
  obtain ⟨tab', hen⟩ := enters_of_fit hi h3 hf
  obtain ⟨s1, hend⟩ := end_of_lexes h4 h5
  obtain ⟨h', n', f', l', r', hto, a1, a2, a3, a4, a5, a6, a7, a8⟩ := go_seq (tot := (cstr text).length) hx _ _ tab tab' h nxt nxt (.sym 0) (.sym 0) id
    [.done true] (.sym 0) (listSt_nil h nxt) h3 hen hi
  obtain ⟨h3, v, st, c1, c2, c3⟩ := close_step (D := D) (tot := (cstr text).length) a6 (tab := tab') (s := s1) (K := [.done true])
  have hr' := a8 rfl (by decide)
  have hfin : readFinish ⟨h', n', tab', s1, (cstr text).length, [.append f' l', .done true], r'⟩ =
      .run ⟨h', n', tab', s1, (cstr text).length, [.append f' l', .done true], symClosePar⟩ := if_neg (by simp [hr'])
  have h4 := (to_end (D := D) (tot := (cstr text).length) hend (hp := h') (n := n') (tab := tab') (K := [.append f' l', .done true]) (r := r')).1 rfl
  rw [hfin] at h4
  obtain ⟨n, hn⟩ := to_done (hto _ (h4.trans (.step st (.one (done_step c3)))))
  refine ⟨n, _, hn, ⟨listX_known a5 trivial, ?_⟩, a2.trans c2 (Nat.le_refl _)⟩
  rw [listX_tree]
  exact c1 _ fun _ _ _ => rfl

/-- **C91**: if a text is read as a program then it consists of expressions and the result is the list of these; or there is an
extra closing bracket behind some expressions (maybe with a dot before the last one), the result is the list of these, and the rest of the text is ignored. -/
theorem C91_program_accepts_only_partial (hm : extMax ≤ 0x10000) (hr : Sym.Reach extMax tab) {n : Nat} {m : RS}
    (hd : rrun D n (readStart h nxt tab true text) = .done m) :
    Old nxt h m.h ∧
    ((∃ ts xs, Tokens text ts .finished ∧ Seq D true ts xs ∧ Means m.tab m.h m.r (listX xs nilX)) ∨
    (∃ ts c rest o xs, Tokens text (ts ++ c :: rest) o ∧ (c = tClose ∨ c = tCloseBlock) ∧ Seq D true ts xs ∧ Means m.tab m.h m.r (listX xs nilX)) ∨
    (∃ ts ts' c rest o xs x, Tokens text (ts ++ tDot :: ts' ++ c :: rest) o ∧ (c = tClose ∨ c = tCloseBlock) ∧ Seq D true ts xs ∧ xs ≠ [] ∧
      Item D true [tCloseArray] ts' x ∧ Means m.tab m.h m.r (listX xs x))) := by
  have hi := hr.inv hm
  by_cases he : cstr text = []
  · have hd := rrun_done hd (n + 3) (by omega)
    have e : readStart h nxt tab true text = ⟨h, nxt, tab, ⟨[], true, false⟩, 0, [.next, .append (.sym 0) (.sym 0), .done true], .sym 0⟩ := by
      simp [readStart, he]
    rw [e] at hd
    have : rrun D (n + 3) ⟨h, nxt, tab, ⟨[], true, false⟩, 0, [.next, .append (.sym 0) (.sym 0), .done true], .sym 0⟩ =
      .done ⟨h, nxt, tab, ⟨[], true, false⟩, 0, [.done true], .sym 0⟩ := rfl
    rw [this] at hd
    cases hd
    refine ⟨fun _ _ _ => rfl, .inl ⟨[], [], ⟨[], ?_, rfl⟩, .nil, trivial, .sym⟩⟩
    rw [he]
    exact .stop (s' := ⟨[], true, false⟩) rfl (fun _ h => by cases h)
  · have ht : (cstr text).length ≠ 0 := by simpa using he
    cases (got_all (D := D) ht _).2.1 ⟨cstr text, true, false⟩ rfl (Nat.le_refl _) tab h nxt nxt (.sym 0) (.sym 0) id [.done true] (.sym 0) hi
      (listSt_nil h nxt) with
    | stops h1 => exact (not_stops h1 hd).elim
    | @eof ts xs s0 s1 tab' h' n' f' l' r' c1 c2 c3 c4 c5 c6 c7 c8 c9 hto =>
      unfold readFinish at hto
      split at hto
      · exact (not_stops (.inl hto) hd).elim
      · obtain ⟨h3, v, st, d1, d2, d3⟩ := close_step (D := D) (tot := (cstr text).length) c9 (tab := tab') (s := s1) (K := [.done true])
        obtain ⟨k, hk⟩ := done_of_to (hto.trans (.one st)) hd
        obtain ⟨rfl, _⟩ := done_inv hk
        obtain ⟨raw, e1, e2⟩ := lexes_end c3
        obtain ⟨raw', e3, e4⟩ := lexes_raw c2 e1
        refine ⟨c5.trans d2 (Nat.le_refl _), .inl ⟨ts, xs, ⟨raw', e3, by rw [e4, e2, List.append_nil]⟩, c1, listX_known c8 trivial, ?_⟩⟩
        rw [listX_tree]
        exact d1 _ fun _ _ _ => rfl
    | closed c1 c2 c3 c4 c5 c6 c7 c8 c9 c10 c11 c12 hto =>
      obtain ⟨k, hk⟩ := done_of_to hto hd
      obtain ⟨rfl, _⟩ := done_inv hk
      obtain ⟨rest, o, htk⟩ := tokens_of_took c3 c4
      refine ⟨c7, .inr (.inl ⟨_, _, rest, o, _, by simpa using htk, c2, c1, listX_known c10 trivial, ?_⟩)⟩
      rw [listX_tree]
      exact c11 _ fun _ _ _ => rfl
    | dotted c1 c2 c3 c4 c5 c6 c7 c8 c9 c10 c11 c12 c13 c14 c15 c16 hto =>
      obtain ⟨k, hk⟩ := done_of_to hto hd
      obtain ⟨rfl, _⟩ := done_inv hk
      obtain ⟨rest, o, htk⟩ := tokens_of_took c5 c6
      refine ⟨c9, .inr (.inr ⟨_, _, _, rest, o, _, _, by simpa using htk, c4, c1, ?_, c3, listX_known c12 c14, ?_⟩)⟩
      · exact c2.resolve_left (by decide)
      · rw [listX_tree]
        exact c15 _ fun _ _ _ => rfl

/-! ## Termination -/

/-- **C91**: the reader comes to an end with every text. -/
theorem C91_ends (hm : extMax ≤ 0x10000) (hr : Sym.Reach extMax tab) (program : Bool) (text : List Byte) :
    ∃ n, ∀ q, rrun D n (readStart h nxt tab program text) ≠ .run q := by
  have hi := hr.inv hm
  have stops : ∀ {m}, Stops D m → ∃ n, ∀ q, rrun D n m ≠ .run q := by
    rintro m (⟨n, h⟩ | ⟨n, h⟩ | ⟨n, h⟩) <;> exact ⟨n + 1, fun q e => by rw [h] at e; cases e⟩
  have dones : ∀ {m e}, To D m (.done e) → ∃ n, ∀ q, rrun D n m ≠ .run q := by
    rintro m e ⟨n, h⟩; exact ⟨n + 1, fun q e => by rw [h] at e; cases e⟩
  have last : ∀ {m h n tab s tot b v}, To D m (.run ⟨h, n, tab, s, tot, [.done b], v⟩) → ∃ n, ∀ q, rrun D n m ≠ .run q := by
    intro m h n tab s tot b v hto
    cases hv : isTokSym v with
    | false => exact dones (hto.trans (.one (done_step hv)))
    | true => exact stops (.inl (hto.trans (.one (if_pos hv))))
  by_cases he : cstr text = []
  · cases program with
    | false =>
      have e : readStart h nxt tab false text = ⟨h, nxt, tab, ⟨[], true, false⟩, 0, [.next, .done false], .sym 0⟩ := by
        simp [readStart, he]
      exact ⟨2, fun q hq => by rw [e] at hq; cases hq⟩
    | true =>
      have e : readStart h nxt tab true text = ⟨h, nxt, tab, ⟨[], true, false⟩, 0, [.next, .append (.sym 0) (.sym 0), .done true], .sym 0⟩ := by
        simp [readStart, he]
      exact ⟨3, fun q hq => by rw [e] at hq; cases hq⟩
  · have ht : (cstr text).length ≠ 0 := by simpa using he
    cases program with
    | false =>
      cases (got_all (D := D) ht _).1 ⟨cstr text, true, false⟩ rfl (Nat.le_refl _) tab h nxt [.done false] (.sym 0) hi (fun _ e => by cases e) with
      | stops h1 => exact stops h1
      | eof h1 h2 =>
        rw [finish_error ht (atEnd_finished h1) (by intro f l K' e; cases e)] at h2
        exact stops (.inl h2)
      | stray hw _ hto => exact last hto
      | expr h1 h2 h3 _ h5 hto => exact last hto
    | true =>
      cases (got_all (D := D) ht _).2.1 ⟨cstr text, true, false⟩ rfl (Nat.le_refl _) tab h nxt nxt (.sym 0) (.sym 0) id [.done true] (.sym 0) hi
        (listSt_nil h nxt) with
      | stops h1 => exact stops h1
      | @eof ts xs s0 s1 tab' h' n' f' l' r' c1 c2 c3 c4 c5 c6 c7 c8 c9 hto =>
        unfold readFinish at hto
        split at hto
        · exact stops (.inl hto)
        · obtain ⟨h3, v, st, d1, d2, d3⟩ := close_step (D := D) (tot := (cstr text).length) c9 (tab := tab') (s := s1) (K := [.done true])
          exact last (hto.trans (.one st))
      | closed _ _ _ _ _ _ _ _ _ _ _ _ hto => exact last hto
      | dotted _ _ _ _ _ _ _ _ _ _ _ _ _ _ _ _ hto => exact last hto

/-! ## A text has one meaning -/

/-- **C91**: no sequence of tokens begins with two different expressions. -/
theorem C91_unambiguous {loose : Bool} {a a' r r' : List Token} {x x' : X} (h1 : Expr D loose a x) (h2 : Expr D loose a' x')
    (e : a ++ r = a' ++ r') : a = a' ∧ x = x' := by
  obtain ⟨h3, h4, _⟩ := un_expr h1 _ _ _ _ h2 e
  exact ⟨h3, h4⟩

/-- **C91**: and none is two different programs. -/
theorem C91_program_unambiguous {loose : Bool} {ts : List Token} {xs xs' : List X} (h1 : Seq D loose ts xs) (h2 : Seq D loose ts xs') : xs = xs' :=
  (un_seq h1 _ _ _ _ _ _ h2 (.inl rfl) (.inl rfl) (rfl : ts ++ tClose :: [] = ts ++ tClose :: [])).2.1

/-- **C91**: if a text begins with a well-formed expression then that is what reading it gives, if it gives anything. -/
theorem C91_read_gives (hm : extMax ≤ 0x10000) (hr : Sym.Reach extMax tab) {pre rest : List Token} {o : Tok.Out} {x : X}
    (ht : Tokens text (pre ++ rest) o) (hx : Expr D false pre x) {n : Nat} {m : RS}
    (hd : rrun D n (readStart h nxt tab false text) = .done m) : Means m.tab m.h m.r x := by
  rcases C91_read_accepts_only_partial hm hr hd with ⟨he, _⟩ | ⟨pre', rest', o', x', h1, h2, h3, _⟩
  · exfalso
    obtain ⟨raw, h1, h2⟩ := ht
    rw [he] at h1
    have : Tok.Lexes ⟨[], true, false⟩ [] .finished := .stop (s' := ⟨[], true, false⟩) rfl (fun _ h => by cases h)
    obtain ⟨rfl, _⟩ := Tok.Lexes.unique h1 this
    obtain ⟨k, t, rfl, _⟩ := expr_head hx
    cases h2
  · obtain ⟨ts, o2, _, hu⟩ := tokens_exist text
    have e := (hu _ _ ht).1.trans (hu _ _ h1).1.symm
    obtain ⟨_, rfl⟩ := C91_unambiguous (expr_loosen hx) h2 e
    exact h3
end

/-! ## Texts that are not programs but are read -/

/-- Whether and how a text is read: the elements of the list that results. -/
def readsAs (program : Bool) (text : String) : Option (List Val) :=
  match rrun demoDev 60 (readStart (fun _ _ => .other) 0 demoTab program (ascii text)) with
  | .done m =>
    let rec elems : Nat → Val → List Val
      | n + 1, .ptr .cons k i => match m.h k i with
        | .pair a d => a :: elems n d
        | _ => []
      | _, .sym 0 => []
      | _, v => [v]
    some (elems 20 m.r)
  | _ => none

/-- A quote mark before a closing bracket: `(quote <the mark of a closing bracket>)`. -/
theorem C91_quoted_bracket_violated : readsAs false "')" = some [.sym 0x100, .sym 0x71] := by decide +kernel

/-- The closing bracket of an array inside a list is an element of it. -/
theorem C91_stray_array_bracket_violated : readsAs false "(1 ] 2)" = some [.imm .i 1, .sym 0x81, .imm .i 2] := by decide +kernel

/-- Brackets of different kinds. -/
theorem C91_mixed_brackets_violated : readsAs false "{x)" = some [.sym 0x102, .sym 0x40000] := by decide +kernel

/-- An extra closing bracket: what comes after it is not part of the program, and there is no error. -/
theorem C91_rest_ignored_violated : readsAs true "1 ) 2 (" = some [.imm .i 1] := by decide +kernel

/-- A text of white space cannot be read, the empty text can. -/
theorem C91_blank_violated : readsAs false " " = none ∧ readsAs false "" = some [] := by decide +kernel

/-! ## Examples -/

/-- `(x . [1 2]) {'y}`: the tokens, and that they are two expressions. -/
theorem demo_tokens : Tokens (ascii "(x . [1 2]) @const-start {'y} ; end") [tOpen, .symbol (ascii "x"), tDot, tOpenArray, .int 101 false 1, .int 101 false 2,
    tCloseArray, tClose, tOpenBlock, .syntax 7, .symbol (ascii "y"), tCloseBlock] .finished :=
  ⟨_, Tok.lexAll_lexes _, by decide +kernel⟩

theorem demo_seq : Seq demoDev false [tOpen, .symbol (ascii "x"), tDot, tOpenArray, .int 101 false 1, .int 101 false 2,
    tCloseArray, tClose, tOpenBlock, .syntax 7, .symbol (ascii "y"), tCloseBlock]
    [listX [.name (ascii "x")] (.bytes [1, 2]), listX [.sym 0x102, listX [.sym 0x100, .name (ascii "y")] nilX] nilX] := by
  refine .cons (ts := [tOpen, .symbol (ascii "x"), tDot, tOpenArray, .int 101 false 1, .int 101 false 2, tCloseArray, tClose]) (.expr ?_)
    (.cons (ts' := []) (ts := [tOpenBlock, .syntax 7, .symbol (ascii "y"), tCloseBlock]) (.expr ?_) .nil)
  · refine .dotted (o := tOpen) (c := tClose) (ts := [.symbol (ascii "x")]) (p := []) (xs := [.name (ascii "x")])
      (ts' := [tOpenArray, .int 101 false 1, .int 101 false 2, tCloseArray]) rfl (.inl ⟨rfl, rfl⟩)
      (.cons (ts := [_]) (ts' := []) (.expr (.leaf rfl)) .nil) (by simp) (.expr (.array (ts := [.int 101 false 1, .int 101 false 2]) (by decide +kernel) (by decide)))
  · exact .list (o := tOpenBlock) (c := tCloseBlock) (ts := [.syntax 7, .symbol (ascii "y")]) (p := [.sym 0x102])
      (xs := [listX [.sym 0x100, .name (ascii "y")] nilX]) rfl (.inr (.inl ⟨rfl, rfl⟩))
      (.cons (ts := [_, _]) (ts' := []) (.expr (.quoted (ts := [_]) rfl (.expr (.leaf rfl)))) .nil)

theorem demo_fit : NamesFit demoTab [tOpen, .symbol (ascii "x"), tDot, tOpenArray, .int 101 false 1, .int 101 false 2,
    tCloseArray, tClose, tOpenBlock, .syntax 7, .symbol (ascii "y"), tCloseBlock] := by
  intro x hx he
  simp [tOpen, tDot, tOpenArray, tCloseArray, tClose, tOpenBlock, tCloseBlock] at hx
  rcases hx with rfl | rfl <;> exact absurd he (by decide)

example : ∃ n m, (∀ fuel ≥ n, rrun demoDev fuel (readStart demoHeap 20 demoTab true (ascii "(x . [1 2]) @const-start {'y} ; end")) = .done m) ∧
    Means m.tab m.h m.r (listX [listX [.name (ascii "x")] (.bytes [1, 2]), listX [.sym 0x102, listX [.sym 0x100, .name (ascii "y")] nilX] nilX] nilX) ∧
    Old 20 demoHeap m.h :=
  C91_program_accepts (by decide) demo_reach demo_tokens demo_seq demo_fit

/-- Reading one expression of it. -/
example : ∃ n m, (∀ fuel ≥ n, rrun demoDev fuel (readStart demoHeap 20 demoTab false (ascii "'x )")) = .done m) ∧
    Means m.tab m.h m.r (listX [.sym 0x100, .name (ascii "x")] nilX) ∧ Old 20 demoHeap m.h :=
  C91_read_accepts (pre := [.syntax 7, .symbol (ascii "x")]) (rest := [tClose]) (o := .finished) (loose := false) (by decide) demo_reach
    ⟨_, Tok.lexAll_lexes _, by decide +kernel⟩ (.quoted (ts := [_]) rfl (.expr (.leaf rfl)))
    (by
      intro x hx he
      simp at hx
      subst hx
      exact absurd he (by decide))

end Verif.Print
