import Verif.Tok.IntLit
import Verif.Tok.ChanProps
import Verif.Tok.Schedule

/-!
# C18: string literals denote the escaped text; C52: symbols
-/

namespace Verif.Tok

/-- The model's escapes are those of the specification. -/
theorem translateEscape_eq : ∀ c : Byte, translateEscape c = (Item.esc c).denotes := by decide +kernel

theorem item_step {p : Nat → Peek} {i : Item} (hi : i.Ok) {f n : Nat} {out : List Byte} {stale : Byte}
    (hat : At p n i.text) (hlen : out.length < 256) (hf : i.text.length ≤ f) :
    ∃ st, strLoop p f n out stale false =
      strLoop p (f - i.text.length) (n + i.text.length) (out ++ [i.denotes]) st false := by
  cases i with
  | raw c =>
    obtain ⟨g, rfl⟩ : ∃ g, f = g + 1 := ⟨f - 1, by simp only [Item.text, List.length_cons, List.length_nil] at hf; omega⟩
    refine ⟨c, ?_⟩
    have h0 : p n = .ok c := hat.cons.1
    have h1 : c ≠ 34 := hi.1
    have h2 : c ≠ 92 := hi.2
    rw [strLoop, h0]
    simp only [h1, h2, ne_eq, not_false_eq_true, true_or, hlen, and_self, if_true, false_and, if_false]
    rfl
  | esc c =>
    obtain ⟨g, rfl⟩ : ∃ g, f = g + 2 := ⟨f - 2, by simp only [Item.text, List.length_cons, List.length_nil] at hf; omega⟩
    refine ⟨c, ?_⟩
    have h0 : p n = .ok 92 := hat.cons.1
    have h1 : p (n + 1) = .ok c := hat.cons.2.cons.1
    rw [strLoop, h0]
    simp only []
    rw [if_pos ⟨Or.inl (by decide), hlen⟩, if_pos (by simp), strLoop, h1]
    simp only []
    rw [if_pos ⟨Or.inr trivial, hlen⟩, if_neg (by simp), if_pos trivial, translateEscape_eq]
    rfl

theorem items_run {p : Nat → Peek} : ∀ (is : List Item), (∀ i ∈ is, i.Ok) →
    ∀ (f n : Nat) (out : List Byte) (stale : Byte), At p n (is.flatMap Item.text) →
    out.length + is.length ≤ 256 → (is.flatMap Item.text).length ≤ f →
    ∃ st, strLoop p f n out stale false =
      strLoop p (f - (is.flatMap Item.text).length) (n + (is.flatMap Item.text).length)
        (out ++ is.map Item.denotes) st false := by
  intro is
  induction is with
  | nil => intro _ f n out stale _ _ _; exact ⟨stale, by simp⟩
  | cons i is ih =>
    intro hok f n out stale hat hlen hf
    simp only [List.flatMap_cons, List.length_append, List.length_cons] at hat hlen hf ⊢
    obtain ⟨h1, h2⟩ := hat.append
    obtain ⟨st, e⟩ := item_step (f := f) (out := out) (stale := stale) (hok i (by simp)) h1
      (by omega) (by omega)
    obtain ⟨st', e'⟩ := ih (fun j hj => hok j (by simp [hj])) (f - i.text.length) (n + i.text.length)
      (out ++ [i.denotes]) st h2 (by simp; omega) (by omega)
    refine ⟨st', ?_⟩
    rw [e, e', Nat.sub_sub, Nat.add_assoc, List.append_assoc]
    rfl

theorem tokString_ok {p : Nat → Peek} {is : List Item} (hok : ∀ i ∈ is, i.Ok) {f : Nat}
    (hat : At p 0 (strText is)) (hlen : is.length ≤ 256) (hf : (strText is).length ≤ f) :
    tokString p f = .ok ((strText is).length, is.map Item.denotes) := by
  unfold strText at hat hf ⊢
  rw [List.append_assoc] at hat
  obtain ⟨h0, hr⟩ := hat.cons
  obtain ⟨h1, h2⟩ := At.append (show At p 1 (is.flatMap Item.text ++ [34]) from hr)
  have h2 := h2.cons.1
  simp only [List.length_append, List.length_cons, List.length_nil] at hf ⊢
  obtain ⟨st, e⟩ := items_run is hok f 1 [] 34 h1 (by simpa using hlen) (by omega)
  have hg : f - (is.flatMap Item.text).length = (f - (is.flatMap Item.text).length - 1) + 1 := by omega
  unfold tokString
  simp only [peekTok, h0, R_bind_ok]
  rw [if_neg (by simp), e, hg, strLoop, h2]
  simp only [List.nil_append, ne_eq, not_true_eq_false, Bool.false_eq_true, or_self, false_and, if_false]

theorem tokString_long {p : Nat → Peek} {is : List Item} (hok : ∀ i ∈ is, i.Ok) {f : Nat}
    (hat : At p 0 (34 :: is.flatMap Item.text)) (hlen : 256 < is.length)
    (hf : (strText is).length ≤ f) : tokString p f = .strErr := by
  obtain ⟨h0, hr⟩ := hat.cons
  have hsplit : is = is.take 256 ++ is.drop 256 := (List.take_append_drop 256 is).symm
  cases hd : is.drop 256 with
  | nil =>
    have := congrArg List.length hd
    simp only [List.length_drop, List.length_nil] at this
    omega
  | cons i js =>
    rw [hd] at hsplit
    have hlt : (is.take 256).length = 256 := by simp; omega
    rw [hsplit, List.flatMap_append, List.flatMap_cons] at hr
    obtain ⟨h1, h2⟩ := hr.append
    have hi : i.Ok := hok i (by rw [hsplit]; simp)
    obtain ⟨c, hc, hc34⟩ : ∃ c, p (0 + 1 + ((is.take 256).flatMap Item.text).length) = .ok c ∧ c ≠ 34 := by
      cases i with
      | raw c => exact ⟨c, h2.append.1.cons.1, hi.1⟩
      | esc c => exact ⟨92, h2.append.1.cons.1, by decide⟩
    have hfl : ((is.take 256).flatMap Item.text).length + 2 ≤ f := by
      have : (strText is).length = (is.flatMap Item.text).length + 2 := by
        simp only [strText, List.length_append, List.length_cons, List.length_nil]; omega
      have h3 : (is.flatMap Item.text).length = ((is.take 256).flatMap Item.text).length +
          ((i :: js).flatMap Item.text).length := by
        rw [← List.length_append, ← List.flatMap_append, ← hsplit]
      omega
    obtain ⟨st, e⟩ := items_run (is.take 256) (fun j hj => hok j (List.mem_of_mem_take hj)) f 1 [] 34 h1
      (by rw [hlt]; simp) (by omega)
    have hg : f - ((is.take 256).flatMap Item.text).length =
        (f - ((is.take 256).flatMap Item.text).length - 1) + 1 := by omega
    unfold tokString
    simp only [peekTok, h0, R_bind_ok]
    rw [if_neg (by simp), e, hg, strLoop, hc]
    simp only [List.nil_append, List.length_map, hlt]
    rw [if_neg (by omega), if_pos hc34]

/-! ## Only literals are accepted -/

theorem at_nil (p : Nat → Peek) (n : Nat) : At p n [] := by intro i c h; simp at h

theorem at_cons {p : Nat → Peek} {n : Nat} {c : Byte} {cs : List Byte} (h : p n = .ok c)
    (hr : At p (n + 1) cs) : At p n (c :: cs) := by
  intro i d hi
  rcases i with _ | i
  · simp at hi; subst hi; exact h
  · have := hr i d (by simpa using hi)
    rwa [show n + 1 + i = n + (i + 1) by omega] at this

theorem strLoop_sound {p : Nat → Peek} : ∀ (f n : Nat) (out : List Byte) (stale : Byte) (enc : Bool)
    (n' : Nat) (out' : List Byte), out.length ≤ 256 → (enc = true → out.length < 256 ∧ stale = 92) →
    strLoop p f n out stale enc = .ok (n', out') →
    ∃ (is : List Item) (t : List Byte), (∀ i ∈ is, i.Ok) ∧ out' = out ++ is.map Item.denotes ∧ out.length + is.length ≤ 256 ∧
      is.flatMap Item.text = (if enc then [92] else []) ++ t ∧ n' = n + t.length + 1 ∧
      (At p n (t ++ [34]) ∨
        (At p n t ∧ p (n + t.length) = .done ∧ (stale :: t).getLast (by simp) = 34)) := by
  intro f
  induction f with
  | zero => intro n out stale enc n' out' _ _ h; cases h
  | succ f ih =>
    intro n out stale enc n' out' hl he h
    rw [strLoop] at h
    cases hp : p n with
    | more => rw [hp] at h; cases h
    | done =>
      rw [hp] at h
      simp only at h
      split at h
      · cases h
      · rename_i hs
        cases h
        cases enc with
        | true => rw [(he rfl).2] at hs; exact absurd (by decide) hs
        | false =>
          exact ⟨[], [], by simp, by simp, by simpa using hl, by simp, by simp,
            Or.inr ⟨at_nil p n, hp, by simpa using hs⟩⟩
    | ok c =>
      rw [hp] at h
      simp only at h
      split at h
      · rename_i hcond
        split at h
        · rename_i hbs
          obtain ⟨rfl, henc⟩ := hbs
          have henc : enc = false := by simpa using henc
          subst henc
          obtain ⟨is, t, h1, h2, h3, h4, h5, h6⟩ := ih _ _ _ _ _ _ hl (fun _ => ⟨hcond.2, rfl⟩) h
          refine ⟨is, 92 :: t, h1, h2, h3, by simpa using h4, by simp only [List.length_cons]; omega, ?_⟩
          rcases h6 with h6 | ⟨h6, h7, h8⟩
          · exact Or.inl (at_cons hp h6)
          · refine Or.inr ⟨at_cons hp h6, ?_, ?_⟩
            · rwa [show n + 1 + t.length = n + (92 :: t).length by simp only [List.length_cons]; omega] at h7
            · rw [List.getLast_cons (by simp)]; exact h8
        · rename_i hbs
          obtain ⟨is, t, h1, h2, h3, h4, h5, h6⟩ := ih _ _ _ _ _ _
            (by simp only [List.length_append, List.length_cons, List.length_nil]; omega)
            (fun h => by cases h) h
          have hlast : (stale :: c :: t).getLast (by simp) = (c :: t).getLast (by simp) :=
            List.getLast_cons (by simp)
          have hpos : n + 1 + t.length = n + (c :: t).length := by simp only [List.length_cons]; omega
          simp only [Bool.false_eq_true, if_false, List.nil_append] at h4
          simp only [List.length_append, List.length_cons, List.length_nil] at h3
          cases enc with
          | true =>
            refine ⟨.esc c :: is, c :: t, ?_, ?_, ?_, ?_, by simp only [List.length_cons]; omega, ?_⟩
            · intro i hi
              rcases List.mem_cons.1 hi with rfl | hi
              · trivial
              · exact h1 i hi
            · rw [h2, if_pos rfl, translateEscape_eq]; simp
            · simp only [List.length_cons]; omega
            · simp [Item.text, h4]
            · rcases h6 with h6 | ⟨h6, h7, h8⟩
              · exact Or.inl (at_cons hp h6)
              · exact Or.inr ⟨at_cons hp h6, hpos ▸ h7, hlast.trans h8⟩
          | false =>
            have hc34 : c ≠ 34 := by simpa using hcond.1
            have hc92 : c ≠ 92 := by intro h; exact hbs ⟨h, rfl⟩
            refine ⟨.raw c :: is, c :: t, ?_, ?_, ?_, ?_, by simp only [List.length_cons]; omega, ?_⟩
            · intro i hi
              rcases List.mem_cons.1 hi with rfl | hi
              · exact ⟨hc34, hc92⟩
              · exact h1 i hi
            · rw [h2]; simp [Item.denotes]
            · simp only [List.length_cons]; omega
            · simp [Item.text, h4]
            · rcases h6 with h6 | ⟨h6, h7, h8⟩
              · exact Or.inl (at_cons hp h6)
              · exact Or.inr ⟨at_cons hp h6, hpos ▸ h7, hlast.trans h8⟩
      · rename_i hcond
        split at h
        · cases h
        · rename_i hc
          have hc : c = 34 := by simpa using hc
          subst hc
          cases h
          cases enc with
          | true => exact absurd ⟨Or.inr rfl, (he rfl).1⟩ hcond
          | false =>
            refine ⟨[], [], by simp, by simp, by simpa using hl, by simp, by simp, Or.inl ?_⟩
            exact at_cons hp (at_nil p _)


theorem dispatch_string {p : Nat → Peek} {f : Nat} (h0 : p 0 = .ok 34) :
    dispatch p f = orElse (tokString p f) (fun r => (.token (.string r.2), r.1)) (
      orElse (tokDouble p f) (fun r => (floatOut r.2.1 r.2.2.2, r.1)) <|
      orElse (tokInteger p f) (fun r => (intOut r.2.1 r.2.2.1 r.2.2.2, r.1)) <|
      orElse (tokSymbol p f) (fun r => (.token (.symbol r.2), r.1)) <|
      orElse (tokChar p) (fun r => (.token (.char r.2), r.1)) (.error, 0)) := by
  unfold dispatch
  rw [tokSyntax_no h0 (by decide)]
  rfl

/-- Reading a string literal yields the characters between the quotes with the
escapes replaced, and uses up exactly the literal. -/
theorem C18_string_literal (is : List Item) (hok : ∀ i ∈ is, i.Ok) (hlen : is.length ≤ 256)
    (rest : List Byte) (ended : Bool) :
    nextToken ⟨strText is ++ rest, ended, false⟩ =
      (.token (.string (is.map Item.denotes)), ⟨rest, ended, false⟩) := by
  have hat := stream_at (s := ⟨strText is ++ rest, ended, false⟩) rfl
  have ht := tokString_ok (f := (strText is ++ rest).length + 2) hok hat hlen
    (by simp only [List.length_append]; omega)
  have hcons : strText is = 34 :: (is.flatMap Item.text ++ [34]) := by simp [strText]
  have hd : dispatch (Stream.peek ⟨strText is ++ rest, ended, false⟩) ((strText is ++ rest).length + 2) =
      (.token (.string (is.map Item.denotes)), (strText is).length) := by
    rw [dispatch_string (hat 0 34 (by rw [hcons]; rfl)), ht]
    rfl
  rw [hcons] at hd ⊢
  rw [nextToken_at (by decide) hd]
  simp only [List.drop_left]

/-- A longer literal is rejected, not cut short. -/
theorem C18_too_long (is : List Item) (hok : ∀ i ∈ is, i.Ok) (hlen : 256 < is.length)
    (rest : List Byte) (ended : Bool) :
    (nextToken ⟨strText is ++ rest, ended, false⟩).1 = .error := by
  have hcons : strText is = 34 :: (is.flatMap Item.text ++ [34]) := by simp [strText]
  have hat := stream_at (s := ⟨strText is ++ rest, ended, false⟩) rfl
  have hat' : At (Stream.peek ⟨strText is ++ rest, ended, false⟩) 0 (34 :: is.flatMap Item.text) := by
    have : strText is = (34 :: is.flatMap Item.text) ++ [34] := by simp [strText]
    exact (At.append (this ▸ hat)).1
  have ht := tokString_long (f := (strText is ++ rest).length + 2) hok hat' hlen
    (by simp only [List.length_append]; omega)
  have hd : dispatch (Stream.peek ⟨strText is ++ rest, ended, false⟩) ((strText is ++ rest).length + 2) =
      (.error, 0) := by
    rw [dispatch_string (hat 0 34 (by rw [hcons]; rfl)), ht]
    rfl
  rw [hcons] at hd ⊢
  rw [nextToken_at (by decide) hd]

theorem stream_take {s : Stream} {cs : List Byte} (h : At s.peek 0 cs) :
    s.avail = cs ++ s.avail.drop cs.length := by
  have : s.avail.take cs.length = cs := by
    apply List.ext_getElem?
    intro i
    by_cases hi : i < cs.length
    · rw [List.getElem?_take, if_pos hi]
      have h1 := h i cs[i] (List.getElem?_eq_getElem hi)
      rw [List.getElem?_eq_getElem hi]
      unfold Stream.peek at h1
      rw [Nat.zero_add] at h1
      cases h2 : s.avail[i]? with
      | none => rw [h2] at h1; cases he : s.ended <;> simp [he] at h1
      | some c => rw [h2] at h1; cases h1; rfl
    · rw [List.getElem?_take, if_neg hi, List.getElem?_eq_none (by omega)]
  rw [← this, List.length_take]
  by_cases hl : cs.length ≤ s.avail.length
  · rw [Nat.min_eq_left hl]; exact (List.take_append_drop _ _).symm
  · rw [Nat.min_eq_right (by omega), List.take_of_length_le (by omega), List.drop_length, List.append_nil]

theorem stream_done {s : Stream} {cs : List Byte} (h : At s.peek 0 cs) (hd : s.peek cs.length = .done) :
    s.ended = true ∧ s.avail = cs := by
  have ht := stream_take h
  unfold Stream.peek at hd
  cases h2 : s.avail[cs.length]? with
  | some c => rw [h2] at hd; cases hd
  | none =>
    rw [h2] at hd
    have hlen : s.avail.length ≤ cs.length := List.getElem?_eq_none_iff.1 h2
    rw [List.drop_eq_nil_of_le hlen, List.append_nil] at ht
    refine ⟨?_, ht⟩
    cases he : s.ended with
    | true => rfl
    | false => simp [he] at hd

theorem getLast_flatMap : ∀ (is : List Item), (∀ i ∈ is, i.Ok) → is ≠ [] →
    ∀ h, (is.flatMap Item.text).getLast h = 34 → is.getLast? = some (.esc 34) := by
  intro is
  induction is with
  | nil => intro _ h; exact absurd rfl h
  | cons i is ih =>
    intro hok _ h hl
    cases is with
    | nil =>
      cases i with
      | raw c => simp [Item.text] at hl; exact absurd hl (hok (.raw c) (by simp)).1
      | esc c => simp [Item.text] at hl; subst hl; rfl
    | cons j js =>
      have hne : (j :: js).flatMap Item.text ≠ [] := by cases j <;> simp [Item.text]
      rw [List.getLast?_cons_cons]
      refine ih (fun k hk => hok k (by simp at hk ⊢; exact Or.inr hk)) (by simp) hne ?_
      rw [← hl]
      simp only [List.flatMap_cons]
      simp only [List.flatMap_cons] at hne
      rw [List.getLast_append_of_ne_nil _ hne]

/-- The full statement would be that only literals are accepted.  What holds: a
string token comes from a literal, except at the end of the input, where also a
lone quote and a literal that lacks its closing quote but ends in an escaped
quote are accepted. -/
theorem C18_only_literals_partial {s : Stream} {f n : Nat} {out : List Byte}
    (h : tokString s.peek f = .ok (n, out)) :
    (∃ is : List Item, (∀ i ∈ is, i.Ok) ∧ is.length ≤ 256 ∧ s.avail = strText is ++ s.avail.drop n ∧
      n = (strText is).length ∧ out = is.map Item.denotes) ∨
    (s.ended = true ∧ ∃ is : List Item, (∀ i ∈ is, i.Ok) ∧ s.avail = 34 :: is.flatMap Item.text ∧
      (is = [] ∨ is.getLast? = some (.esc 34)) ∧ out = is.map Item.denotes) := by
  unfold tokString at h
  cases hp : s.peek 0 with
  | more => simp [peekTok, hp, Bind.bind, R.bind] at h
  | done => simp [peekTok, hp, Bind.bind, R.bind] at h
  | ok c =>
    simp only [peekTok, hp, R_bind_ok] at h
    split at h
    · cases h
    · rename_i hc
      have hc : c = 34 := by simpa using hc
      subst hc
      obtain ⟨is, t, h1, h2, h3, h4, h5, h6⟩ := strLoop_sound _ _ _ _ _ _ _ (by simp) (fun h => by cases h) h
      simp only [Bool.false_eq_true, if_false, List.nil_append] at h4 h2
      subst h4
      rcases h6 with h6 | ⟨h6, h7, h8⟩
      · left
        have hn : n = (strText is).length := by
          simp only [strText, List.length_append, List.length_cons, List.length_nil]; omega
        refine ⟨is, h1, by simpa using h3, ?_, hn, h2⟩
        rw [hn]
        refine stream_take ?_
        have : strText is = 34 :: (is.flatMap Item.text ++ [34]) := by simp [strText]
        rw [this]
        exact at_cons hp h6
      · right
        have hat := at_cons hp h6
        obtain ⟨he, hav⟩ := stream_done hat (by
          rw [List.length_cons, Nat.add_comm]; exact h7)
        refine ⟨he, is, h1, hav, ?_, h2⟩
        cases is with
        | nil => exact Or.inl rfl
        | cons i is =>
          right
          have hne : (i :: is).flatMap Item.text ≠ [] := by cases i <;> simp [Item.text]
          refine getLast_flatMap _ h1 (by simp) hne ?_
          rw [List.getLast_cons hne] at h8
          exact h8

/-- While the channel is open an unterminated literal is never accepted. -/
theorem C18_open_never_accepts {s : Stream} (hs : s.ended = false) {f n : Nat} {out : List Byte}
    (h : tokString s.peek f = .ok (n, out)) :
    ∃ is : List Item, (∀ i ∈ is, i.Ok) ∧ s.avail = strText is ++ s.avail.drop n ∧
      out = is.map Item.denotes := by
  rcases C18_only_literals_partial h with ⟨is, h1, _, h3, _, h5⟩ | ⟨h1, _⟩
  · exact ⟨is, h1, h3, h5⟩
  · rw [hs] at h1; cases h1

/-- A lone quote at the end of the input is read as the empty string. -/
theorem C18_lone_quote_accepted : nextToken ⟨ascii "\"", true, false⟩ =
    (.token (.string []), ⟨[], true, false⟩) := by decide +kernel

/-- `"abc\"` without closing quote is read as the string `abc"`. -/
theorem C18_unterminated_accepted : nextToken ⟨ascii "\"abc\\\"", true, false⟩ =
    (.token (.string (ascii "abc\"")), ⟨[], true, false⟩) := by decide +kernel

/-- An unknown escape drops the character: `"\q"` is read as one backslash. -/
theorem C18_unknown_escape : nextToken ⟨ascii "\"\\q\"", true, false⟩ =
    (.token (.string (ascii "\\")), ⟨[], true, false⟩) := by decide +kernel

example : nextToken ⟨ascii "\"a\\n\\\"b\" c)", false, false⟩ =
    (.token (.string [97, 10, 34, 98]), ⟨ascii " c)", false, false⟩) :=
  C18_string_literal [.raw 97, .esc 110, .esc 34, .raw 98] (by decide) (by decide) (ascii " c)") false

/-! ## A long literal through the buffered channel -/

/-- A literal of more than 254 characters, within the maximum of a string token,
cannot be read through a buffered channel: when the buffer holds the opening
quote and 255 characters of the text the tokenizer asks for more, nothing is
consumed, and every write fails.  Neither side can ever go on. -/
theorem C18_buffered_stuck {r : Ring} {q : Queue} (h : Holds r q) (cs : List Byte)
    (hcs : ∀ c ∈ cs, c ≠ 34 ∧ c ≠ 92) (hl : cs.length = 255) (hq : q.pending = 34 :: cs)
    (hw : q.writerClosed = false) :
    dispatch r.peek (q.pending.length + 2) = (.again, 0) ∧ ∀ c, (r.write c).1 = r := by
  have hat : At (Stream.peek ⟨q.pending, q.writerClosed, false⟩) 0
      (34 :: (cs.map Item.raw).flatMap Item.text) := by
    have : (cs.map Item.raw).flatMap Item.text = cs := by
      clear hcs hl hq
      induction cs with
      | nil => rfl
      | cons c cs ih => simp only [List.map_cons, List.flatMap_cons, ih]; rfl
    rw [this]
    exact stream_at (rest := []) (by simp [hq])
  have hcl : (cs.map Item.raw).flatMap Item.text = cs := by
    clear hcs hl hq hat
    induction cs with
    | nil => rfl
    | cons c cs ih => simp only [List.map_cons, List.flatMap_cons, ih]; rfl
  rw [C19_ring_dispatch h false]
  constructor
  · rw [dispatch_string hat.cons.1]
    obtain ⟨st, e⟩ := items_run (p := Stream.peek ⟨q.pending, q.writerClosed, false⟩) (cs.map Item.raw)
      (by intro i hi; simp at hi; obtain ⟨c, hc, rfl⟩ := hi; exact hcs c hc)
      (q.pending.length + 2) 1 [] 34 hat.cons.2 (by simp; omega)
      (by rw [hcl, hq]; simp only [List.length_cons]; omega)
    have ht : tokString (Stream.peek ⟨q.pending, q.writerClosed, false⟩) (q.pending.length + 2) = .more := by
      unfold tokString
      simp only [peekTok, hat.cons.1, R_bind_ok]
      rw [if_neg (by simp), e, hcl]
      rw [show q.pending.length + 2 - cs.length = 2 + 1 by rw [hq]; simp only [List.length_cons]; omega, strLoop]
      have : Stream.peek ⟨q.pending, q.writerClosed, false⟩ (1 + cs.length) = .more := by
        simp only [Stream.peek, hq, hw]
        rw [List.getElem?_eq_none (by simp only [List.length_cons]; omega)]
        rfl
      rw [this]
    rw [ht]; rfl
  · intro c
    have hfull : r.isFull = true := by
      rw [holds_isFull h, hq]; simp [hl]
    unfold Ring.write
    simp only [hfull, Bool.not_true, Bool.false_eq_true, if_false]
    split <;> rfl


/-- Such a channel: a quote and 255 letters written to a fresh channel. -/
example (g : Nat → Byte) : ∃ r q, Holds r q ∧ q.pending = 34 :: List.replicate 255 97 ∧
    q.writerClosed = false := by
  refine ⟨_, _, (holds_run ((34 :: List.replicate 255 97).map .write) (holds_create g) ?_).1, ?_, ?_⟩
  · intro n hn; obtain ⟨c, _, h⟩ := List.mem_map.1 hn; cases h
  · decide +kernel
  · decide +kernel

/-! ## Symbols -/

theorem symbol_start : ∀ c : Byte, c ∈ symbolStart → symChar0 c = true ∧ numChar c = false ∧ c ≠ 34 ∧
    c ≠ 59 ∧ isSpace c = false ∧ c ≠ 48 ∧ c ≠ 46 ∧ toLower c = lowerCase c ∧
    c ∉ ([40, 41, 91, 93, 46, 95, 39, 96, 44, 63, 123, 125, 64] : List Byte) := by decide +kernel
theorem symbol_rest : ∀ c : Byte, c ∈ symbolRest → symChar c = true ∧ toLower c = lowerCase c ∧
    c ≠ 46 := by decide +kernel

theorem symLoop_run {p : Nat → Peek} : ∀ (cs : List Byte) (f n : Nat) (out : List Byte), At p n cs →
    (∀ c ∈ cs, c ∈ symbolRest) → n + cs.length ≤ 255 → Ends p (n + cs.length) → cs.length < f →
    symLoop p f n out = .ok (n + cs.length, out ++ cs.map lowerCase) := by
  intro cs
  induction cs with
  | nil =>
    intro f n out _ _ _ he hf
    obtain ⟨g, rfl⟩ : ∃ g, f = g + 1 := ⟨f - 1, by simp only [List.length_nil] at hf; omega⟩
    simp only [List.length_nil, Nat.add_zero] at he ⊢
    rcases he with h | ⟨c, h, hc⟩
    · simp [symLoop, h]
    · simp [symLoop, h, (delimiter_facts c hc).2.2.1]
  | cons c cs ih =>
    intro f n out hat hc hl he hf
    simp only [List.length_cons] at hl he hf ⊢
    obtain ⟨g, rfl⟩ : ∃ g, f = g + 1 := ⟨f - 1, by omega⟩
    have hs := symbol_rest c (hc c (by simp))
    rw [show n + (cs.length + 1) = n + 1 + cs.length by omega] at he ⊢
    have := ih g (n + 1) (out ++ [toLower c]) hat.cons.2 (fun d hd => hc d (by simp [hd])) (by omega) he
      (by omega)
    simp only [symLoop, hat.cons.1, hs.1, if_true]
    rw [if_neg (by omega), this, hs.2.1]
    simp

theorem symLoop_long {p : Nat → Peek} : ∀ (cs : List Byte) (f n : Nat) (out : List Byte), At p n cs →
    (∀ c ∈ cs, c ∈ symbolRest) → n ≤ 255 → 255 < n + cs.length → cs.length < f →
    symLoop p f n out = .symErr := by
  intro cs
  induction cs with
  | nil => intro f n out _ _ h1 h2; simp at h2; omega
  | cons c cs ih =>
    intro f n out hat hc hl hl2 hf
    simp only [List.length_cons] at hl2 hf ⊢
    obtain ⟨g, rfl⟩ : ∃ g, f = g + 1 := ⟨f - 1, by omega⟩
    have hs := symbol_rest c (hc c (by simp))
    simp only [symLoop, hat.cons.1, hs.1, if_true]
    split
    · rfl
    · exact ih g (n + 1) _ hat.cons.2 (fun d hd => hc d (by simp [hd])) (by omega) (by omega) (by omega)

/-- Matching a suffix stops at a delimiter. -/
theorem matchStr_ends {p : Nat → Peek} : ∀ (cs ms : List Byte) (n : Nat), At p n cs →
    Ends p (n + cs.length) → (∀ m ∈ ms, ¬ Delimiter m) → ∃ b, matchStr p n ms = .ok b := by
  intro cs
  induction cs with
  | nil =>
    intro ms n _ he hm
    cases ms with
    | nil => exact ⟨true, rfl⟩
    | cons m ms =>
      simp only [List.length_nil, Nat.add_zero] at he
      rcases he with h | ⟨c, h, hc⟩
      · exact ⟨false, by simp [matchStr, h]⟩
      · refine ⟨false, ?_⟩
        have : c ≠ m := by rintro rfl; exact hm c (by simp) hc
        simp only [matchStr, h]
        rw [if_pos this]
  | cons c cs ih =>
    intro ms n hat he hm
    cases ms with
    | nil => exact ⟨true, rfl⟩
    | cons m ms =>
      simp only [matchStr, hat.cons.1]
      split
      · exact ⟨false, rfl⟩
      · refine ih ms (n + 1) hat.cons.2 ?_ (fun k hk => hm k (by simp [hk]))
        rwa [show n + (c :: cs).length = n + 1 + cs.length by simp only [List.length_cons]; omega] at he

theorem matchFixed_ends {p : Nat → Peek} {cs : List Byte} {n : Nat} (hat : At p n cs)
    (he : Ends p (n + cs.length)) : ∀ (ms : List Matcher), (∀ m ∈ ms, ∀ c ∈ m.str, ¬ Delimiter c) →
    matchFixed p n ms = .none ∨ ∃ r, matchFixed p n ms = .ok r := by
  intro ms
  induction ms with
  | nil => intro _; exact Or.inl rfl
  | cons m ms ih =>
    intro hm
    obtain ⟨b, hb⟩ := matchStr_ends cs m.str n hat he (hm m (by simp))
    simp only [matchFixed, hb, R_bind_ok]
    cases b with
    | true => exact Or.inr ⟨_, rfl⟩
    | false => exact ih (fun k hk => hm k (by simp [hk]))

theorem table_no_delimiter : ∀ m ∈ typeQualTable, ∀ c ∈ m.str, ¬ Delimiter c := by decide +kernel

theorem typeSuffix_ends {p : Nat → Peek} {cs : List Byte} {n d : Nat} (hat : At p n cs)
    (he : Ends p (n + cs.length)) : ∃ r, typeSuffix p n d = .ok r := by
  unfold typeSuffix
  rcases matchFixed_ends hat he _ table_no_delimiter with h | ⟨r, h⟩
  · rw [h]; exact ⟨_, rfl⟩
  · rw [h]; exact ⟨_, rfl⟩

/-- The characters of a symbol: the first from `symbolStart`, the others from
`symbolRest`, and no digit after an initial minus sign. -/
def SymbolText : List Byte → Prop
  | [] => False
  | c :: cs => c ∈ symbolStart ∧ (∀ d ∈ cs, d ∈ symbolRest) ∧
      (c = 45 → ∀ d, cs.head? = some d → d ∉ ascii "0123456789")

theorem not_digit : ∀ c : Byte, c ∉ ascii "0123456789" → numChar c = false ∧ c ≠ 48 := by decide +kernel

/-- A symbol is neither a float nor an integer. -/
theorem symbol_not_number {p : Nat → Peek} {f : Nat} {c : Byte} {cs : List Byte}
    (hs : SymbolText (c :: cs)) (hat : At p 0 (c :: cs)) (he : Ends p (c :: cs).length) :
    tokDouble p (f + 1) = .none ∧ tokInteger p (f + 1) = .none := by
  obtain ⟨h1, h2, h3⟩ := hs
  have hc := symbol_start c h1
  have h0 := hat.cons.1
  by_cases hm : c = 45
  · subst hm
    -- the character after the sign
    have hnext : (∃ e, p 1 = .ok e ∧ numChar e = false ∧ e ≠ 46 ∧ e ≠ 48) ∨ p 1 = .done := by
      cases cs with
      | nil =>
        rcases he with h | ⟨e, h, hd⟩
        · exact Or.inr h
        · have := delimiter_facts e hd
          refine Or.inl ⟨e, h, this.1, this.2.2.2.1, ?_⟩
          intro h; subst h; exact absurd this.1 (by decide)
      | cons d cs =>
        have hd := not_digit d (h3 rfl d rfl)
        exact Or.inl ⟨d, hat.cons.2.cons.1, hd.1, (symbol_rest d (h2 d (by simp))).2.2, hd.2⟩
    have he' : Ends p (1 + cs.length) := by rw [Nat.add_comm]; exact he
    obtain ⟨tr, htr⟩ := typeSuffix_ends (d := 101) hat.cons.2 (by simpa using he')
    rcases hnext with ⟨e, hp, hn, hne, hz⟩ | hp
    · constructor
      · unfold tokDouble
        simp only [peekTok, h0, R_bind_ok, decide_true, if_true, hp, digitLoop_no hn]
        rw [if_pos hne]
      · have hx : isHex p 1 = .ok false := by simp only [isHex, hp]; rw [if_neg hz]
        have hd : digits p (f + 1) false 1 45 = .ok (1, 0) := by
          simp only [digits, decDigits, peekKeep, hp, R_bind_ok, digitLoop_no hn, Bool.false_eq_true, if_false]
        unfold tokInteger
        simp only [peekTok, h0, R_bind_ok, decide_true, if_true, hx, hd]
        rw [if_neg (by simp), htr]
        rfl
    · constructor
      · unfold tokDouble
        simp only [peekTok, h0, R_bind_ok, decide_true, if_true, hp]
        rfl
      · have hx : isHex p 1 = .ok false := by simp only [isHex, hp]
        have hd : digits p (f + 1) false 1 45 = .ok (1, 0) := by
          simp only [digits, decDigits, peekKeep, hp, R_bind_ok, Bool.false_eq_true, if_false]
          rw [digitLoop_no (by decide)]
          rfl
        unfold tokInteger
        simp only [peekTok, h0, R_bind_ok, decide_true, if_true, hx, hd]
        rw [if_neg (by simp), htr]
        rfl
  · constructor
    · unfold tokDouble
      simp only [peekTok, h0, R_bind_ok, hm, decide_false, Bool.false_eq_true, if_false, digitLoop_no hc.2.1]
      rw [if_pos hc.2.2.2.2.2.2.1]
    · have hx : isHex p 0 = .ok false := by simp only [isHex, h0]; rw [if_neg hc.2.2.2.2.2.1]
      have hd : digits p (f + 1) false 0 c = .ok (0, 0) := by
        simp only [digits, decDigits, peekKeep, h0, R_bind_ok, digitLoop_no hc.2.1, Bool.false_eq_true, if_false]
      unfold tokInteger
      simp only [peekTok, h0, R_bind_ok, hm, decide_false, Bool.false_eq_true, if_false, hx, hd]
      rfl

/-- Reading a symbol yields its name in lower case and uses up exactly the name. -/
theorem C52_symbol (cs : List Byte) (hs : SymbolText cs) (hlen : cs.length ≤ 255) (rest : List Byte)
    (ended : Bool) (hr : FollowedBy rest ended) :
    nextToken ⟨cs ++ rest, ended, false⟩ =
      (.token (.symbol (cs.map lowerCase)), ⟨rest, ended, false⟩) := by
  cases cs with
  | nil => exact hs.elim
  | cons c cs =>
    have hat := stream_at (s := ⟨c :: cs ++ rest, ended, false⟩) rfl
    have he := stream_ends (s := ⟨c :: cs ++ rest, ended, false⟩) rfl hr
    have hc := symbol_start c hs.1
    obtain ⟨hd, hi⟩ := symbol_not_number (f := (c :: cs ++ rest).length + 1) hs hat he
    have hsym : tokSymbol (Stream.peek ⟨c :: cs ++ rest, ended, false⟩) ((c :: cs ++ rest).length + 2) =
        .ok ((c :: cs).length, (c :: cs).map lowerCase) := by
      have := symLoop_run cs ((c :: cs ++ rest).length + 2) 1 [toLower c] hat.cons.2 hs.2.1
        (by simp only [List.length_cons] at hlen; omega) (by rw [Nat.add_comm]; exact he)
        (by simp only [List.length_append, List.length_cons]; omega)
      unfold tokSymbol
      simp only [peekTok, hat.cons.1, R_bind_ok, hc.1, Bool.not_true, Bool.false_eq_true, if_false]
      rw [this, hc.2.2.2.2.2.2.2.1]
      simp only [List.length_cons, List.map_cons, List.singleton_append]
      rw [Nat.add_comm]
    refine (nextToken_at ⟨hc.2.2.2.1, hc.2.2.2.2.1⟩ (o := .token (.symbol ((c :: cs).map lowerCase)))
      (n := (c :: cs).length) ?_).trans (by simp only [List.drop_left])
    unfold dispatch
    rw [tokSyntax_no hat.cons.1 hc.2.2.2.2.2.2.2.2, tokString_no hat.cons.1 hc.2.2.1, hd, hi, hsym]
    rfl

/-- A longer name is rejected, not cut short. -/
theorem C52_symbol_too_long (cs : List Byte) (hs : SymbolText cs) (hlen : 255 < cs.length)
    (rest : List Byte) (ended : Bool) (hr : FollowedBy rest ended) :
    (nextToken ⟨cs ++ rest, ended, false⟩).1 = .error := by
  cases cs with
  | nil => exact hs.elim
  | cons c cs =>
    have hat := stream_at (s := ⟨c :: cs ++ rest, ended, false⟩) rfl
    have he := stream_ends (s := ⟨c :: cs ++ rest, ended, false⟩) rfl hr
    have hc := symbol_start c hs.1
    obtain ⟨hd, hi⟩ := symbol_not_number (f := (c :: cs ++ rest).length + 1) hs hat he
    have hsym : tokSymbol (Stream.peek ⟨c :: cs ++ rest, ended, false⟩) ((c :: cs ++ rest).length + 2) =
        .symErr := by
      unfold tokSymbol
      simp only [peekTok, hat.cons.1, R_bind_ok, hc.1, Bool.not_true, Bool.false_eq_true, if_false]
      exact symLoop_long cs ((c :: cs ++ rest).length + 2) 1 [toLower c] hat.cons.2 hs.2.1
        (by omega) (by simp only [List.length_cons] at hlen; omega)
        (by simp only [List.length_append, List.length_cons]; omega)
    rw [nextToken_at ⟨hc.2.2.2.1, hc.2.2.2.2.1⟩ (o := .error) (n := 0) ?_]
    unfold dispatch
    rw [tokSyntax_no hat.cons.1 hc.2.2.2.2.2.2.2.2, tokString_no hat.cons.1 hc.2.2.1, hd, hi, hsym]
    rfl

example : nextToken ⟨ascii "-Foo? 1", false, false⟩ =
    (.token (.symbol (ascii "-foo?")), ⟨ascii " 1", false, false⟩) :=
  C52_symbol (ascii "-Foo?") ⟨by decide, by decide, by decide⟩ (by decide) (ascii " 1") false
    (by decide +kernel)

end Verif.Tok
