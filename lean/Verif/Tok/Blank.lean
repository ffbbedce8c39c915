import Verif.Tok.Safety

/-!
# C54: white space and comments separate tokens and mean nothing else
-/

namespace Verif.Tok

/-- A piece of text without meaning: a white space character, or a comment up to
and including the end of its line. -/
inductive Blank where
  | space (c : Byte)
  | comment (text : List Byte)

def Blank.Ok : Blank → Prop
  | .space c => c ∈ ([32, 9, 10, 11, 12, 13] : List Byte)
  | .comment t => 10 ∉ t

def Blank.text : Blank → List Byte
  | .space c => [c]
  | .comment t => [59] ++ t ++ [10]

theorem space_char : ∀ c : Byte, c ∈ ([32, 9, 10, 11, 12, 13] : List Byte) →
    c ≠ 59 ∧ isSpace c = true := by decide +kernel

theorem clean_comment (e : Bool) (rest : List Byte) : ∀ t : List Byte, 10 ∉ t →
    cleanLoop e true (t ++ 10 :: rest) = cleanLoop e false rest := by
  intro t
  induction t with
  | nil => intro _; simp [cleanLoop]
  | cons c t ih =>
    intro h
    simp only [List.mem_cons, not_or] at h
    have hc : (c != 10) = true := by simpa using fun h' => h.1 h'.symm
    simp only [List.cons_append, cleanLoop, hc]
    exact ih h.2

theorem clean_blank (e : Bool) (b : Blank) (hb : b.Ok) (rest : List Byte) :
    cleanLoop e false (b.text ++ rest) = cleanLoop e false rest := by
  cases b with
  | space c =>
    have := space_char c hb
    simp only [Blank.text, List.singleton_append, cleanLoop]
    rw [if_neg this.1, if_pos this.2]
  | comment t =>
    simp only [Blank.text, List.cons_append, List.nil_append, List.append_assoc, cleanLoop, if_true]
    exact clean_comment e rest t hb

theorem clean_blanks (e : Bool) (rest : List Byte) : ∀ bs : List Blank, (∀ b ∈ bs, b.Ok) →
    cleanLoop e false (bs.flatMap Blank.text ++ rest) = cleanLoop e false rest := by
  intro bs
  induction bs with
  | nil => intro _; rfl
  | cons b bs ih =>
    intro h
    rw [List.flatMap_cons, List.append_assoc, clean_blank e b (h b (by simp))]
    exact ih (fun c hc => h c (by simp [hc]))

/-- White space and comments before a token make no difference: token, remaining
text and outcome are those of the text after them. -/
theorem C54_blanks_ignored (bs : List Blank) (hb : ∀ b ∈ bs, b.Ok) (rest : List Byte) (e : Bool)
    (hr : rest ≠ []) : nextToken ⟨bs.flatMap Blank.text ++ rest, e, false⟩ = nextToken ⟨rest, e, false⟩ := by
  have h := clean_blanks e rest bs hb
  have h1 : (e && (bs.flatMap Blank.text ++ rest).isEmpty) = false := by
    cases hl : bs.flatMap Blank.text ++ rest with
    | nil => exact absurd (List.append_eq_nil_iff.1 hl).2 hr
    | cons => simp
  have h2 : (e && rest.isEmpty) = false := by
    cases rest with
    | nil => exact absurd rfl hr
    | cons => simp
  simp only [nextToken, cleanWhitespace, h, h1, h2, Bool.false_eq_true, if_false]

/-- Blanks up to the end of the input: the reader is finished. -/
theorem C54_only_blanks (bs : List Blank) (hb : ∀ b ∈ bs, b.Ok) :
    (nextToken ⟨bs.flatMap Blank.text, true, false⟩).1 = .finished := by
  have h := clean_blanks true [] bs hb
  rw [List.append_nil] at h
  simp only [nextToken, cleanWhitespace, h]
  split
  · rfl
  · simp [cleanLoop]

/-- A comment ends the token before it and is itself skipped. -/
example : lexAll (ascii "(a ; not (read\n 1)") =
    ([.syntax 1, .symbol (ascii "a"), .int 101 false 1, .syntax 2], .finished) := by decide +kernel

example : nextToken ⟨ascii "  ; hello \" (\n\t7 8", false, false⟩ = nextToken ⟨ascii "7 8", false, false⟩ :=
  C54_blanks_ignored [.space 32, .space 32, .comment (ascii " hello \" ("), .space 9]
    (by intro b hb; simp at hb; rcases hb with rfl | rfl | rfl <;> (unfold Blank.Ok; decide))
    (ascii "7 8") false (by decide)

end Verif.Tok
