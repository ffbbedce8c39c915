import Verif.Tok.ChanProps

/-!
# Property C51: the position a string channel reports
-/

namespace Verif.Tok

/-- The column after a text on a string channel: one more than the number of
characters after the last newline, as an `unsigned int`. -/
def strColumnAfter (text : List Byte) : Nat :=
  (1 + (text.reverse.takeWhile (· != 10)).length) % 2 ^ 32

theorem strColumnAfter_snoc (t : List Byte) (c : Byte) : strColumnAfter (t ++ [c]) =
    if c = 10 then 1 else (strColumnAfter t + 1) % 2 ^ 32 := by
  simp only [strColumnAfter, List.reverse_append, List.reverse_cons, List.reverse_nil,
    List.nil_append, List.singleton_append]
  by_cases h : c = 10
  · subst h
    simp
  · rw [if_neg h, List.takeWhile_cons_of_pos (by simpa using h), List.length_cons]
    omega

/-- The channel reads this text and stands where the consumed part ends. -/
structure StrAt (text : List Byte) (st : StrChan) : Prop where
  str : st.str = text
  pos : st.readPos ≤ text.length
  row : st.row = rowAfter (text.take st.readPos)
  column : st.column = strColumnAfter (text.take st.readPos)

theorem at_read {text : List Byte} (hz : (0 : Byte) ∉ text) {st : StrChan} (h : StrAt text st) :
    StrAt text st.read.1 := by
  obtain ⟨hs, hp, hr, hc⟩ := h
  unfold StrChan.read
  by_cases hl : st.readPos < text.length
  · have hg : st.str[st.readPos]? = some text[st.readPos] := by
      rw [hs, List.getElem?_eq_getElem hl]
    have ht : text.take (st.readPos + 1) = text.take st.readPos ++ [text[st.readPos]] := by
      rw [List.take_succ_eq_append_getElem hl]
    have h0 : text[st.readPos] ≠ 0 := fun e => hz (e ▸ List.getElem_mem hl)
    rw [hg]
    simp only []
    by_cases h10 : text[st.readPos] = 10
    · rw [if_pos h10]
      exact ⟨hs, by simp only []; omega,
        by simp only [ht, rowAfter_snoc, if_pos h10, hr],
        by simp only [ht, strColumnAfter_snoc, if_pos h10]⟩
    · rw [if_neg h10, if_neg h0]
      exact ⟨hs, by simp only []; omega,
        by simp only [ht, rowAfter_snoc, if_neg h10, hr],
        by simp only [ht, strColumnAfter_snoc, if_neg h10, hc]⟩
  · have hg : st.str[st.readPos]? = none := by rw [hs, List.getElem?_eq_none (by omega)]
    rw [hg]
    exact ⟨hs, hp, hr, hc⟩

theorem at_drop {text : List Byte} (hz : (0 : Byte) ∉ text) : ∀ n {st : StrChan}, StrAt text st →
    StrAt text (st.drop n).1 := by
  intro n
  induction n with
  | zero => intro st h; exact h
  | succ n ih => intro st h; exact ih (at_read hz h)

theorem at_run {text : List Byte} (hz : (0 : Byte) ∉ text) : ∀ os {st : StrChan}, StrAt text st →
    StrAt text (st.run os) := by
  intro os
  induction os with
  | nil => intro st h; exact h
  | cons o os ih =>
    intro st h
    cases o with
    | read => exact ih (at_read hz h)
    | drop n => exact ih (at_drop hz n h)

/-- **C51 (position).**  After any sequence of reads and drops on a string
channel the row is one more than the number of newlines consumed, and the
column is one more than the number of characters consumed since the last of
them. -/
theorem C51_position (text : List Byte) (hz : (0 : Byte) ∉ text) (os : List SOp) :
    ((StrChan.create text).run os).row = (1 + (text.take (asked os)).count 10) % 2 ^ 32 ∧
    ((StrChan.create text).run os).column =
      (1 + ((text.take (asked os)).reverse.takeWhile (· != 10)).length) % 2 ^ 32 := by
  have h0 : StrAt text (StrChan.create text) :=
    ⟨rfl, by simp [StrChan.create], by simp [StrChan.create, rowAfter],
      by simp [StrChan.create, strColumnAfter]⟩
  have h := at_run hz os h0
  have hp := (str_run os (StrChan.create text) (by simp [StrChan.create])).2
  have hs : (StrChan.create text).str = text := rfl
  have hr0 : (StrChan.create text).readPos = 0 := rfl
  rw [hs, hr0, Nat.zero_add] at hp
  have ht : text.take ((StrChan.create text).run os).readPos = text.take (asked os) := by
    rw [hp]
    by_cases ha : asked os ≤ text.length
    · rw [Nat.min_eq_left ha]
    · rw [Nat.min_eq_right (by omega), List.take_length, List.take_of_length_le (by omega)]
  have hr := h.row
  have hc := h.column
  rw [ht] at hr hc
  exact ⟨hr, hc⟩

/-- The hypotheses are met: after `a`, newline, `b` the channel stands in row 2,
column 2. -/
example : (0 : Byte) ∉ [97, 10, 98, 99] ∧
    ((StrChan.create [97, 10, 98, 99]).run [.read, .drop 2]).row = 2 ∧
    ((StrChan.create [97, 10, 98, 99]).run [.read, .drop 2]).column = 2 := by decide

end Verif.Tok
