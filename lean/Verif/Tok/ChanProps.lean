import Verif.Tok.ChanSpec

/-!
# Property C16 and C51: character channels
-/

namespace Verif.Tok

/-- The ring buffer holds the queue. -/
structure Holds (st : Ring) (q : Queue) : Prop where
  rp : st.readPos < 257
  len : q.pending.length ≤ 256
  wp : st.writePos = (st.readPos + q.pending.length) % 257
  get : ∀ i (h : i < q.pending.length), st.buffer ((st.readPos + i) % 257) = q.pending[i]
  more : st.more = !q.writerClosed
  rc : st.readerClosed = q.readerClosed
  row : st.row = rowAfter q.consumed
  column : st.column = columnAfter q.consumed

theorem holds_isEmpty {st : Ring} {q : Queue} (h : Holds st q) :
    st.isEmpty = q.pending.isEmpty := by
  have h1 := h.rp; have h2 := h.len; have h3 := h.wp
  rw [Bool.eq_iff_iff]
  simp only [Ring.isEmpty, beq_iff_eq, List.isEmpty_iff, ← List.length_eq_zero_iff]
  omega

theorem holds_isFull {st : Ring} {q : Queue} (h : Holds st q) :
    st.isFull = decide (q.pending.length = 256) := by
  have h1 := h.rp; have h2 := h.len; have h3 := h.wp
  rw [Bool.eq_iff_iff]
  simp only [Ring.isFull, bufSize, Bool.or_eq_true, Bool.and_eq_true, beq_iff_eq, decide_eq_true_eq]
  omega

theorem rowAfter_snoc (t : List Byte) (c : Byte) : rowAfter (t ++ [c]) =
    if c = 10 then (rowAfter t + 1) % 2 ^ 32 else rowAfter t := by
  simp only [rowAfter, List.count_append]
  by_cases h : c = 10
  · subst h; simp; omega
  · rw [if_neg h, List.count_singleton, if_neg (by simpa using h), Nat.add_zero]

theorem columnAfter_snoc (t : List Byte) (c : Byte) : columnAfter (t ++ [c]) =
    if c = 10 then 0 else (columnAfter t + 1) % 2 ^ 32 := by
  simp only [columnAfter]
  by_cases h : c = 10
  · subst h
    simp
  · rw [if_neg h]
    have hm : (10 : Byte) ∈ t ++ [c] ↔ (10 : Byte) ∈ t := by
      simp only [List.mem_append, List.mem_singleton]
      exact ⟨fun h' => h'.resolve_right (fun e => h e.symm), Or.inl⟩
    simp only [hm, List.reverse_append, List.reverse_cons, List.reverse_nil, List.nil_append,
      List.singleton_append, List.length_append, List.length_singleton]
    split
    · rw [List.takeWhile_cons_of_pos (by simpa using h)]
      simp
    · omega

theorem holds_read {st : Ring} {q : Queue} (h : Holds st q) :
    Holds st.read.1 (q.step .read).1 ∧ Obs.char st.read.2 = (q.step .read).2 := by
  have he := holds_isEmpty h
  cases hp : q.pending with
  | nil =>
    have e1 : st.read = (st, none) := by simp [Ring.read, he, hp]
    have e2 : q.step .read = (q, .char none) := by simp [Queue.step, hp]
    rw [e1, e2]; exact ⟨h, rfl⟩
  | cons c r =>
    have hc : st.buffer st.readPos = c := by
      have := h.get 0 (by rw [hp]; simp)
      rw [Nat.add_zero, Nat.mod_eq_of_lt h.rp] at this
      simpa [hp] using this
    have h1 := h.rp; have h2 := h.len; have h3 := h.wp
    have hget := h.get
    simp only [hp, List.length_cons] at h2 h3 hget
    have e2 : q.step .read =
        ({ q with pending := r, consumed := q.consumed ++ [c] }, .char (some c)) := by
      simp [Queue.step, hp]
    have e1 : st.read = ({ st with
        column := (if c = 10 then 0 else (st.column + 1) % 2 ^ 32),
        row := (if c = 10 then (st.row + 1) % 2 ^ 32 else st.row),
        readPos := (st.readPos + 1) % 257 }, some c) := by
      simp [Ring.read, he, hp, hc, bufSize]
    rw [e1, e2]
    refine ⟨⟨?_, ?_, ?_, ?_, h.more, h.rc, ?_, ?_⟩, rfl⟩
    · exact Nat.mod_lt _ (by decide)
    · simp only []; omega
    · simp only []; omega
    · intro i hi
      have := hget (i + 1) (by simp only [] at hi; omega)
      simp only [List.getElem_cons_succ] at this
      simp only []
      rw [← this]
      congr 1
      omega
    · simp only [rowAfter_snoc, h.row]
    · simp only [columnAfter_snoc, h.column]

theorem holds_drop : ∀ n {st : Ring} {q : Queue}, Holds st q →
    Holds (st.drop n).1 (q.step (.drop n)).1 ∧ Obs.flag (st.drop n).2 = (q.step (.drop n)).2 := by
  intro n
  induction n with
  | zero => intro st q h; simpa [Ring.drop, Queue.step] using h
  | succ n ih =>
    intro st q h
    have hr := holds_read h
    cases hp : q.pending with
    | nil =>
      have e2 : q.step .read = (q, .char none) := by simp [Queue.step, hp]
      rw [e2] at hr
      rcases hst : st.read with ⟨st1, o1⟩
      rw [hst] at hr
      cases o1 with
      | some x => simp at hr
      | none =>
        have e1 : st.drop (n + 1) = (st1, false) := by simp [Ring.drop, hst]
        have e3 : q.step (.drop (n + 1)) = (q, .flag false) := by
          cases q; simp only at hp; subst hp; simp [Queue.step]
        rw [e1, e3]; exact ⟨hr.1, rfl⟩
    | cons c r =>
      have e2 : q.step .read =
          ({ q with pending := r, consumed := q.consumed ++ [c] }, .char (some c)) := by
        simp [Queue.step, hp]
      rw [e2] at hr
      rcases hst : st.read with ⟨st1, o1⟩
      rw [hst] at hr
      cases o1 with
      | none => simp at hr
      | some x =>
        have e1 : st.drop (n + 1) = st1.drop n := by simp [Ring.drop, hst]
        have e3 : q.step (.drop (n + 1)) =
            ({ q with pending := r, consumed := q.consumed ++ [c] } : Queue).step (.drop n) := by
          simp [Queue.step, hp]
        rw [e1, e3]; exact ih hr.1

theorem holds_write {st : Ring} {q : Queue} (h : Holds st q) (c : Byte) :
    Holds (st.write c).1 (q.step (.write c)).1 ∧
      Obs.code (st.write c).2 = (q.step (.write c)).2 := by
  by_cases hc : q.readerClosed
  · have e1 : st.write c = (st, 1000) := by simp [Ring.write, h.rc, hc]
    have e2 : q.step (.write c) = (q, .code 1000) := by simp [Queue.step, hc]
    rw [e1, e2]; exact ⟨h, rfl⟩
  · have hf := holds_isFull h
    by_cases hl : q.pending.length = 256
    · have e1 : st.write c = (st, 4) := by simp [Ring.write, h.rc, hc, hf, hl]
      have e2 : q.step (.write c) = (q, .code 4) := by simp [Queue.step, hc, hl]
      rw [e1, e2]; exact ⟨h, rfl⟩
    · have e1 : st.write c = ({ st with
          buffer := (fun i => if i = st.writePos then c else st.buffer i),
          writePos := (st.writePos + 1) % 257 }, 1) := by
        simp [Ring.write, h.rc, hc, hf, hl, bufSize]
      have e2 : q.step (.write c) = ({ q with pending := q.pending ++ [c] }, .code 1) := by
        simp [Queue.step, hc, hl]
      have h1 := h.rp; have h2 := h.len; have h3 := h.wp
      rw [e1, e2]
      refine ⟨⟨h1, ?_, ?_, ?_, h.more, h.rc, h.row, h.column⟩, rfl⟩
      · simp only [List.length_append, List.length_singleton]; omega
      · simp only [List.length_append, List.length_singleton]; omega
      · intro i hi
        simp only [List.length_append, List.length_singleton] at hi
        simp only []
        by_cases hil : i = q.pending.length
        · subst hil
          rw [if_pos h3.symm]; simp
        · rw [if_neg (by omega), h.get i (by omega), List.getElem_append_left]

theorem holds_peek {st : Ring} {q : Queue} (h : Holds st q) (n : Nat) (hn : n ≤ 256) :
    st.peek n = match q.pending[n]? with
      | some c => .ok c
      | none => if q.writerClosed then .done else .more := by
  have h1 := h.rp; have h2 := h.len; have h3 := h.wp
  have hpos : ((st.readPos + n) % 2 ^ 32) % 257 = (st.readPos + n) % 257 := by omega
  have hin : (if st.writePos ≥ st.readPos then
      (st.readPos + n) % 257 < st.writePos ∧ (st.readPos + n) % 257 ≥ st.readPos
    else ¬((st.readPos + n) % 257 ≥ st.writePos ∧ (st.readPos + n) % 257 < st.readPos)) ↔
      n < q.pending.length := by
    split <;> omega
  simp only [Ring.peek, bufSize, hpos, hin]
  by_cases hl : n < q.pending.length
  · rw [if_pos hl, List.getElem?_eq_getElem hl, h.get n hl]
  · rw [if_neg hl, List.getElem?_eq_none (by omega), h.more]
    cases q.writerClosed <;> simp

/-- The peeks of an operation sequence look at most 256 characters ahead. -/
def PeeksInRange (ops : List Op) : Prop := ∀ n, Op.peek n ∈ ops → n ≤ 256

theorem holds_step {st : Ring} {q : Queue} (h : Holds st q) (o : Op)
    (ho : ∀ n, o = .peek n → n ≤ 256) :
    Holds (st.step o).1 (q.step o).1 ∧ (st.step o).2 = (q.step o).2 := by
  cases o with
  | write c => exact holds_write h c
  | read => exact holds_read h
  | drop n => exact holds_drop n h
  | peek n =>
    refine ⟨h, ?_⟩
    simp only [Ring.step, Queue.step, holds_peek h n (ho n rfl)]
    rfl
  | closeWriter => exact ⟨⟨h.rp, h.len, h.wp, h.get, rfl, h.rc, h.row, h.column⟩, rfl⟩
  | closeReader => exact ⟨⟨h.rp, h.len, h.wp, h.get, h.more, rfl, h.row, h.column⟩, rfl⟩
  | isEmpty => exact ⟨h, by simp only [Ring.step, Queue.step, holds_isEmpty h]⟩
  | isFull => exact ⟨h, by simp only [Ring.step, Queue.step, holds_isFull h]⟩
  | row => exact ⟨h, by simp only [Ring.step, Queue.step, h.row]⟩
  | column => exact ⟨h, by simp only [Ring.step, Queue.step, h.column]⟩

theorem holds_create (g : Nat → Byte) : Holds (Ring.create g) ⟨[], [], false, false⟩ := by
  constructor <;> simp [Ring.create, rowAfter, columnAfter]

theorem holds_run (ops : List Op) : ∀ {st : Ring} {q : Queue}, Holds st q → PeeksInRange ops →
    Holds (run Ring.step st ops).1 (run Queue.step q ops).1 ∧
      (run Ring.step st ops).2 = (run Queue.step q ops).2 := by
  induction ops with
  | nil => intro st q h _; exact ⟨h, rfl⟩
  | cons o os ih =>
    intro st q h hp
    have h1 := holds_step h o (fun n e => hp n (by simp [e]))
    have h2 := ih h1.1 (fun n hn => hp n (by simp [hn]))
    simp only [run]
    exact ⟨h2.1, by rw [h1.2, h2.2]⟩

/-- **C16 (partial).**  For every sequence of operations on a fresh buffered
channel, whatever its buffer contained, everything the operations report is what
the queue of capacity 256 reports.

Missing: peeks further than 256 characters ahead, and columns counted alike on
the first and later lines; see the two `violated` theorems. -/
theorem C16_bounded_fifo_partial (garbage : Nat → Byte) (ops : List Op) (h : PeeksInRange ops) :
    (run Ring.step (Ring.create garbage) ops).2 = (run Queue.step ⟨[], [], false, false⟩ ops).2 :=
  (holds_run ops (holds_create garbage) h).2

example : PeeksInRange [.write 97, .write 10, .peek 1, .read, .drop 2, .row, .column] := by
  intro n hn; simp at hn; omega

/-- The characters a sequence of operations wrote successfully. -/
def written : List Op → List Obs → List Byte
  | .write c :: os, .code 1 :: rs => c :: written os rs
  | _ :: os, _ :: rs => written os rs
  | _, _ => []

theorem run_conserves (ops : List Op) : ∀ q : Queue,
    (run Queue.step q ops).1.consumed ++ (run Queue.step q ops).1.pending =
      q.consumed ++ q.pending ++ written ops (run Queue.step q ops).2 := by
  induction ops with
  | nil => intro q; simp [run, written]
  | cons o os ih =>
    intro q
    simp only [run]
    rw [ih]
    cases o with
    | write c =>
      simp only [Queue.step]
      by_cases h1 : q.readerClosed
      · simp [h1, written]
      · by_cases h2 : q.pending.length = 256
        · simp [h1, h2, written]
        · simp [h1, h2, written]
    | read =>
      simp only [Queue.step]
      cases hp : q.pending <;> simp [hp, written]
    | drop n => simp [Queue.step, written]
    | _ => simp [Queue.step, written]

/-- The characters that reads delivered. -/
def delivered : List Obs → List Byte
  | .char (some c) :: rs => c :: delivered rs
  | _ :: rs => delivered rs
  | [] => []

theorem run_delivered (ops : List Op) (hd : ∀ n, Op.drop n ∉ ops) : ∀ q : Queue,
    (run Queue.step q ops).1.consumed = q.consumed ++ delivered (run Queue.step q ops).2 := by
  induction ops with
  | nil => intro q; simp [run, delivered]
  | cons o os ih =>
    intro q
    simp only [run]
    rw [ih (fun n hn => hd n (by simp [hn]))]
    cases o with
    | write c =>
      simp only [Queue.step]
      by_cases h1 : q.readerClosed
      · simp [h1, delivered]
      · by_cases h2 : q.pending.length = 256
        · simp [h1, h2, delivered]
        · simp [h1, h2, delivered]
    | read =>
      simp only [Queue.step]
      cases hp : q.pending <;> simp [delivered]
    | drop n => exact absurd (by simp) (hd n)
    | _ => simp [Queue.step, delivered]

/-- **C16.**  Nothing is lost, duplicated or reordered: the characters that reads
delivered are a prefix of the characters that were written successfully. -/
theorem C16_reads_in_order (garbage : Nat → Byte) (ops : List Op) (h : PeeksInRange ops)
    (hd : ∀ n, Op.drop n ∉ ops) :
    delivered (run Ring.step (Ring.create garbage) ops).2 <+:
      written ops (run Ring.step (Ring.create garbage) ops).2 := by
  rw [C16_bounded_fifo_partial garbage ops h]
  have h1 := run_conserves ops ⟨[], [], false, false⟩
  have h2 := run_delivered ops hd ⟨[], [], false, false⟩
  simp only [List.nil_append] at h1 h2
  rw [h2] at h1
  exact ⟨_, h1⟩

/-- **C16 fails** for peeks beyond the capacity: with one character pending,
looking 257 characters ahead finds that character again. -/
theorem C16_far_peek_violated (garbage : Nat → Byte) :
    (run Ring.step (Ring.create garbage) [.write 97, .peek 257]).2 = [.code 1, .peek (.ok 97)] ∧
    (run Queue.step ⟨[], [], false, false⟩ [.write 97, .peek 257]).2 = [.code 1, .peek .more] :=
  ⟨by simp [run, Ring.step, Ring.create, Ring.write, Ring.isFull, Ring.peek, bufSize],
   by simp [run, Queue.step]⟩

/-- **C16 fails** for columns: after the first line they are counted from 0,
so the first character of a text and the first character of a later line report
different columns. -/
theorem C16_column_violated (garbage : Nat → Byte) :
    (run Ring.step (Ring.create garbage) [.column, .write 10, .read, .column]).2 =
      [.num 1, .code 1, .char (some 10), .num 0] := by
  simp [run, Ring.step, Ring.create, Ring.write, Ring.isFull, Ring.read, Ring.isEmpty, bufSize]

/-! ## String channels -/

/-- The operations of the reader of a string channel. -/
inductive SOp where
  | read
  | drop (n : Nat)

/-- Run reads and drops on a string channel. -/
def StrChan.run (st : StrChan) : List SOp → StrChan
  | [] => st
  | .read :: os => st.read.1.run os
  | .drop n :: os => (st.drop n).1.run os

/-- How many characters reads and drops ask for. -/
def asked : List SOp → Nat
  | [] => 0
  | .read :: os => 1 + asked os
  | .drop n :: os => n + asked os

theorem str_read (st : StrChan) (h : st.readPos ≤ st.str.length) :
    st.read.1.str = st.str ∧ st.read.1.readPos = min (st.readPos + 1) st.str.length := by
  unfold StrChan.read
  by_cases hl : st.readPos < st.str.length
  · rw [List.getElem?_eq_getElem hl]
    simp only []
    split
    · exact ⟨rfl, by simp only []; omega⟩
    · split <;> exact ⟨rfl, by simp only []; omega⟩
  · rw [List.getElem?_eq_none (by omega)]
    exact ⟨rfl, by simp only []; omega⟩

theorem str_drop : ∀ n (st : StrChan), st.readPos ≤ st.str.length →
    (st.drop n).1.str = st.str ∧ (st.drop n).1.readPos = min (st.readPos + n) st.str.length := by
  intro n
  induction n with
  | zero => intro st h; simp only [StrChan.drop]; exact ⟨trivial, by omega⟩
  | succ n ih =>
    intro st h
    have h1 := str_read st h
    have h2 := ih st.read.1 (by rw [h1.1, h1.2]; omega)
    simp only [StrChan.drop]
    rw [h2.1, h2.2, h1.1, h1.2]
    exact ⟨rfl, by omega⟩

theorem str_run : ∀ os (st : StrChan), st.readPos ≤ st.str.length →
    (st.run os).str = st.str ∧ (st.run os).readPos = min (st.readPos + asked os) st.str.length := by
  intro os
  induction os with
  | nil => intro st h; simp only [StrChan.run, asked]; exact ⟨trivial, by omega⟩
  | cons o os ih =>
    intro st h
    cases o with
    | read =>
      have h1 := str_read st h
      have h2 := ih st.read.1 (by rw [h1.1, h1.2]; omega)
      simp only [StrChan.run, asked]
      rw [h2.1, h2.2, h1.1, h1.2]
      exact ⟨rfl, by omega⟩
    | drop n =>
      have h1 := str_drop n st h
      have h2 := ih (st.drop n).1 (by rw [h1.1, h1.2]; omega)
      simp only [StrChan.run, asked]
      rw [h2.1, h2.2, h1.1, h1.2]
      exact ⟨rfl, by omega⟩

/-- **C51.**  After any sequence of reads and drops on a string channel, peeking
`n` ahead yields the character of the text at that distance from what has been
consumed, and the end of the channel exactly when the text has no such
character. -/
theorem C51_string_channel (text : List Byte) (os : List SOp) (n : Nat)
    (hsize : text.length + n < 2 ^ 32) :
    ((StrChan.create text).run os).peek n =
      match (text.drop (asked os))[n]? with
      | some c => .ok c
      | none => .done := by
  have h := str_run os (StrChan.create text) (by simp [StrChan.create])
  have hs : (StrChan.create text).str = text := rfl
  have hr : (StrChan.create text).readPos = 0 := rfl
  rw [hs, hr] at h
  simp only [StrChan.peek, h.1, h.2]
  rw [Nat.mod_eq_of_lt (by omega), List.getElem?_drop]
  by_cases ha : 0 + asked os ≤ text.length
  · rw [Nat.min_eq_left ha, Nat.zero_add]; rfl
  · rw [List.getElem?_eq_none (by omega), List.getElem?_eq_none (by omega)]

example : ((StrChan.create [40, 97, 41]).run [.read, .drop 1]).peek 0 = .ok 41 := rfl

/-- **C51 fails** for reading at the end: it reports success although there is
no character (the caller's variable keeps its old value). -/
theorem C51_read_at_end_violated : (StrChan.create []).read.2 = (true, none) := rfl

end Verif.Tok
