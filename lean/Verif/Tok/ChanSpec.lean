import Verif.Tok.Chan

/-!
# Specification of character channels: a bounded queue
-/

namespace Verif.Tok

/-- A queue of characters: what is still to be read and what has been read. -/
structure Queue where
  pending : List Byte
  consumed : List Byte
  writerClosed : Bool
  readerClosed : Bool

/-- The operations of a channel. -/
inductive Op where
  | write (c : Byte)
  | read
  | peek (n : Nat)
  | drop (n : Nat)
  | closeWriter
  | closeReader
  | isEmpty
  | isFull
  | row
  | column

/-- What an operation reports. -/
inductive Obs where
  | code (n : Nat)
  | char (c : Option Byte)
  | peek (r : Peek)
  | flag (b : Bool)
  | num (n : Nat)
  | unit
  deriving DecidableEq

/-- Line number after a text, counted from 1, as an `unsigned int`. -/
def rowAfter (text : List Byte) : Nat := (1 + text.count 10) % 2 ^ 32

/-- Number of characters after the last newline of a text; the first line
counts one more (the code starts at column 1 but restarts at column 0). -/
def columnAfter (text : List Byte) : Nat :=
  if (10 : Byte) ∈ text then (text.reverse.takeWhile (· != 10)).length % 2 ^ 32
  else (text.length + 1) % 2 ^ 32

/-- The queue of capacity 256. -/
def Queue.step (q : Queue) : Op → Queue × Obs
  | .write c =>
    if q.readerClosed then (q, .code 1000)
    else if q.pending.length = 256 then (q, .code 4)
    else ({ q with pending := q.pending ++ [c] }, .code 1)
  | .read =>
    match q.pending with
    | [] => (q, .char none)
    | c :: r => ({ q with pending := r, consumed := q.consumed ++ [c] }, .char (some c))
  | .peek n =>
    (q, .peek (match q.pending[n]? with
      | some c => .ok c
      | none => if q.writerClosed then .done else .more))
  | .drop n =>
    ({ q with pending := q.pending.drop n, consumed := q.consumed ++ q.pending.take n },
      .flag (n ≤ q.pending.length))
  | .closeWriter => ({ q with writerClosed := true }, .unit)
  | .closeReader => ({ q with readerClosed := true }, .unit)
  | .isEmpty => (q, .flag q.pending.isEmpty)
  | .isFull => (q, .flag (q.pending.length = 256))
  | .row => (q, .num (rowAfter q.consumed))
  | .column => (q, .num (columnAfter q.consumed))

/-- The same operations on the ring buffer. -/
def Ring.step (st : Ring) : Op → Ring × Obs
  | .write c => let r := st.write c; (r.1, .code r.2)
  | .read => let r := st.read; (r.1, .char r.2)
  | .peek n => (st, .peek (st.peek n))
  | .drop n => let r := st.drop n; (r.1, .flag r.2)
  | .closeWriter => (st.writerClose, .unit)
  | .closeReader => (st.readerClose, .unit)
  | .isEmpty => (st, .flag st.isEmpty)
  | .isFull => (st, .flag st.isFull)
  | .row => (st, .num st.row)
  | .column => (st, .num st.column)

/-- Run a sequence of operations and collect what they report. -/
def run {σ : Type} (step : σ → Op → σ × Obs) : σ → List Op → σ × List Obs
  | s, [] => (s, [])
  | s, o :: os =>
    let r := step s o
    let r' := run step r.1 os
    (r'.1, r.2 :: r'.2)

end Verif.Tok
