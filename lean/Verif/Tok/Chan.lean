/-!
# Character channels

Model of `src/lbm_channel.c`: the buffered channel (a ring buffer written by
another thread, every operation under the channel's mutex) and the string
channel.
-/

namespace Verif.Tok

abbrev Byte := BitVec 8

/-- Outcome of a peek: `CHANNEL_SUCCESS` with the character, `CHANNEL_MORE`,
`CHANNEL_END` (lbm_channel.h:32-35). -/
inductive Peek where
  | ok (c : Byte)
  | more
  | done
  deriving DecidableEq, Repr

/-- `TOKENIZER_BUFFER_SIZE` (lbm_channel.h:30). -/
def bufSize : Nat := 257

/-- `lbm_buffered_channel_state_t` (lbm_channel.h:41-54) without the mutex: every
operation below runs under it (`writer_close`, `reader_close` and the flags are
single stores and are not). -/
structure Ring where
  buffer : Nat → Byte
  writePos : Nat
  readPos : Nat
  more : Bool
  comment : Bool
  readerClosed : Bool
  row : Nat
  column : Nat

/-- `lbm_create_buffered_char_channel` (lbm_channel.c:225-262).  The contents of
the buffer are whatever was there. -/
def Ring.create (garbage : Nat → Byte) : Ring where
  buffer := garbage
  writePos := 0
  readPos := 0
  more := true
  comment := false
  readerClosed := false
  row := 1
  column := 1

/-- `buffered_peek` (lbm_channel.c:112-137); `read_pos + n` is computed in
`unsigned int`. -/
def Ring.peek (st : Ring) (n : Nat) : Peek :=
  let peekPos := ((st.readPos + n) % 2 ^ 32) % bufSize
  let inData :=
    if st.writePos ≥ st.readPos then peekPos < st.writePos ∧ peekPos ≥ st.readPos
    else ¬(peekPos ≥ st.writePos ∧ peekPos < st.readPos)
  if inData then .ok (st.buffer peekPos)
  else if !st.more then .done
  else .more

/-- `buffered_channel_is_empty` (lbm_channel.c:139-145). -/
def Ring.isEmpty (st : Ring) : Bool := st.readPos == st.writePos

/-- `buffered_channel_is_full` (lbm_channel.c:147-155): for `read_pos == 0` the
first comparison is with `UINT_MAX`. -/
def Ring.isFull (st : Ring) : Bool :=
  st.writePos == (st.readPos + (2 ^ 32 - 1)) % 2 ^ 32 ||
    (st.readPos == 0 && st.writePos == bufSize - 1)

/-- `buffered_read` (lbm_channel.c:157-174). -/
def Ring.read (st : Ring) : Ring × Option Byte :=
  if !st.isEmpty then
    let c := st.buffer st.readPos
    let column := if c = 10 then 0 else (st.column + 1) % 2 ^ 32
    let row := if c = 10 then (st.row + 1) % 2 ^ 32 else st.row
    ({ st with column, row, readPos := (st.readPos + 1) % bufSize }, some c)
  else (st, none)

/-- `buffered_drop` (lbm_channel.c:176-185). -/
def Ring.drop (st : Ring) : Nat → Ring × Bool
  | 0 => (st, true)
  | n + 1 =>
    match st.read with
    | (st1, some _) => st1.drop n
    | (st1, none) => (st1, false)

/-- `buffered_write` (lbm_channel.c:187-200): 1 `CHANNEL_SUCCESS`, 4
`CHANNEL_FULL`, 1000 `CHANNEL_READER_CLOSED`. -/
def Ring.write (st : Ring) (c : Byte) : Ring × Nat :=
  if st.readerClosed then (st, 1000)
  else if !st.isFull then
    ({ st with buffer := fun i => if i = st.writePos then c else st.buffer i,
               writePos := (st.writePos + 1) % bufSize }, 1)
  else (st, 4)

/-- `buffered_writer_close` (lbm_channel.c:97-100). -/
def Ring.writerClose (st : Ring) : Ring := { st with more := false }
/-- `buffered_reader_close` (lbm_channel.c:102-105). -/
def Ring.readerClose (st : Ring) : Ring := { st with readerClosed := true }
/-- `buffered_set_comment` (lbm_channel.c:217-220). -/
def Ring.setComment (st : Ring) (b : Bool) : Ring := { st with comment := b }

/-! ## String channel -/

/-- `lbm_string_channel_state_t` (lbm_channel.h:58-68).  `str` are the `length`
characters of the string; the terminating 0 is not part of it. -/
structure StrChan where
  str : List Byte
  readPos : Nat
  writePos : Nat
  more : Bool
  comment : Bool
  row : Nat
  column : Nat

/-- `lbm_create_string_char_channel` (lbm_channel.c:394-426) and `…_size`
(lbm_channel.c:428-459) with `str` being the first `size` characters. -/
def StrChan.create (str : List Byte) : StrChan where
  str := str
  readPos := 0
  writePos := 0
  more := false
  comment := false
  row := 1
  column := 1

/-- `string_peek` (lbm_channel.c:293-304). -/
def StrChan.peek (st : StrChan) (n : Nat) : Peek :=
  match st.str[(st.readPos + n) % 2 ^ 32]? with
  | some c => .ok c
  | none => .done

/-- `string_channel_is_empty` (lbm_channel.c:306-312). -/
def StrChan.isEmpty (st : StrChan) : Bool := st.readPos == st.str.length

/-- `string_read` (lbm_channel.c:322-341).  It returns true also at the end of
the string, without storing a character: `(st, true, none)`. -/
def StrChan.read (st : StrChan) : StrChan × Bool × Option Byte :=
  match st.str[st.readPos]? with
  | some c =>
    if c = 10 then
      ({ st with row := (st.row + 1) % 2 ^ 32, column := 1, readPos := st.readPos + 1 }, true, some c)
    else if c = 0 then ({ st with more := false, readPos := st.readPos + 1 }, true, some c)
    else ({ st with column := (st.column + 1) % 2 ^ 32, readPos := st.readPos + 1 }, true, some c)
  | none => ({ st with more := false }, true, none)

/-- `string_drop` (lbm_channel.c:343-354); the result is always true. -/
def StrChan.drop (st : StrChan) : Nat → StrChan × Bool
  | 0 => (st, true)
  | n + 1 => st.read.1.drop n

end Verif.Tok
