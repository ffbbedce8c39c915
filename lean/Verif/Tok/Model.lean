import Verif.Tok.Chan
import Verif.Val.Model

/-!
# Tokenizer

Model of `src/tokpar.c` and of the token dispatch in `cont_read_next_token`
(eval_cps.c:3747-4070).  A tokenizer sees the channel only through
`lbm_channel_peek`, so the channel is a function `p : Nat → Peek`.
-/

namespace Verif.Tok

/-- Result of a tokenizer.  `none`, `more`, `strErr`, `charErr`, `symErr` are the
non-positive return values (tokpar.h:61-65), `ub` a write outside of a buffer,
`fuel` says that the loop bound of the model was too small. -/
inductive R (α : Type) where
  | ok (a : α)
  | none
  | more
  | strErr
  | charErr
  | symErr
  | ub
  | fuel
  deriving DecidableEq, Repr

/-- Sequencing: every outcome but `ok` ends the tokenizer. -/
def R.bind {α β : Type} (x : R α) (f : α → R β) : R β :=
  match x with
  | .ok a => f a
  | .none => .none
  | .more => .more
  | .strErr => .strErr
  | .charErr => .charErr
  | .symErr => .symErr
  | .ub => .ub
  | .fuel => .fuel

instance : Monad R where
  pure := .ok
  bind := R.bind

/-- `r = peek(n,&c); if MORE return NEED_MORE; if END return NO_TOKEN`. -/
def peekTok (p : Nat → Peek) (n : Nat) : R Byte :=
  match p n with
  | .ok c => .ok c
  | .more => .more
  | .done => .none

/-- `matcher` (tokpar.c:34-38); `len` is the length of `str`. -/
structure Matcher where
  str : List Byte
  token : Nat

/-- ASCII text. -/
def ascii (s : String) : List Byte := s.toList.map fun c => BitVec.ofNat 8 c.toNat

/-- `fixed_size_tokens` (tokpar.c:68-84): sixteen entries are declared and fifteen
given, so that the last one is all zero: it matches nothing with length 0. -/
def fixedSizeTokens : List Matcher :=
  [⟨[40], 1⟩, ⟨[41], 2⟩, ⟨[91], 3⟩, ⟨[93], 4⟩, ⟨[46], 5⟩, ⟨[95], 6⟩, ⟨[39], 7⟩, ⟨[96], 8⟩,
   ⟨[44, 64], 9⟩, ⟨[44], 10⟩, ⟨[63], 11⟩, ⟨[123], 12⟩, ⟨[125], 13⟩,
   ⟨[64, 99, 111, 110, 115, 116, 45, 115, 116, 97, 114, 116], 14⟩,  -- @const-start
   ⟨[64, 99, 111, 110, 115, 116, 45, 101, 110, 100], 15⟩,           -- @const-end
   ⟨[], 0⟩]

/-- `type_qual_table` (tokpar.c:86-97): f64 f32 i64 u64 i32 u32 i u b. -/
def typeQualTable : List Matcher :=
  [⟨[102, 54, 52], 108⟩, ⟨[102, 51, 50], 107⟩, ⟨[105, 54, 52], 105⟩, ⟨[117, 54, 52], 106⟩,
   ⟨[105, 51, 50], 103⟩, ⟨[117, 51, 50], 104⟩, ⟨[105], 101⟩, ⟨[117], 102⟩, ⟨[98], 100⟩]

/-- The inner loop of `tok_match_fixed_size_tokens` (tokpar.c:106-115):
`.ok true` match, `.ok false` break. -/
def matchStr (p : Nat → Peek) : (pos : Nat) → List Byte → R Bool
  | _, [] => .ok true
  | pos, m :: ms =>
    match p pos with
    | .ok c => if c ≠ m then .ok false else matchStr p (pos + 1) ms
    | .more => .more
    | .done => .ok false

/-- `tok_match_fixed_size_tokens` (tokpar.c:99-123): length and token. -/
def matchFixed (p : Nat → Peek) (start : Nat) : List Matcher → R (Nat × Nat)
  | [] => .none
  | m :: ms => do
    if ← matchStr p start m.str then pure (m.str.length, m.token)
    else matchFixed p start ms

/-- `tok_syntax` (tokpar.c:125-127). -/
def tokSyntax (p : Nat → Peek) : R (Nat × Nat) := matchFixed p 0 fixedSizeTokens

/-- `alpha_char` (tokpar.c:129-132). -/
def alphaChar (c : Byte) : Bool :=
  (0x61 ≤ c.toNat && c.toNat ≤ 0x7A) || (0x41 ≤ c.toNat && c.toNat ≤ 0x5A)
/-- `num_char` (tokpar.c:134-136). -/
def numChar (c : Byte) : Bool := 0x30 ≤ c.toNat && c.toNat ≤ 0x39
/-- `symchar0` (tokpar.c:138-148): letters and `+-*/=<>#!`. -/
def symChar0 (c : Byte) : Bool :=
  alphaChar c || ([43, 45, 42, 47, 61, 60, 62, 35, 33] : List Byte).contains c
/-- `symchar` (tokpar.c:150-160): letters, digits and `+-*/=<>!?_`. -/
def symChar (c : Byte) : Bool :=
  alphaChar c || numChar c || ([43, 45, 42, 47, 61, 60, 62, 33, 63, 95] : List Byte).contains c
/-- `tolower` in the C locale. -/
def toLower (c : Byte) : Byte := if 0x41 ≤ c.toNat && c.toNat ≤ 0x5A then c + 32 else c

/-- The loop of `tok_symbol` (tokpar.c:178-189): length and `tokpar_sym_str`. -/
def symLoop (p : Nat → Peek) : (fuel len : Nat) → List Byte → R (Nat × List Byte)
  | 0, _, _ => .fuel
  | fuel + 1, len, out =>
    match p len with
    | .ok c =>
      if symChar c then
        if len ≥ 255 then .symErr else symLoop p fuel (len + 1) (out ++ [toLower c])
      else .ok (len, out)
    | .more => .more
    | .done => .ok (len, out)

/-- `tok_symbol` (tokpar.c:162-192). -/
def tokSymbol (p : Nat → Peek) (fuel : Nat) : R (Nat × List Byte) := do
  let c ← peekTok p 0
  if !symChar0 c then .none else symLoop p fuel 1 [toLower c]

/-- `translate_escape_char` (tokpar.c:194-204). -/
def translateEscape (c : Byte) : Byte :=
  if c = 92 then 92 else if c = 110 then 10 else if c = 114 then 13 else if c = 116 then 9
  else if c = 48 then 0 else if c = 34 then 34 else 92

/-- The loop of `tok_string` and what follows it (tokpar.c:223-245).  `stale` is
the value of `c` from before the peek at `n`: at the end of the input it is still
what the final test looks at. -/
def strLoop (p : Nat → Peek) : (fuel n : Nat) → List Byte → (stale : Byte) → (encode : Bool) →
    R (Nat × List Byte)
  | 0, _, _, _, _ => .fuel
  | fuel + 1, n, out, stale, encode =>
    match p n with
    | .more => .more
    | .done => if stale ≠ 34 then .strErr else .ok (n + 1, out)
    | .ok c =>
      if (c ≠ 34 ∨ encode) ∧ out.length < 256 then
        if c = 92 ∧ !encode then strLoop p fuel (n + 1) out c true
        else strLoop p fuel (n + 1) (out ++ [if encode then translateEscape c else c]) c false
      else if c ≠ 34 then .strErr
      else .ok (n + 1, out)

/-- `tok_string` (tokpar.c:206-245).  The stale character at the first peek of the
loop is the opening quote itself. -/
def tokString (p : Nat → Peek) (fuel : Nat) : R (Nat × List Byte) := do
  let c ← peekTok p 0
  if c ≠ 34 then .none else strLoop p fuel 1 [] 34 false

/-- `special_chars` (tokpar.c:54-66). -/
def specialChars : List (Byte × Byte) :=
  [(97, 7), (98, 8), (116, 9), (110, 10), (118, 11), (102, 12), (114, 13), (101, 27), (115, 32),
   (92, 92), (100, 127)]

/-- `tok_char` (tokpar.c:247-284). -/
def tokChar (p : Nat → Peek) : R (Nat × Byte) := do
  let c ← peekTok p 0
  if c ≠ 92 then .none else
  let c ← peekTok p 1
  if c ≠ 35 then .none else
  let c ← peekTok p 2
  if c = 92 then
    let c ← peekTok p 3
    match specialChars.find? (·.1 == c) with
    | some e => pure (4, e.2)
    | none => .charErr
  else pure (3, c)

/-- The loops of `tok_double` and `tok_integer`:
`while (cond(c)) { body; n++; res = peek(n,&c); if MORE return NEED_MORE; if END break; }`
(tokpar.c:311-317, 330-336, 345-351, 461-477, 481-487).  Yields `n`, the last
value of `c` and the state of the body. -/
def digitLoop {σ : Type} (p : Nat → Peek) (cond : Byte → Bool) (body : σ → Nat → Byte → R σ) :
    (fuel n : Nat) → Byte → σ → R (Nat × Byte × σ)
  | 0, _, _, _ => .fuel
  | fuel + 1, n, c, s =>
    if cond c then do
      let s' ← body s n c
      match p (n + 1) with
      | .more => .more
      | .done => pure (n + 1, c, s')
      | .ok c' => digitLoop p cond body fuel (n + 1) c' s'
    else pure (n, c, s)

/-- `fbuf[n] = c` with `char fbuf[128]` (tokpar.c:289). -/
def fput (buf : List Byte) (n : Nat) (c : Byte) : R (List Byte) :=
  if n < 128 then .ok (buf ++ [c]) else .ub

/-- The type suffix after a number; `type_len` is 0 when there is none
(tokpar.c:354-362, 491-498). -/
def typeSuffix (p : Nat → Peek) (n default : Nat) : R (Nat × Nat) :=
  match matchFixed p n typeQualTable with
  | .none => .ok (0, default)
  | r => r

/-- The exponent of a float (tokpar.c:338-352). -/
def exponent (p : Nat → Peek) (fuel n : Nat) (c : Byte) (buf : List Byte) : R (Nat × List Byte) :=
  if c = 101 then do
    let buf ← fput buf n c
    let c ← peekTok p (n + 1)
    if !(numChar c || c == 45) then .none else
    let r ← digitLoop p (fun c => numChar c || c == 45) fput fuel (n + 1) c buf
    .ok (r.1, r.2.2)
  else .ok (n, buf)

/-- `tok_double` (tokpar.c:286-379): length, type, sign and the text handed to
`strtod`. -/
def tokDouble (p : Nat → Peek) (fuel : Nat) : R (Nat × Nat × Bool × List Byte) := do
  let c0 ← peekTok p 0
  let neg := decide (c0 = 45)
  let n0 := if neg then 1 else 0
  let c ← peekTok p n0
  let i ← digitLoop p numChar fput fuel n0 c (if neg then [45] else [])
  if i.2.1 ≠ 46 then .none else
  let buf ← fput i.2.2 i.1 i.2.1
  let c ← peekTok p (i.1 + 1)
  if !numChar c then .none else
  let f ← digitLoop p numChar fput fuel (i.1 + 1) c buf
  let e ← exponent p fuel f.1 f.2.1 f.2.2
  let t ← typeSuffix p e.1 107
  if e.1 > 127 then .none
  else if (neg && e.1 > 1) || (!neg && e.1 > 0) then .ok (e.1 + t.1, t.2, neg, e.2)
  else .none

/-- `[0-9a-fA-F]` (tokpar.c:461-463). -/
def hexChar (c : Byte) : Bool :=
  numChar c || (0x61 ≤ c.toNat && c.toNat ≤ 0x66) || (0x41 ≤ c.toNat && c.toNat ≤ 0x46)

/-- The digit value (tokpar.c:465-471). -/
def hexVal (c : Byte) : Nat :=
  if 0x61 ≤ c.toNat && c.toNat ≤ 0x66 then 10 + (c.toNat - 0x61)
  else if 0x41 ≤ c.toNat && c.toNat ≤ 0x46 then 10 + (c.toNat - 0x41)
  else c.toNat - 0x30

/-- Does `0x` or `0X` follow (tokpar.c:443-453)? -/
def isHex (p : Nat → Peek) (n : Nat) : R Bool :=
  match p n with
  | .ok c =>
    if c = 48 then
      match p (n + 1) with
      | .ok c => .ok (c == 120 || c == 88)
      | .more => .more
      | .done => .ok false
    else .ok false
  | .more => .more
  | .done => .ok false

/-- Hexadecimal digits (tokpar.c:455-478). -/
def hexDigits (p : Nat → Peek) (fuel n : Nat) : R (Nat × BitVec 64) := do
  let c ← peekTok p n
  let r ← digitLoop p hexChar
    (fun (acc : BitVec 64) _ c => .ok (acc * 16 + BitVec.ofNat 64 (hexVal c))) fuel n c 0
  .ok (r.1, r.2.2)

/-- `peek(n,&c)` where `c` keeps its value `c0` at the end of the input. -/
def peekKeep (p : Nat → Peek) (n : Nat) (c0 : Byte) : R Byte :=
  match p n with
  | .ok c => .ok c
  | .more => .more
  | .done => .ok c0

/-- Decimal digits (tokpar.c:479-488). -/
def decDigits (p : Nat → Peek) (fuel n : Nat) (c0 : Byte) : R (Nat × BitVec 64) := do
  let c ← peekKeep p n c0
  let r ← digitLoop p numChar
    (fun (acc : BitVec 64) _ c => .ok (acc * 10 + BitVec.ofNat 64 (c.toNat - 48))) fuel n c 0
  .ok (r.1, r.2.2)

/-- The digits in either base (tokpar.c:455-488). -/
def digits (p : Nat → Peek) (fuel : Nat) (hex : Bool) (n : Nat) (c0 : Byte) : R (Nat × BitVec 64) :=
  if hex then hexDigits p fuel (n + 2) else decDigits p fuel n c0

/-- `tok_integer` (tokpar.c:422-508): length, type, sign and the accumulated
`uint64_t`. -/
def tokInteger (p : Nat → Peek) (fuel : Nat) : R (Nat × Nat × Bool × BitVec 64) := do
  let c0 ← peekTok p 0
  let neg := decide (c0 = 45)
  let n := if neg then 1 else 0
  let hex ← isHex p n
  let r ← digits p fuel hex n c0
  if r.1 = 0 then .none else
  let t ← typeSuffix p r.1 101
  if (neg && r.1 > 1) || !neg then .ok (r.1 + t.1, t.2, neg, r.2)
  else .none

/-! ## The token dispatch of the reader -/

/-- What the reader sees of a channel: the characters that are available, and
whether the writer has closed. -/
structure Stream where
  avail : List Byte
  ended : Bool
  comment : Bool
  deriving DecidableEq, Repr

/-- `lbm_channel_peek` of such a channel. -/
def Stream.peek (s : Stream) (n : Nat) : Peek :=
  match s.avail[n]? with
  | some c => .ok c
  | none => if s.ended then .done else .more

/-- `isspace` in the C locale. -/
def isSpace (c : Byte) : Bool := c = 32 || (9 ≤ c.toNat && c.toNat ≤ 13)

/-- `tok_clean_whitespace` (tokpar.c:381-420), its two loops fused: the boolean
result, the comment flag and the characters left. -/
def cleanLoop (ended : Bool) : (comment : Bool) → List Byte → Bool × Bool × List Byte
  | true, [] => if ended then (true, false, []) else (false, true, [])
  | true, c :: r => cleanLoop ended (c != 10) r
  | false, [] => (ended, false, [])
  | false, c :: r =>
    if c = 59 then cleanLoop ended true r
    else if isSpace c then cleanLoop ended false r
    else (true, false, c :: r)

/-- `tok_clean_whitespace` on a stream. -/
def cleanWhitespace (s : Stream) : Bool × Stream :=
  let (ok, comment, rest) := cleanLoop s.ended s.comment s.avail
  (ok, ⟨rest, s.ended, comment⟩)

/-- A token.  For a float the text handed to `strtod`; for an integer the
accumulated value and its sign. -/
inductive Token where
  | syntax (t : Nat)
  | string (s : List Byte)
  | float (type : Nat) (text : List Byte)
  | int (type : Nat) (neg : Bool) (value : BitVec 64)
  | symbol (s : List Byte)
  | char (c : Byte)
  deriving DecidableEq, Repr

/-- Outcome of one run of the token dispatch. -/
inductive Out where
  | token (t : Token)
  /-- `yield_ctx` with `READ_NEXT_TOKEN` pushed again -/
  | again
  /-- `read_finish` -/
  | finished
  /-- `read_error_ctx` -/
  | error
  | ub
  | fuel
  deriving DecidableEq, Repr

/-- The switch on the type of a float token (eval_cps.c:3911-3920). -/
def floatOut (type : Nat) (text : List Byte) : Out :=
  if type = 107 ∨ type = 108 then .token (.float type text) else .error

/-- The switch on the type of an integer token (eval_cps.c:3933-3957). -/
def intOut (type : Nat) (neg : Bool) (v : BitVec 64) : Out :=
  if 100 ≤ type ∧ type ≤ 106 then .token (.int type neg v) else .error

/-- `n = tok(...); if (n > 0) {...} else if (n < 0) goto retry_token;` and then the
next tokenizer.  `retry_token` waits for more input after `TOKENIZER_NEED_MORE`
and reports a read error after every other negative value (eval_cps.c:4061-4069). -/
def orElse {α : Type} (r : R α) (use : α → Out × Nat) (next : Out × Nat) : Out × Nat :=
  match r with
  | .ok a => use a
  | .none => next
  | .more => (.again, 0)
  | .ub => (.ub, 0)
  | .fuel => (.fuel, 0)
  | .strErr | .charErr | .symErr => (.error, 0)

/-- A syntax token of length 0 is no token: `n > 0` (eval_cps.c:3796). -/
def positive (r : R (Nat × Nat)) : R (Nat × Nat) :=
  match r with
  | .ok (0, _) => .none
  | r => r

/-- The tokenizers in the order `cont_read_next_token` tries them
(eval_cps.c:3788-4070): the outcome and the number of characters to drop. -/
def dispatch (p : Nat → Peek) (fuel : Nat) : Out × Nat :=
  orElse (positive (tokSyntax p)) (fun r => (.token (.syntax r.2), r.1)) <|
  orElse (tokString p fuel) (fun r => (.token (.string r.2), r.1)) <|
  orElse (tokDouble p fuel) (fun r => (floatOut r.2.1 r.2.2.2, r.1)) <|
  orElse (tokInteger p fuel) (fun r => (intOut r.2.1 r.2.2.1 r.2.2.2, r.1)) <|
  orElse (tokSymbol p fuel) (fun r => (.token (.symbol r.2), r.1)) <|
  orElse (tokChar p) (fun r => (.token (.char r.2), r.1)) (.error, 0)

/-- `cont_read_next_token` (eval_cps.c:3747-4070) as far as the channel is
concerned; `lbm_channel_drop` removes what is there. -/
def nextToken (s : Stream) : Out × Stream :=
  if s.ended && s.avail.isEmpty then (.finished, s)
  else
    match cleanWhitespace s with
    | (false, s1) => (.again, s1)
    | (true, s1) =>
      if s1.ended && s1.avail.isEmpty then (.finished, s1)
      else
        let (o, n) := dispatch s1.peek (s1.avail.length + 2)
        (o, { s1 with avail := s1.avail.drop n })

end Verif.Tok
