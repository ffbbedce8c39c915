/-
Model of the word memory allocator, /repo/src/lbm_memory.c.

The arena is a list of two-bit statuses, one per word (the packed bitmap that stores
them is modelled in `Verif.Mem.Bitmap`, where it is shown to behave as this list).
Machine words (`lbm_uint`) are natural numbers below `2^w`; `w` is 32 or 64 depending
on the build.  Subtraction and addition on them wrap.

Pointers are word indices into the arena (`address_to_bitmap_ix`, lbm_memory.c:106-112,
`bitmap_ix_to_address`, 123-125).  Simplification: pointers that are not aligned to a
word are identified with the word they point into, exactly as the shift in
`address_to_bitmap_ix` does.  The mutex is not modelled: every function runs under it.
-/
namespace Verif.Mem

/-- Status codes, lbm_memory.c:23-26 (`FREE_OR_USED` 0, `END` 1, `START` 2, `START_END` 3). -/
inductive St where
  | freeOrUsed | end_ | start | startEnd
  deriving DecidableEq, Repr

/-- Wrapping subtraction of machine words of `w` bits. -/
def wsub (w a b : Nat) : Nat := (a + 2 ^ w - b) % 2 ^ w

/-- Wrapping addition of machine words of `w` bits. -/
def wadd (w a b : Nat) : Nat := (a + b) % 2 ^ w

/-- The allocator's static variables, lbm_memory.c:40-52.  `bm` is the bitmap (its length is
`bitmap_size << BITMAP_SIZE_SHIFT`, equal to `memory_size` by the check in
`lbm_memory_init`), `off` is `alloc_offset`. `gcReq` records whether `lbm_request_gc` was
called (the flag set by eval_cps.c:`lbm_request_gc`). -/
structure Mem where
  w : Nat
  bm : List St
  off : Nat
  numFree : Nat
  minFree : Nat
  reserve : Nat
  gcReq : Bool
  deriving DecidableEq, Repr

/-- `lbm_memory_init`, lbm_memory.c:54-96, successful branch.  `reserve` is the value of
`(lbm_uint)(0.1 * (lbm_float)data_size)`; the floating point computation is a parameter. -/
def init (w size reserve : Nat) : Mem :=
  { w := w, bm := List.replicate size .freeOrUsed, off := 0, numFree := size, minFree := size,
    reserve := reserve, gcReq := false }

/-- `lbm_memory_set_reserve`, lbm_memory.c:98-100. -/
def setReserve (m : Mem) (n : Nat) : Mem := { m with reserve := n }

/-- `lbm_memory_update_min_free`, lbm_memory.c:173-176. -/
def updateMinFree (m : Mem) : Mem :=
  if m.numFree < m.minFree then { m with minFree := m.numFree } else m

/-- `lbm_memory_maximum_used`, lbm_memory.c:169-171. -/
def maximumUsed (m : Mem) : Nat := wsub m.w m.bm.length m.minFree

/-- `status`, lbm_memory.c:136-147.  An index outside the bitmap is an out-of-bounds read
(undefined behaviour), represented by `none`. -/
def status (m : Mem) (i : Nat) : Option St := m.bm[i]?

/-- `set_status`, lbm_memory.c:149-159. -/
def setStatus (m : Mem) (i : Nat) (s : St) : Mem := { m with bm := m.bm.set i s }

/-- States of the scan automaton, lbm_memory.c:28-33; `start_ix`, `end_ix` and `free_length`
are attached to the states in which they are meaningful. -/
inductive Scan where
  | init
  | lengthCheck (startIx freeLength : Nat)
  | skip
  | done (startIx endIx : Nat)
  deriving DecidableEq, Repr

/-- One iteration of the `switch` in `lbm_memory_allocate_internal`, lbm_memory.c:244-284. -/
def scanStep (n pos : Nat) (st : St) (s : Scan) : Scan :=
  match st with
  | .freeOrUsed =>
    match s with
    | .init => if n = 1 then .done pos pos else .lengthCheck pos 1
    | .lengthCheck a k => if k + 1 = n then .done a pos else .lengthCheck a (k + 1)
    | .skip => .skip
    | .done a b => .done a b
  | .end_ => .init
  | .start => .skip
  | .startEnd => .init

/-- The `for` loop of `lbm_memory_allocate_internal`, lbm_memory.c:243-291.  `fuel` is the
number of iterations left.  Returns the final offset and automaton state. `none` is an
out-of-bounds bitmap access. -/
def scanLoop (n : Nat) (bm : List St) : (fuel off : Nat) → Scan → Option (Nat × Scan)
  | 0, off, s => some (off, s)
  | fuel + 1, off, s =>
    match bm[off]? with
    | none => none
    | some st =>
      match scanStep n off st s with
      | .done a b => some (off, .done a b)
      | s' => if off + 1 = bm.length then scanLoop n bm fuel 0 .init
              else scanLoop n bm fuel (off + 1) s'

/-- `lbm_memory_allocate_internal`, lbm_memory.c:229-307.  The result is the index of the
first word of the block, or `none` for NULL.  The outer `Option` is `none` when the code
reads outside the bitmap (shown not to happen). -/
def allocateInternal (m : Mem) (n : Nat) : Option (Mem × Option Nat) :=
  match scanLoop n m.bm m.bm.length m.off .init with
  | none => none
  | some (off, .done a b) =>
    let m : Mem := { m with off := off }
    let m := if a = b then setStatus m a .startEnd
             else setStatus (setStatus m a .start) b .end_
    some ({ m with numFree := wsub m.w m.numFree n }, some a)
  | some (off, _) => some ({ m with off := off }, none)

/-- `lbm_memory_allocate`, lbm_memory.c:309-315. -/
def allocate (m : Mem) (n : Nat) : Option (Mem × Option Nat) :=
  if wsub m.w m.numFree n < m.reserve then some ({ m with gcReq := true }, none)
  else allocateInternal m n

/-- Number of words for `size` bytes, lbm_memory.c:359-360 and 373-374. -/
def bytesToWords (w size : Nat) : Nat :=
  size / (w / 8) + (if size % (w / 8) = 0 then 0 else 1)

/-- `lbm_malloc`, lbm_memory.c:355-367. -/
def malloc (m : Mem) (size : Nat) : Option (Mem × Option Nat) :=
  if size = 0 then some (m, none) else allocate m (bytesToWords m.w size)

/-- `lbm_malloc_reserve`, lbm_memory.c:369-380: allocates even below the reserve level. -/
def mallocReserve (m : Mem) (size : Nat) : Option (Mem × Option Nat) :=
  if size = 0 then some (m, none) else
    let n := bytesToWords m.w size
    let m := if wsub m.w m.numFree n < m.reserve then { m with gcReq := true } else m
    allocateInternal m n

/-- The `for` loop of `lbm_memory_free`, lbm_memory.c:327-335, also used by
`lbm_memory_shrink`, lbm_memory.c:428-434: clear statuses up to and including the next `END`.
Starting at index `i` it returns the new bitmap, the number of words visited and whether an
`END` was found. -/
def clearToEnd : List St → (i fuel : Nat) → List St × Nat × Bool
  | bm, _, 0 => (bm, 0, false)
  | bm, i, fuel + 1 =>
    if bm[i]? = some .end_ then (bm.set i .freeOrUsed, 1, true)
    else
      let r := clearToEnd bm (i + 1) fuel
      (r.1, r.2.1 + 1, r.2.2)

/-- The `while` loop of `lbm_memory_free`, lbm_memory.c:344-346. -/
def walkBack (bm : List St) : Nat → Nat
  | 0 => 0
  | k + 1 => if bm[k]? = some .freeOrUsed then walkBack bm k else k + 1

/-- `lbm_memory_ptr_inside`, lbm_memory.c:443-446. -/
def ptrInside (m : Mem) (p : Nat) : Bool := p < m.bm.length

/-- `lbm_memory_free`, lbm_memory.c:317-353; also `lbm_free`, 382-384. -/
def free (m : Mem) (p : Nat) : Mem × Bool :=
  if ptrInside m p then
    let m : Mem := { m with off := p }
    match m.bm[p]? with
    | some .start =>
      let bm := m.bm.set p .freeOrUsed
      let r := clearToEnd bm p (bm.length - p)
      let off := if r.2.2 then walkBack r.1 p else p
      ({ m with bm := r.1, off := off, numFree := wadd m.w m.numFree r.2.1 }, r.2.2)
    | some .startEnd =>
      let bm := m.bm.set p .freeOrUsed
      ({ m with bm := bm, off := walkBack bm p, numFree := wadd m.w m.numFree 1 }, true)
    | _ => (m, false)
  else (m, false)

/-- First loop of `lbm_memory_shrink`, lbm_memory.c:405-424.  `i` is the loop variable,
`fuel` the iterations left.  `none`: the early `return 0`; `some (bm, i, done)`: the bitmap,
the value of `i` and the flag when the loop is left. -/
def shrinkScan (n ix : Nat) (bm : List St) : (i fuel : Nat) → Option (List St × Nat × Bool)
  | i, 0 => some (bm, i, false)
  | i, fuel + 1 =>
    if bm[ix + i]? = some .end_ ∧ i < n then none
    else if i + 1 = n then
      let done := bm[ix + i]? = some .end_ ∨ bm[ix + i]? = some .startEnd
      some (bm.set (ix + i) (if i = 0 then .startEnd else .end_), i, decide done)
    else shrinkScan n ix bm (i + 1) fuel

/-- `lbm_memory_shrink`, lbm_memory.c:386-441. -/
def shrink (m : Mem) (p n : Nat) : Mem × Bool :=
  if !ptrInside m p || n == 0 then (m, false)
  else
    match m.bm[p]? with
    | some .startEnd => (m, true)
    | some .start =>
      match shrinkScan n p m.bm 0 (m.bm.length - p) with
      | none => (m, false)
      | some (bm, i, done) =>
        let m : Mem := { m with bm := bm, off := p + i }
        if done then (m, true)
        else
          let r := clearToEnd m.bm (p + (i + 1)) (m.bm.length - p - (i + 1))
          ({ m with bm := r.1, numFree := wadd m.w m.numFree r.2.1 }, true)
    | _ => (m, false)

/-- One iteration of the loop of `lbm_memory_longest_free`, lbm_memory.c:187-221.
The accumulator is (state, curr_length, max_length); only `init`, `lengthCheck` and `skip`
of `Scan` are used, with the length kept separately. -/
def longestStep (acc : Scan × Nat × Nat) (st : St) : Scan × Nat × Nat :=
  let (s, cur, mx) := acc
  match st with
  | .freeOrUsed =>
    match s with
    | .init => (.lengthCheck 0 0, 1, if 1 > mx then 1 else mx)
    | .lengthCheck a b => (.lengthCheck a b, cur + 1, if cur + 1 > mx then cur + 1 else mx)
    | s => (s, cur, mx)
  | .end_ => (.init, cur, mx)
  | .start => (.skip, cur, mx)
  | .startEnd => (.init, cur, mx)

/-- `lbm_memory_longest_free`, lbm_memory.c:178-227. -/
def longestFree (m : Mem) : Nat :=
  let mx := (m.bm.foldl longestStep (.init, 0, 0)).2.2
  if wsub m.w m.numFree mx < m.reserve then
    wsub m.w mx (wsub m.w m.reserve (wsub m.w m.numFree mx))
  else mx

end Verif.Mem
