/-!
# The constant heap and moving values to it

Source: `src/heap.c:1385-1510` (the constant heap), `src/eval_cps.c:496-522, 708-728` (helpers) and `src/eval_cps.c:4538-4770` (`move-to-flash`).

The constant heap is an array of words, addressed by index. How a word in flash is used is kept with it (`W`): a value, a number, an address in
flash, or bytes. Pointers in data structures in ordinary memory (RAM) are not addresses: a cell comes with the data that belongs to it (`RCell`).
Moving values does not change RAM and does not allocate there, except for the new binding of a global variable, which is modelled as a map.
-/

namespace Verif.Flash

/-- Where a cell is. The bit `LBM_PTR_TO_CONSTANT_BIT` distinguishes the two (lbm_defines.h:38). -/
inductive Loc where
  | ram (a : Nat)
  | flash (i : Nat)
  deriving DecidableEq, Repr

/-- Values: not a pointer; a cons cell; a pointer of another type `ty`. -/
inductive V where
  | imm (n : Nat)
  | cons (p : Loc)
  | ptr (ty : Nat) (p : Loc)
  deriving DecidableEq, Repr

/-- `ENC_SYM_NIL` is 0, and `sym n` is zero only for nil. -/
abbrev V.nil : V := .imm 0
/-- `ENC_SYM` (lbm_defines.h:394) of 32-bit builds; nothing depends on the shift. -/
abbrev V.sym (n : Nat) : V := .imm (n * 16)

/-- Words in flash. -/
inductive W where
  | v (x : V)
  | n (x : Nat)
  | a (i : Nat)
  | b (bs : List (BitVec 8))
  deriving DecidableEq, Repr

/-- `lbm_flash_status`. -/
inductive Status where
  | ok
  | full
  | werror
  deriving DecidableEq, Repr

/-- `lbm_const_heap_t` (heap.h:235-239) together with the memory. `mem i = none`: the word is erased. `log`: for which words the write
function of the host has been called, last first. `bad`: words that cannot be written. `M`: the number of values of a machine word, `wb` the number of its bytes. -/
structure H where
  M : Nat
  wb : Nat
  size : Nat
  next : Nat
  bad : Nat → Bool
  mem : Nat → Option W
  log : List Nat

/-- The write function that the host supplies, here that of repl/repl.c:179-188: only erased words can be written (writing what is there already does no harm). -/
def H.write (h : H) (i : Nat) (w : W) : H × Bool :=
  let h1 := { h with log := i :: h.log }
  if i < h.size && !h.bad i then
    match h.mem i with
    | none => ({ h1 with mem := fun j => if j = i then some w else h.mem j }, true)
    | some x => (h1, decide (x = w))
  else (h1, false)

/-- `lbm_const_heap_init` (heap.c:1399-1426), on erased memory. -/
def init (M wb size : Nat) (bad : Nat → Bool) : Option H :=
  if size % 2 ≠ 0 then none else some ⟨M, wb, size, 0, bad, fun _ => none, []⟩

/-- The alignment at the start of `lbm_allocate_const_cell`. -/
def H.align (h : H) : H := { h with next := if h.next % 2 = 1 then h.next + 1 else h.next }

/-- `lbm_allocate_const_cell` (heap.c:1428-1447), returns the index of the cell. The heap has been initialised (else the code dereferences NULL). -/
def H.allocCell (h : H) : H × Status × Nat :=
  let h := h.align
  if (h.next + 1) % h.M < h.size then ({ h with next := h.next + 2 }, .ok, h.next) else (h, .full, 0)

/-- `lbm_allocate_const_raw` (heap.c:1449-1460), returns the index of the first word. The sum is computed in a machine word. -/
def H.allocRaw (h : H) (n : Nat) : H × Status × Nat :=
  if (h.next + n) % h.M < h.size then ({ h with next := (h.next + n) % h.M }, .ok, h.next) else (h, .full, 0)

/-- The loop of `lbm_write_const_raw`. -/
def H.writeLoop (h : H) (i : Nat) : List W → H × Bool
  | [] => (h, true)
  | w :: ws =>
    match h.write i w with
    | (h1, true) => h1.writeLoop (i + 1) ws
    | (h1, false) => (h1, false)

/-- `lbm_write_const_raw` (heap.c:1462-1479). `next` does not change when a write fails. -/
def H.writeRaw (h : H) (ws : List W) : H × Status × Nat :=
  if (h.next + ws.length) % h.M < h.size then
    match h.writeLoop h.next ws with
    | (h1, true) => ({ h1 with next := (h.next + ws.length) % h.M }, .ok, h.next)
    | (h1, false) => (h1, .werror, 0)
  else (h, .full, 0)

/-- `write_const_car` (heap.c:1501-1506). -/
def H.writeCar (h : H) (cell : Nat) (w : W) : H × Status :=
  match h.write cell w with
  | (h1, true) => (h1, .ok)
  | (h1, false) => (h1, .werror)

/-- `write_const_cdr` (heap.c:1494-1499). -/
def H.writeCdr (h : H) (cell : Nat) (w : W) : H × Status :=
  match h.write (cell + 1) w with
  | (h1, true) => (h1, .ok)
  | (h1, false) => (h1, .werror)

/-- `lbm_const_write` (heap.c:1481-1492), with an index instead of an address. -/
def H.constWrite (h : H) (i : Nat) (w : W) : H × Status :=
  match h.write i w with
  | (h1, true) => (h1, .ok)
  | (h1, false) => (h1, .werror)

/-- The full words at the start of the data. -/
def fullWords (wb : Nat) : Nat → List (BitVec 8) → List W
  | 0, _ => []
  | k + 1, bs => .b (bs.take wb) :: fullWords wb k (bs.drop wb)

/-- The last word, padded with zeros. -/
def lastWord (wb : Nat) (bs : List (BitVec 8)) : W :=
  let r := bs.drop (bs.length / wb * wb)
  .b (r ++ List.replicate (wb - r.length) 0)

/-- `lbm_write_const_array_padded` (eval_cps.c:708-728). -/
def H.writePadded (h : H) (bs : List (BitVec 8)) : H × Status × Nat :=
  let full := bs.length / h.wb
  if bs.length % h.wb = 0 then h.writeRaw (fullWords h.wb full bs)
  else if 1 ≤ full then
    match h.writeRaw (fullWords h.wb full bs) with
    | (h1, .ok, r) =>
      match h1.writeRaw [lastWord h.wb bs] with
      | (h2, s, _) => (h2, s, r)
    | e => e
  else h.writeRaw [lastWord h.wb bs]

/-! ## RAM -/

/-- The contents of a cell in RAM, by the tag in its cdr: a pair; a boxed number (`RAW_*`); a number of two words in memory (`IND_*`, only on 32-bit builds); a byte array; a lisp array; a
channel or a value of a custom type; something else (defragmentable memory and its arrays, lbm_defrag_mem.c:48, 158). -/
inductive RCell where
  | pair (a d : V)
  | raw (tag w : Nat)
  | ind (tag w0 w1 : Nat)
  | bytes (bs : List (BitVec 8))
  | arr (xs : List V)
  | fixed (tag : Nat)
  | other (tag : Nat)

abbrev Ram := Nat → RCell

/-- Words on the stack. -/
inductive Wd where
  | k (n : Nat)
  | v (x : V)
  | u (n : Nat)
  deriving DecidableEq, Repr

structure Mc where
  K : List Wd
  r : V
  h : H
  g : Nat → Option V

/-- Go on; an error in the context (`EERROR` 0x22: the flash is full or the value cannot be moved; `FATAL_ERROR` 0x26: a write failed); undefined behaviour, or outside of the model. -/
inductive Out where
  | next (m : Mc)
  | err (e : Nat) (h : H) (g : Nat → Option V)
  | ub

/-- `handle_flash_status` (eval_cps.c:499-508). -/
def check (m : Mc) (s : Status) (k : Out) : Out :=
  match s with
  | .ok => k
  | .full => .err 0x22 m.h m.g
  | .werror => .err 0x26 m.h m.g

/-- `get_car`/`get_cdr` of a pair. -/
def pairOf (R : Ram) (h : H) (p : Loc) : Option (V × V) :=
  match p with
  | .ram a => match R a with | .pair x y => some (x, y) | _ => none
  | .flash i => match h.mem i, h.mem (i + 1) with | some (.v x), some (.v y) => some (x, y) | _, _ => none

/-- Write car and cdr of a new cell and return it (the end of several cases below). -/
def fill (m : Mc) (K : List Wd) (ty cell : Nat) (car cdr : W) : Out :=
  let (h1, s1) := m.h.writeCar cell car
  check { m with h := h1 } s1 <|
    let (h2, s2) := h1.writeCdr cell cdr
    check { m with h := h2 } s2 <| .next { m with h := h2, K := K, r := .ptr ty (.flash cell) }

/-- `lift_array_flash` (eval_cps.c:510-522), then continue. -/
def liftArray (m : Mc) (cell data size tag : Nat) (k : Mc → Out) : Out :=
  let (h1, s1, hd) := m.h.writeRaw [.n size, .a data]
  check { m with h := h1 } s1 <|
    let (h2, s2) := h1.writeCar cell (.a hd)
    check { m with h := h2 } s2 <|
      let (h3, s3) := h2.writeCdr cell (.v (.sym tag))
      check { m with h := h3 } s3 <| k { m with h := h3 }

/-- `cont_move_val_to_flash_dispatch` (eval_cps.c:4587-4690) with `request_flash_storage_cell` (4538-4550). The new pointer has the type of the old one. -/
def dispatch (R : Ram) (m : Mc) (K : List Wd) : Out :=
  match m.r with
  | .cons p =>
    match pairOf R m.h p with
    | some (x, y) => .next { m with r := x, K := .k 29 :: .k 30 :: .v y :: .v .nil :: .v .nil :: K }
    | none => .ub
  | .ptr _ (.flash _) => .next { m with K := K }
  | .ptr ty (.ram a) =>
    match R a with
    | .pair _ _ => .ub
    | .raw tag w =>
      let (h1, s1, c) := m.h.allocCell
      check { m with h := h1 } s1 <| fill { m with h := h1 } K ty c (.n w) (.v (.sym tag))
    | .ind tag w0 w1 =>
      let (h1, s1, p) := m.h.writeRaw [.n w0, .n w1]
      check { m with h := h1 } s1 <|
        let (h2, s2, c) := h1.allocCell
        check { m with h := h2 } s2 <| fill { m with h := h2 } K ty c (.a p) (.v (.sym tag))
    | .bytes bs =>
      let (h1, s1, p) := m.h.writePadded bs
      check { m with h := h1 } s1 <|
        let (h2, s2, c) := h1.allocCell
        check { m with h := h2 } s2 <|
          liftArray { m with h := h2 } c p bs.length 0x30 fun m => .next { m with K := K, r := .ptr ty (.flash c) }
    | .arr xs =>
      let (h1, s1, c) := m.h.allocCell
      check { m with h := h1 } s1 <|
        let (h2, s2, p) := h1.allocRaw xs.length
        check { m with h := h2 } s2 <|
          liftArray { m with h := h2 } c p (xs.length * m.h.wb) 0x39 fun m =>
            match xs with
            | [] => .ub
            | x :: _ => .next { m with r := x, K := .k 29 :: .k 43 :: .v (.ptr ty (.ram a)) :: .u 0 :: .v (.ptr ty (.flash c)) :: K }
    | .fixed _ => .err 0x22 m.h m.g
    | .other _ => .next { m with K := K }
  | .imm _ => .next { m with K := K }

/-- The end of `cont_move_list_to_flash`: what comes after the element (eval_cps.c:4717-4732). -/
def moveListRest (R : Ram) (m : Mc) (fst lst val : V) (K : List Wd) : Out :=
  match val with
  | .cons p =>
    match pairOf R m.h p with
    | some (x, y) => .next { m with r := x, K := .k 29 :: .k 30 :: .v y :: .v lst :: .v fst :: K }
    | none => .ub
  | _ => .next { m with r := val, K := .k 29 :: .k 31 :: .v lst :: .v fst :: K }

/-- `cont_move_list_to_flash` (eval_cps.c:4692-4733). -/
def moveList (R : Ram) (m : Mc) (fst lst val : V) (K : List Wd) : Out :=
  let (h1, s1, c) := m.h.allocCell
  check { m with h := h1 } s1 <|
    if fst = .nil then
      let (h2, s2) := h1.writeCar c (.v m.r)
      check { m with h := h2 } s2 <| moveListRest R { m with h := h2 } (.cons (.flash c)) (.cons (.flash c)) val K
    else
      match lst with
      | .cons (.flash l) =>
        let (h2, s2) := h1.writeCdr l (.v (.cons (.flash c)))
        check { m with h := h2 } s2 <|
          let (h3, s3) := h2.writeCar c (.v m.r)
          check { m with h := h3 } s3 <| moveListRest R { m with h := h3 } fst (.cons (.flash c)) val K
      | _ => .ub

/-- `cont_close_list_in_flash` (eval_cps.c:4735-4743). -/
def closeList (m : Mc) (fst lst : V) (K : List Wd) : Out :=
  match lst with
  | .cons (.flash l) =>
    let (h1, s1) := m.h.writeCdr l (.v m.r)
    check { m with h := h1 } s1 <| .next { m with h := h1, r := fst, K := K }
  | _ => .ub

/-- `cont_move_array_elts_to_flash` (eval_cps.c:4745-4770). The index is at most 2^28 - 1 (else `lbm_enc_u` would cut it off). Reading behind the end of the source is `ub`. -/
def moveArr (R : Ram) (m : Mc) (src tgt : V) (ix : Nat) (K : List Wd) : Out :=
  match src, tgt with
  | .ptr ty (.ram a), .ptr ty' (.flash c) =>
    match R a, m.h.mem c with
    | .arr xs, some (.a hd) =>
      match m.h.mem (hd + 1) with
      | some (.a p) =>
        let (h1, s1) := m.h.constWrite (p + ix) (.v m.r)
        check { m with h := h1 } s1 <|
          if xs.length ≠ 0 ∧ ix ≥ xs.length - 1 then .next { m with h := h1, r := tgt, K := K }
          else
            match xs[ix + 1]? with
            | some x => .next { m with h := h1, r := x, K := .k 29 :: .k 43 :: .v (.ptr ty (.ram a)) :: .u (ix + 1) :: .v (.ptr ty' (.flash c)) :: K }
            | none => .ub
      | _ => .ub
    | _, _ => .ub
  | _, _ => .ub

/-- `cont_move_to_flash` (eval_cps.c:4552-4585). Global variables are a map from symbols; the arguments are a list of symbols. -/
def moveToFlash (R : Ram) (m : Mc) (args : V) (K : List Wd) : Out :=
  match args with
  | .imm 0 => .next { m with r := .sym 2, K := K }
  | .cons p =>
    match pairOf R m.h p with
    | some (.imm s, rest) =>
      match m.g s with
      | some val =>
        match val with
        | .cons (.ram _) | .ptr _ (.ram _) => .next { m with r := val, K := .k 29 :: .k 1 :: .v (.imm s) :: .k 28 :: .v rest :: K }
        | _ => .next { m with K := .k 28 :: .v rest :: K }
      | none => .err 0x22 m.h m.g
    | some _ => .err 0x22 m.h m.g
    | none => .ub
  | .imm _ => .err 0x21 m.h m.g
  | .ptr _ _ => .ub

/-- `cont_set_global_env` (eval_cps.c:2228-2248). -/
def setGlobal (m : Mc) (key : V) (K : List Wd) : Out :=
  match key with
  | .imm s => .next { m with K := K, g := fun t => if t = s then some m.r else m.g t }
  | _ => .ub

/-- One continuation (the codes are those of eval_cps.c:51, 78-81, 93). -/
def step (R : Ram) (m : Mc) : Out :=
  match m.K with
  | .k 1 :: .v key :: K => setGlobal m key K
  | .k 28 :: .v args :: K => moveToFlash R m args K
  | .k 29 :: K => dispatch R m K
  | .k 30 :: .v val :: .v lst :: .v fst :: K => moveList R m fst lst val K
  | .k 31 :: .v lst :: .v fst :: K => closeList m fst lst K
  | .k 43 :: .v src :: .u ix :: .v tgt :: K => moveArr R m src tgt ix K
  | _ => .ub

/-- `n` steps. -/
def steps (R : Ram) : Nat → Out → Out
  | 0, o => o
  | n + 1, .next m => steps R n (step R m)
  | _ + 1, o => o

end Verif.Flash
