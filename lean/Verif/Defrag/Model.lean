/-
Model of defragmentable memory (`src/lbm_defrag_mem.c`).

* The data area of a pool is a function from word index to word, with `size` meaningful words. Words
  are natural numbers.
* `W` is `sizeof(lbm_uint)`: 4 or 8. `base` is the byte address of the data area, so that the
  address of word `i` is `base + i * W`.
* A heap cell is a number, and `car` gives, for the cells handed out, the word index of the allocation
  that the cell points to (the C code stores its address). `none` is nil.
* Unsigned wrap-around of the scan index `i += bs2ws(..) + 3` is not modelled: it cannot happen when sizes and
  addresses fit in a word, because `bs2ws` divides by `W`.
-/

namespace Verif.Defrag

/-- A pool, with the part of the heap that points into it. -/
structure Pool where
  W : Nat
  base : Nat
  size : Nat
  flags : Bool
  mem : Nat → Nat
  car : Nat → Option Nat

/-- `bs2ws`, `src/lbm_defrag_mem.c:22-24`: bytes to words, rounding up. -/
def bs2ws (W bytes : Nat) : Nat := if bytes % W = 0 then bytes / W else bytes / W + 1

/-- `lbm_defrag_mem_create`, `src/lbm_defrag_mem.c:38-57`, when both allocations succeed: all words zero. -/
def create (W base nbytes : Nat) : Pool :=
  { W, base, size := bs2ws W nbytes, flags := false, mem := fun _ => 0, car := fun _ => none }

/-- Store a word. -/
def Pool.set (p : Pool) (i w : Nat) : Pool := { p with mem := fun j => if j = i then w else p.mem j }

/-- Store the `car` of a cell. -/
def Pool.setCar (p : Pool) (c : Nat) (v : Option Nat) : Pool := { p with car := fun d => if d = c then v else p.car d }

/-- `memset` of words, from `i`, `n` words. -/
def Pool.clear (p : Pool) (i n : Nat) : Pool := { p with mem := fun j => if i ≤ j ∧ j < i + n then 0 else p.mem j }

/-- `memmove` of `n` words from `src` to `dst`. -/
def Pool.move (p : Pool) (dst src n : Nat) : Pool :=
  { p with mem := fun j => if dst ≤ j ∧ j < dst + n then p.mem (j - dst + src) else p.mem j }

/-- States of the search (`INIT`, `FREE_LEN`, `src/lbm_defrag_mem.c:145-146`). -/
inductive SS
  | init
  | freeLen
deriving DecidableEq, Repr

/-- The search loop of `lbm_defrag_mem_alloc_internal`, `src/lbm_defrag_mem.c:176-206`. Result: `free_start`. Every round
but the last increases `i`, so fuel `size + 1` is enough (`scan_spec` shows that it does not run out). -/
def scan (p : Pool) (need : Nat) : Nat → Nat → SS → Nat → Nat → Option Nat
  | 0, _, _, _, _ => none
  | f + 1, i, st, fw, fs =>
    if i < p.size then
      match st with
      | .init =>
        if p.mem i = 0 then scan p need f (i + 1) .freeLen 1 i
        else scan p need f (i + (bs2ws p.W (p.mem i) + 3)) .init fw fs
      | .freeLen =>
        if p.mem i = 0 then
          if need ≤ fw + 1 then some fs else scan p need f (i + 1) .freeLen (fw + 1) fs
        else scan p need f (i + 1) .init fw fs
    else none

/-- The outcome of an allocation: the cell, `ENC_SYM_EERROR`, or `ENC_SYM_MERROR`. -/
inductive Res
  | cell (c : Nat)
  | eerror
  | merror
deriving DecidableEq, Repr

/-- `lbm_defrag_mem_alloc_internal`, `src/lbm_defrag_mem.c:152-221`. `cell` is what
`lbm_heap_allocate_cell` returned, `none` when the heap is full. -/
def allocInternal (p : Pool) (bytes : Nat) (cell : Option Nat) : Pool × Res :=
  if bytes = 0 then (p, .eerror)
  else
    match cell with
    | none => (p, .merror)
    | some c =>
      match scan p (bs2ws p.W bytes + 3) (p.size + 1) 0 .init 0 0 with
      | some a =>
        let p1 := p.set a bytes
        let p2 := p1.set (a + 1) (p.base + (a + 3) * p.W)
        let p3 := p2.set (a + 2) c
        (p3.setCar c (some a), .cell c)
      | none => (({ p with flags := true } : Pool).setCar c none, .merror)

/-- The loop of `lbm_defrag_mem_defrag`, `src/lbm_defrag_mem.c:108-137`: `i` and `hole_start`. Fuel as for `scan`. -/
def defragLoop (until_ : Nat) : Nat → Pool → Nat → Nat → Pool
  | 0, p, _, _ => p
  | f + 1, p, i, hole =>
    if i < p.size then
      if p.mem i ≠ 0 then
        let aw := bs2ws p.W (p.mem i)
        if hole = i then defragLoop until_ f p (i + (aw + 3)) (i + (aw + 3))
        else
          let dist := i - hole
          if until_ ≤ dist then p
          else
            let p1 := p.move hole i (aw + 3)
            let p2 := p1.clear (hole + aw + 3) dist
            let p3 := p2.set (hole + 1) (p.base + (hole + 3) * p.W)
            let p4 := p3.setCar (p3.mem (hole + 2)) (some hole)
            defragLoop until_ f p4 (i + (aw + 3)) (hole + (aw + 3))
      else defragLoop until_ f p (i + 1) hole
    else p

/-- `lbm_defrag_mem_defrag`, `src/lbm_defrag_mem.c:101-138`. -/
def defrag (p : Pool) (bytes : Nat) : Pool := defragLoop (bs2ws p.W bytes + 3) (p.size + 1) p 0 0

/-- `lbm_defrag_mem_alloc`, `src/lbm_defrag_mem.c:223-234`. `c1`, `c2`: the heap cells available to the two attempts. -/
def alloc (p : Pool) (bytes : Nat) (c1 c2 : Option Nat) : Pool × Res :=
  let r := allocInternal p bytes c1
  if r.2 = .merror then
    if r.1.flags then
      let r2 := allocInternal (defrag r.1 bytes) bytes c2
      ({ r2.1 with flags := false }, r2.2)
    else r
  else r

/-- `lbm_defrag_mem_free`, `src/lbm_defrag_mem.c:242-248`, called by the sweep phase (`src/heap.c:903-905`) with the `car` of
the dead cell. -/
def free (p : Pool) (c : Nat) : Pool :=
  match p.car c with
  | some a => p.clear a (3 + bs2ws p.W (p.mem a))
  | none => p

/-- The loop of `lbm_defrag_mem_destroy`, `src/lbm_defrag_mem.c:86-97`, with `free_defrag_allocation`,
`src/lbm_defrag_mem.c:59-80`: the cell of each allocation becomes (nil . nil). -/
def destroyLoop : Nat → Pool → Nat → Pool
  | 0, p, _ => p
  | f + 1, p, i =>
    if i < p.size then
      if p.mem i ≠ 0 then
        let aw := 3 + bs2ws p.W (p.mem i)
        destroyLoop f ((p.setCar (p.mem (i + 2)) none).clear i aw) (i + aw)
      else destroyLoop f p (i + 1)
    else p

/-- `lbm_defrag_mem_destroy`, `src/lbm_defrag_mem.c:85-99`; the pool's memory is released afterwards. -/
def destroy (p : Pool) : Pool := destroyLoop (p.size + 1) p 0

/-- How a program sees an allocated array: the size in bytes, through the cell's array header
(`lbm_array_header_t`, `include/heap.h:240-249`). -/
def arraySize (p : Pool) (c : Nat) : Option Nat := (p.car c).map p.mem

/-- The word index of the data of the array, through the header's data pointer. -/
def dataAt (p : Pool) (c : Nat) : Option Nat := (p.car c).map fun a => (p.mem (a + 1) - p.base) / p.W

/-- Read word `k` of the array's data. -/
def readWord (p : Pool) (c k : Nat) : Option Nat := (dataAt p c).map fun d => p.mem (d + k)

/-- Write word `k` of the array's data. -/
def writeWord (p : Pool) (c k w : Nat) : Pool :=
  match dataAt p c with
  | some d => p.set (d + k) w
  | none => p

end Verif.Defrag
