/-!
# The profiler

`src/lbm_prof.c`. A sample is taken by another thread while the scheduler mutex is held, so that `lbm_prof_sample` is one step. Counters are natural numbers (`lbm_uint` in the code, which wraps after
2^32 or 2^64 samples). Names are lists of non-zero bytes without the terminating zero.
-/

namespace Verif.Prof

/-- `LBM_PROF_MAX_NAME_SIZE`, `include/lbm_prof.h:24`. -/
def maxName : Nat := 20

/-- `TRUNC_SIZE`, `src/lbm_prof.c:32`. -/
def trunc (n : Nat) : Nat := if n > maxName - 1 then maxName - 1 else n

/-- `lbm_prof_t`, `include/lbm_prof.h:26-33`. `cid` is `none` for -1; `name` is an array of 20 bytes. -/
structure Entry where
  cid : Option Nat
  hasName : Bool
  name : List Nat
  count : Nat
  gcCount : Nat
  deriving DecidableEq

/-- The variables of `src/lbm_prof.c:21-30`. -/
structure Prof where
  entries : List Entry
  samples : Nat
  system : Nat
  sleep : Nat
  deriving DecidableEq

/-- `lbm_prof_init`, `src/lbm_prof.c:34-50`, with a buffer of `n` entries and the mutex initialized; its value is always false. `gc_count` is not set (it is set with the first sample of an entry). -/
def init (gc : Nat → Nat) (n : Nat) : Prof × Bool := (⟨(List.range n).map fun i => ⟨none, false, List.replicate maxName 0, 0, gc i⟩, 0, 0, 0⟩, false)

/-- What is running when a sample is taken: a context with its id, its name and whether it collects garbage; or nothing, and whether the system sleeps. -/
inductive Running where
  | ctx (id : Nat) (name : Option (List Nat)) (gc : Bool)
  | idle (sleeping : Bool)

/-- `memcpy` of `n` bytes of the C string `s` to the start of `d`. -/
def copyBytes (d s : List Nat) (n : Nat) : List Nat := (s ++ [0]).take n ++ d.drop n

/-- `strncmp(a, b, n) == 0`: equal up to the first zero byte or for `n` bytes. -/
def strncmp0 : Nat → List Nat → List Nat → Bool
  | 0, _, _ => true
  | n + 1, a :: as, b :: bs => if a = b then (if a = 0 then true else strncmp0 n as bs) else false
  | _ + 1, _, _ => false

/-- The new entry, `src/lbm_prof.c:81-92`. -/
def Entry.fresh (e : Entry) (id : Nat) (name : Option (List Nat)) (gc : Bool) : Entry :=
  match name with
  | some s => ⟨some id, true, (copyBytes e.name s (trunc (s.length + 1))).set (maxName - 1) 0, 1, if gc then 1 else 0⟩
  | none => ⟨some id, e.hasName, e.name, 1, if gc then 1 else 0⟩

/-- One more, `src/lbm_prof.c:98-100`. -/
def Entry.more (e : Entry) (gc : Bool) : Entry := { e with count := e.count + 1, gcCount := e.gcCount + if gc then 1 else 0 }

/-- The loop of `lbm_prof_sample`, `src/lbm_prof.c:79-110`. -/
def record (id : Nat) (name : Option (List Nat)) (gc : Bool) : List Entry → List Entry
  | [] => []
  | e :: es =>
    match e.cid with
    | none => e.fresh id name gc :: es
    | some c =>
      if c = id && e.hasName && (match name with | some s => strncmp0 (trunc (s.length + 1)) e.name (s ++ [0]) | none => false) then e.more gc :: es
      else if c = id && !e.hasName && name.isNone then e.more gc :: es
      else e :: record id name gc es

/-- `lbm_prof_sample`, `src/lbm_prof.c:64-118`. -/
def sample (p : Prof) : Running → Prof
  | .ctx id name gc => { p with samples := p.samples + 1, entries := record id name gc p.entries }
  | .idle true => { p with samples := p.samples + 1, sleep := p.sleep + 1 }
  | .idle false => { p with samples := p.samples + 1, system := p.system + 1 }

/-- Samples in a row. -/
def samples (p : Prof) : List Running → Prof
  | [] => p
  | r :: rs => samples (sample p r) rs

end Verif.Prof
