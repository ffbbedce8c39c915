import Verif.Mem.Reach

/-!
# Contexts and their memory

`src/eval_cps.c`: creation of contexts (`lbm_create_ctx_parent`, 1200-1318), their end (`finish_ctx`, 992-1008, `ok_ctx`, 1091-1102, `error_ctx_base`, 1027-1073,
`apply_kill`, 2747-2755), messages to other contexts (`lbm_find_receiver_and_send`, 1473-1512) and change of the size of the mailbox (1332-1354), over the model
of the word memory in `Verif.Mem`.

Simplifications: what a context evaluates is not modelled, nor in which of the three queues it is (see `Verif.Sched`): the environment decides which context runs next and
what it does. A collection frees some blocks that do not belong to contexts; which ones, and how many cells are free afterwards, is up to the environment.
The option `LBM_ALWAYS_GC` is off. `error_reason` is `NULL` or a constant string outside of the memory, as in all calls of `lbm_set_error_reason` in the repository, so that
freeing it has no effect (C03). Values are numbers.
-/

namespace Verif.Proc

open Verif.Mem (Mem Block)

/-- Messages: `(exit-ok cid v)`, `(exit-error cid v)`, or anything else. -/
inductive Msg where
  | user (v : Nat)
  | exitOk (cid v : Nat)
  | exitError (cid v : Nat)
  deriving DecidableEq, Repr

/-- `eval_context_t`, `include/eval_cps.h:63-87`. `id` is the index of the context in the memory (1286); `none` for `parent` is -1. `uid` and `puid` are not
in the code: they are numbers for the context and for its parent that are never used again. -/
structure Proc where
  id : Nat
  words : Nat
  stack : Block
  mbox : Block
  name : Option Block
  mail : List Msg
  trap : Bool
  parent : Option Nat
  uid : Nat
  puid : Option Nat
  deriving DecidableEq, Repr

/-- The blocks of memory of a context. -/
def Proc.blocks (p : Proc) : List Block := [(p.id, p.words), p.stack, p.mbox] ++ p.name.toList

/-- The memory, the blocks that do not belong to contexts (arrays, symbol names, ...), the contexts and the one that runs. `next` and `log` are not in the code: the next
`uid`, and the messages that were put into mailboxes, with the `uid` of the receiver and that of the context that sent it. -/
structure S where
  mem : Mem
  others : List Block
  procs : List Proc
  run : Option Nat
  next : Nat
  log : List (Nat × Msg × Nat)
  deriving DecidableEq, Repr

/-- Collection: the blocks `dead` are freed, as far as they are there. -/
def gc (m : Mem) (others : List Block) : List Block → Mem × List Block
  | [] => (m, others)
  | b :: dead => if b ∈ others then gc (Mem.free m b.1).1 (others.erase b) dead else gc m others dead

/-- `x = alloc(n); if (x == NULL) { gc(); x = alloc(n); }`, e.g. lines 1212-1218. -/
def allocRetry (f : Mem → Option (Mem × Option Nat)) (m : Mem) (others dead : List Block) : Option (Mem × List Block × Option Nat) :=
  match f m with
  | none => none
  | some (m1, some a) => some (m1, others, some a)
  | some (m1, none) =>
    match f (gc m1 others dead).1 with
    | none => none
    | some (m2, r) => some (m2, (gc m1 others dead).2, r)

/-- What a context is created with: the size of the stack, the length of the name, whether it was made by `spawn-trap`, and what is collected if memory is short. -/
structure New where
  stack : Nat
  name : Option Nat
  trap : Bool
  dead1 : List Block
  dead2 : List Block
  dead3 : List Block
  dead4 : List Block

/-- `EVAL_CPS_DEFAULT_MAILBOX_SIZE`, `include/eval_cps.h:37`. -/
def mailboxSize : Nat := 10

/-- `lbm_create_ctx_parent`, lines 1200-1318, `bytes` is `sizeof(eval_context_t)`. The result is `none` for -1. A program that is not a list (1202) is not modelled. The push in 1310
cannot fail: the stack has room, for an allocation of 0 words fails. -/
def create (bytes : Nat) (s : S) (c : New) (parent puid : Option Nat) : Option (S × Option Nat) :=
  match allocRetry (fun m => Mem.malloc m bytes) s.mem s.others c.dead1 with
  | none => none
  | some (m1, o1, none) => some ({ s with mem := m1, others := o1 }, none)
  | some (m1, o1, some id) =>
    match allocRetry (fun m => Mem.allocate m c.stack) m1 o1 c.dead2 with
    | none => none
    | some (m2, o2, none) => some ({ s with mem := (Mem.free m2 id).1, others := o2 }, none)
    | some (m2, o2, some st) =>
      match allocRetry (fun m => Mem.allocate m mailboxSize) m2 o2 c.dead3 with
      | none => none
      | some (m3, o3, none) => some ({ s with mem := (Mem.free (Mem.free m3 st).1 id).1, others := o3 }, none)
      | some (m3, o3, some mb) =>
        let p : Proc := { id := id, words := Mem.bytesToWords s.mem.w bytes, stack := (st, c.stack), mbox := (mb, mailboxSize), name := none, mail := [], trap := c.trap,
                          parent := parent, uid := s.next, puid := puid }
        match c.name with
        | none => some ({ s with mem := m3, others := o3, procs := p :: s.procs, next := s.next + 1 }, some id)
        | some len =>
          match allocRetry (fun m => Mem.malloc m (len + 1)) m3 o3 c.dead4 with
          | none => none
          | some (m4, o4, none) => some ({ s with mem := (Mem.free (Mem.free (Mem.free m4 st).1 mb).1 id).1, others := o4 }, none)
          | some (m4, o4, some nm) =>
            some ({ s with mem := m4, others := o4, procs := { p with name := some (nm, Mem.bytesToWords s.mem.w (len + 1)) } :: s.procs, next := s.next + 1 }, some id)

/-- The context that runs. -/
def S.running (s : S) : Option Proc :=
  match s.run with
  | none => none
  | some c => s.procs.find? (fun p => p.id = c)

/-- `mailbox_add_mail`, lines 1364-1373 (see `Verif.Mbox` for the array): in a full mailbox the oldest message makes room. -/
def Proc.add (p : Proc) (v : Msg) : Proc :=
  { p with mail := (if p.mbox.2 ≤ p.mail.length then p.mail.drop 1 else p.mail) ++ [v] }

/-- `lbm_find_receiver_and_send`, lines 1473-1512: contexts are searched by their id. -/
def S.deliver (s : S) (cid : Nat) (v : Msg) (sender : Nat) : S :=
  match s.procs.find? (fun p => p.id = cid) with
  | none => s
  | some q => { s with procs := s.procs.map (fun p => if p.id = cid then p.add v else p), log := s.log ++ [(q.uid, v, sender)] }

/-- `finish_ctx`, lines 992-1008, for the running context `p`. -/
def S.finish (s : S) (p : Proc) : S :=
  let m1 := (Mem.free s.mem p.stack.1).1
  let m2 := match p.name with
    | none => m1
    | some b => (Mem.free m1 b.1).1
  let m3 := (Mem.free m2 p.mbox.1).1
  { s with mem := (Mem.free m3 p.id).1, procs := s.procs.filter (fun q => q.id ≠ p.id), run := none }

/-- The message of a context that was made with `spawn-trap`, to its parent; `lbm_find_receiver_and_send` finds nothing for -1. -/
def S.tell (s : S) (p : Proc) (v : Msg) : S :=
  match p.parent with
  | none => s
  | some c => s.deliver c v p.uid

/-- `error_ctx_base`, lines 1027-1073, for the running context `p`: `cells` is the number of free cells after the collection in 1031, `handled` tells whether there is a handler (`trap`) on the
stack and the error is not fatal. -/
def S.error (s : S) (p : Proc) (e cells : Nat) (handled : Bool) : S :=
  if p.trap ∧ 3 ≤ cells then (s.tell p (.exitError p.id e)).finish p
  else if handled then s
  else s.finish p

/-- `symbol_merror`. -/
def merror : Nat := 0x23

/-- `ok_ctx`, lines 1091-1102. If there is no memory for the message, `WITH_GC` makes it an error. -/
def S.ok (s : S) (p : Proc) (v cells : Nat) (handled : Bool) : S :=
  if p.trap then
    if 3 ≤ cells then (s.tell p (.exitOk p.id v)).finish p else s.error p merror cells handled
  else s.finish p

/-- What can happen. -/
inductive Op where
  /-- the scheduler chooses a context -/
  | pick (cid : Nat)
  /-- `lbm_create_ctx` -/
  | create (c : New)
  /-- `spawn`, `spawn-trap` (`apply_spawn_base`, lines 2496-2505) -/
  | spawn (c : New) (cells : Nat) (handled : Bool)
  /-- the program of the running context ends, or calls `exit-ok`, or was killed by another context (`cont_kill`, 4955-4958) -/
  | ok (v cells : Nat) (handled : Bool)
  /-- an error, or `exit-error` -/
  | error (e cells : Nat) (handled : Bool)
  /-- `(kill (self) v)`, lines 2751-2755 -/
  | killSelf
  /-- `send` -/
  | send (cid v : Nat)
  /-- `recv` takes message `k` -/
  | recv (k : Nat)
  /-- `set-mailbox-size`, `lbm_mailbox_change_size`, lines 1332-1354 -/
  | resize (n : Nat) (dead : List Block)
  /-- something else allocates memory -/
  | alloc (n : Nat)
  /-- something else frees memory, or a collection does -/
  | collect (dead : List Block)

/-- One operation; `none` if it is not possible in this state or undefined. -/
def step (bytes : Nat) (s : S) : Op → Option S
  | .pick cid => if s.procs.any (fun p => p.id = cid) then some { s with run := some cid } else none
  | .create c => (create bytes s c none none).map (·.1)
  | .spawn c cells handled =>
    match s.running with
    | none => none
    | some p =>
      match create bytes s c (some p.id) (some p.uid) with
      | none => none
      | some (s1, some _) => some s1
      | some (s1, none) => some (s1.error p merror cells handled)
  | .ok v cells handled => s.running.map fun p => s.ok p v cells handled
  | .error e cells handled => s.running.map fun p => s.error p e cells handled
  | .killSelf => s.running.map fun p => s.finish p
  | .send cid v => s.running.map fun p => s.deliver cid (.user v) p.uid
  | .recv k => s.running.map fun p => { s with procs := s.procs.map (fun q => if q.id = p.id then { q with mail := q.mail.eraseIdx k } else q) }
  | .resize n dead =>
    match s.running with
    | none => none
    | some p =>
      match allocRetry (fun m => Mem.allocate m n) s.mem s.others dead with
      | none => none
      | some (m1, o1, none) => some { s with mem := m1, others := o1 }
      | some (m1, o1, some mb) =>
        if n < p.mail.length then none -- messages are written past the end of the new mailbox, see C36
        else some { s with mem := (Mem.free m1 p.mbox.1).1, others := o1, procs := s.procs.map (fun q => if q.id = p.id then { q with mbox := (mb, n) } else q) }
  | .alloc n =>
    match Mem.allocate s.mem n with
    | none => none
    | some (m1, none) => some { s with mem := m1 }
    | some (m1, some a) => some { s with mem := m1, others := (a, n) :: s.others }
  | .collect dead => some { s with mem := (gc s.mem s.others dead).1, others := (gc s.mem s.others dead).2 }

/-- All histories, from an empty memory of `size` words. -/
inductive Reach (bytes w size reserve : Nat) : S → Prop
  | init : Reach bytes w size reserve ⟨Mem.init w size reserve, [], [], none, 0, []⟩
  | step {s s' op} : Reach bytes w size reserve s → step bytes s op = some s' → Reach bytes w size reserve s'

end Verif.Proc
