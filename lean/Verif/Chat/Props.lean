import Verif.Chat.Lemmas

/-! # C115: a process that waits for a message gets it -/

namespace Verif.Chat
open Verif.Sched Verif.Mbox Verif.Eq

variable {F : Flt} {w : Nat}

theorem isRecv_iff {t : TState} : t.isRecv = true ↔ t = .recvBl ∨ t = .recvTo := by cases t <;> simp [TState.isRecv]

/-- Whatever processes, the host and the clock do: every action that is possible ends, without undefined behaviour. -/
theorem C115_safe {x : W} (h : Reach F w x) {a : Act} (ho : Ok x a) : ∃ y r, Acts F w x a y r := by
  obtain ⟨r, b, hi⟩ := reach_inv h
  obtain ⟨y, res, op, ha, -⟩ := act_eff (w := w) hi ho
  exact ⟨y, res, ha⟩

/-- Nobody waits while there is something to receive: at any time, a process that is blocked in `recv` or `recv-to` has no message in its mailbox that one of its patterns accepts. -/
theorem C115_waits_partial {x : W} (h : Reach F w x) {c : Cid} (hw : Waits x c) : ∃ cs to, x.pend c = some (cs, to) ∧ ∀ e ∈ (x.box c).mail, ¬ Accepts F cs e := by
  obtain ⟨r, b, hi⟩ := reach_inv h
  obtain ⟨r', b', hp, hc, hs⟩ := hw
  obtain ⟨rfl, rfl⟩ := placed_unique hi.placed hp
  exact hi.wait c hc (isRecv_iff.2 hs)

/-- `send` returns true exactly if the process exists. Then the message is the newest in its mailbox (of which the oldest one is discarded if it was full), the process does not wait any more, and no other mailbox
changes. Otherwise nothing changes. -/
theorem C115_send {x : W} (h : Reach F w x) (c : Cid) (v : T) :
    ∃ y, Acts F w x (.send c v) y (.sent (decide (c ∈ x.live))) ∧ ¬ Waits y c ∧ y.live = x.live ∧ y.pend = x.pend ∧ (∀ d, d ≠ c → y.box d = x.box d) ∧ (c ∉ x.live → y = x) ∧
      (c ∈ x.live → (y.box c).size = (x.box c).size ∧ (y.box c).mail = (if (x.box c).mail.length < (x.box c).size then (x.box c).mail else (x.box c).mail.tail) ++ [v]) := by
  obtain ⟨r, b, hi⟩ := reach_inv h
  obtain ⟨y, e, he, h1, h2, h3, h4, h5⟩ := send_spec (w := w) hi c v
  refine ⟨y, ⟨_, e⟩, ?_, h1, h2, h3, h4, h5⟩
  rintro ⟨r', b', hp, hc, hs⟩
  obtain ⟨rfl, rfl⟩ := placed_unique (eff_inv hi he).placed hp
  simp only [Option.elim_some] at hc
  by_cases hb : c ∈ b
  · obtain ⟨g1, -, -, g4⟩ := stay_info hi.placed he.ok.1 he.ok.2.1 hb hc
    rw [g1] at hs
    have := g4 rfl
    rw [isRecv_iff.2 hs] at this
    cases this
  · obtain ⟨-, -, t, now, us, tr, g, -⟩ := new_blocked he.ok.2.1 hb hc
    cases g

/-- The message `v` is in the mailbox of `c`, at most `k` messages came after it, and none of those before it is accepted. -/
def Owed (F : Flt) (x : W) (c : Cid) (cs : List Clause) (to : Bool) (v : T) (sz k : Nat) : Prop :=
  x.pend c = some (cs, to) ∧ (x.box c).size = sz ∧ ∃ a z, (x.box c).mail = a ++ v :: z ∧ z.length ≤ k ∧ ∀ e ∈ a, ¬ Accepts F cs e

theorem owed_step {x y : W} {r b : List Cid} {i : Nat} {c : Cid} {cs : List Clause} {to : Bool} {v : T} {sz k : Nat} {a : Act} {res : Res} (h : Inv F x r b) (hi : r[i]? = some c) (hw : Owed F x c cs to v sz k)
    (ho : Ok x a) (ha : Acts F w x a y res) (hk : a ≠ .sched (.kill c)) (hres : a ≠ .sched .reset) (hsz : k + (if sendsTo c a then 1 else 0) < sz) :
    ((y.s.running = some c ∧ ∃ r' b', Inv F y r' b') ∨ ∃ r' b' j, Inv F y r' b' ∧ r'[j]? = some c ∧ j + roundNow x a ≤ i) ∧ Owed F y c cs to v sz (k + if sendsTo c a then 1 else 0) := by
  have hcr : c ∈ r := List.mem_of_getElem? hi
  have hlive : c ∈ x.live := h.placed.all.mem_iff.1 (by simp [hcr])
  have hrun : x.s.running ≠ some c := fun e => (placed_running h.placed e).1 hcr
  have hcb : c ∉ b := disj_left (placed_qs h.placed).nodup c hcr
  obtain ⟨y', res', op, ha', he, ht⟩ := act_eff (w := w) h ho
  obtain ⟨rfl, -⟩ := acts_unique ha ha'
  have hinv := eff_inv h he
  constructor
  · rw [ht.round]
    cases op with
    | none => exact .inr ⟨r, b, i, hinv, hi, by simp⟩
    | some op =>
      obtain ⟨ho', hd, hl⟩ := he.ok
      rcases step_forward h.placed ho' hd hi (fun e => hk (ht.kill c (by rw [e]))) (fun e => hres (ht.reset (by rw [e]))) with g | ⟨r', b', j, g1, g2, g3⟩
      · exact .inl ⟨g, _, _, hinv⟩
      · rw [← hl] at g1
        obtain ⟨rfl, rfl⟩ := placed_unique hinv.placed g1
        exact .inr ⟨_, _, j, hinv, g2, g3⟩
  · have hcreate : op ≠ some (.create c) := by rintro rfl; exact he.ok.1 hlive
    have hp : y.pend c = x.pend c := he.pend c hrun hcreate (fun e => hk (ht.kill c e))
    obtain ⟨w1, w2, p, z, w3, w4, w5⟩ := hw
    by_cases hs : ∃ u, a = .send c u
    · obtain ⟨u, rfl⟩ := hs
      obtain ⟨y', e, -, -, -, -, -, g⟩ := send_spec (w := w) h c u
      obtain ⟨rfl, -⟩ := acts_unique ha ⟨_, e⟩
      obtain ⟨g1, g2⟩ := g hlive
      have hwf := (h.wf c hlive).1
      rw [← mail_length, w3, w2, List.length_append, List.length_cons] at hwf
      simp only [sendsTo, decide_true, if_true] at hsz ⊢
      refine ⟨hp.trans w1, g1.trans w2, ?_⟩
      rw [g2, w3, w2]
      split
      · exact ⟨p, z ++ [u], by simp, by rw [List.length_append]; simp; omega, w5⟩
      · rename_i hfull
        rw [List.length_append, List.length_cons] at hfull
        cases p with
        | nil => simp at hfull; omega
        | cons q p => exact ⟨p, z ++ [u], by simp, by rw [List.length_append]; simp; omega, fun e he => w5 e (by simp [he])⟩
    · have hnot : sendsTo c a = false := by
        cases a <;> simp only [sendsTo]
        rename_i d u
        exact decide_eq_false (fun e => hs ⟨u, by rw [e]⟩)
      have hb : y.box c = x.box c := he.box c hrun (fun o e => ⟨fun hm => hcb ?_, fun e' => hcreate (by rw [e, e']), fun e' => hs (ht.send c (by rw [e, e']))⟩)
      · rw [hnot]
        exact ⟨hp.trans w1, by rw [hb]; exact w2, p, z, by rw [hb]; exact w3, by simpa using w4, w5⟩
      · cases o <;> simp only [timedOut, List.not_mem_nil] at hm
        split at hm
        · simp at hm
        · exact (List.mem_filter.1 hm).1

theorem Meets.mono {c : Cid} {P Q : W → Prop} {x : W} {as : List Act} (h : Meets F w c P x as) (hPQ : ∀ u, u.s.running = some c → P u → Q u) : Meets F w c Q x as := by
  induction h with
  | here hr hp => exact .here hr (hPQ _ hr hp)
  | there ha _ ih => exact .there ha ih

theorem owed_meets {c : Cid} {cs : List Clause} {to : Bool} {v : T} {sz : Nat} {x z : W} {as : List Act} {n : Nat} (hr : RunR F w x as z n) {r b : List Cid} {i k : Nat} (h : Inv F x r b) (hi : r[i]? = some c)
    (hw : Owed F x c cs to v sz k) (hp : Peaceful c as) (hsz : k + (as.filter (sendsTo c)).length < sz) (hn : i < n) : Meets F w c (fun u => (∃ r b, Inv F u r b) ∧ ∃ k, Owed F u c cs to v sz k) x as := by
  induction hr generalizing r b i k with
  | nil => omega
  | @cons x y z a res as n ho ha _ ih =>
    have hlen : ((a :: as).filter (sendsTo c)).length = (if sendsTo c a then 1 else 0) + (as.filter (sendsTo c)).length := by
      rw [List.filter_cons]
      split
      · rw [List.length_cons]; omega
      · omega
    rw [hlen] at hsz
    obtain ⟨g, gw⟩ := owed_step h hi hw ho ha (fun e => hp.1 (by simp [e])) (fun e => hp.2 (by simp [e])) (by omega)
    rcases g with ⟨g, r', b', g'⟩ | ⟨r', b', j, g1, g2, g3⟩
    · exact .there ha (.here g ⟨⟨r', b', g'⟩, _, gw⟩)
    · exact .there ha (ih g1 g2 gw ⟨fun e => hp.1 (by simp [e]), fun e => hp.2 (by simp [e])⟩ (by omega) (by omega))

/-- The message `v` is the oldest one that the patterns `cs` accept, and trying again receives it: the body of the first clause whose pattern accepts it is evaluated next, and exactly this message is taken out. -/
def Receives (F : Flt) (w : Nat) (c : Cid) (cs : List Clause) (v : T) (x : W) : Prop :=
  ∃ a z, (x.box c).mail = a ++ v :: z ∧ (∀ e ∈ a, ¬ Accepts F cs e) ∧
    ∀ now us env free gcFree timedOut trapped, Room x c cs free →
      ∃ y m env' cl bd, Acts F w x (.retry now us env free gcFree timedOut trapped) y (.received (.body m cl.body env')) ∧ First F v cs cl bd ∧ y.box c = m ∧ m.mail = a ++ z ∧ y.pend c = none

theorem owed_receives {x : W} {r b : List Cid} {c : Cid} {cs : List Clause} {to : Bool} {v : T} {sz k : Nat} (h : Inv F x r b) (hr : x.s.running = some c) (hw : Owed F x c cs to v sz k) (hv : Accepts F cs v)
    (hcs : ∀ cl ∈ cs, isNil cl.extra = true) : Receives F w c cs v x := by
  obtain ⟨w1, -, a, z, w3, -, w5⟩ := hw
  refine ⟨a, z, w3, w5, fun now us env free gcFree timedOut trapped hroom => ?_⟩
  have hlive : c ∈ x.live := h.placed.all.mem_iff.1 (by rw [hr]; simp)
  obtain ⟨y, res, n, op, e, er, he, hop, hbody⟩ := recvIn_spec (w := w) h hr cs to now us env gcFree trapped hroom
  rcases C35_receive (F := F) (h.wf c hlive) (env := env) (gcFree := gcFree) hroom with ⟨hno, _⟩ | ⟨i, e', cl, bd, h1, h2, h3, h4⟩
  · exact absurd hv (hno v (by rw [w3]; simp))
  · have hin := first_mem h3
    rw [if_pos (hcs cl hin.1)] at h4
    obtain ⟨m, env', g1, -, -, g4⟩ := h4
    have hi : i = a.length := by
      rcases Nat.lt_trichotomy i a.length with hlt | heq | hgt
      · rw [w3, List.getElem?_append_left hlt] at h1
        exact absurd ⟨cl, hin.1, by rw [hin.2]; rfl⟩ (w5 e' (List.mem_of_getElem? h1))
      · exact heq
      · exact absurd hv (h2 a.length v hgt (by rw [w3]; simp))
    subst hi
    obtain rfl : v = e' := by
      rw [w3, List.getElem?_append_right (Nat.le_refl _), Nat.sub_self] at h1
      simpa using h1
    rw [g1] at er
    obtain rfl := Option.some.inj er
    obtain ⟨-, b2, b3⟩ := hbody m cl.body env' rfl
    refine ⟨y, m, env', cl, bd, ⟨n, fun f hf => ?_⟩, h3, b3, ?_, b2⟩
    · simp only [wstep, hr, w1]
      rw [g1]
      exact e f hf
    · rw [g4, w3]
      exact List.eraseIdx_append_of_length_le (Nat.le_refl _) _ |>.trans (by simp)

/-- A process waits in `recv` or `recv-to`, a message is sent to it that one of its patterns accepts, and then anything happens, with as many scheduling rounds as there are processes, but nobody kills it and fewer messages
than its mailbox holds are sent to it. Then it runs, and what it receives is this message, in the first clause that accepts it. -/
theorem C115_received_partial {x y z : W} (h : Reach F w x) {c : Cid} (hw : Waits x c) {cs : List Clause} {to : Bool} (hp : x.pend c = some (cs, to)) (hcs : ∀ cl ∈ cs, isNil cl.extra = true) {v : T} (hv : Accepts F cs v)
    {res : Res} (hs : Acts F w x (.send c v) y res) {as : List Act} {n : Nat} (hr : RunR F w y as z n) (hn : x.live.length ≤ n) (hpe : Peaceful c as) (hsz : (as.filter (sendsTo c)).length < (x.box c).size) :
    Meets F w c (Receives F w c cs v) y as := by
  obtain ⟨cs', to', hp', hno⟩ := C115_waits_partial h hw
  obtain ⟨rfl, rfl⟩ : cs' = cs ∧ to' = to := by rw [hp] at hp'; simpa using hp'.symm
  obtain ⟨r, b, hi⟩ := reach_inv h
  obtain ⟨r', b', hpl, hc, hst⟩ := hw
  obtain ⟨rfl, rfl⟩ := placed_unique hi.placed hpl
  have hlive : c ∈ x.live := hi.placed.all.mem_iff.1 (List.mem_append_right _ hc)
  obtain ⟨y', e, he, -, h2, -, -, h5⟩ := send_spec (w := w) hi c v
  obtain ⟨rfl, -⟩ := acts_unique hs ⟨_, e⟩
  obtain ⟨g1, g2⟩ := h5 hlive
  have hinv := eff_inv hi he
  have hready : (after w x.s r b (.send c)).ready = r ++ [c] := by simp only [after]; rw [if_pos ⟨hc, hst⟩]
  simp only [Option.elim_some, hready] at hinv
  have how : Owed F y c cs' to' v (x.box c).size 0 := by
    refine ⟨by rw [h2]; exact hp, g1, _, [], g2, Nat.le_refl _, fun e he => hno e ?_⟩
    split at he
    · exact he
    · exact List.mem_of_mem_tail he
  have hlen : r.length < n := by
    have h1 := hi.placed.all.length_eq
    simp only [List.length_append] at h1
    have h2 : 0 < b.length := List.length_pos_of_mem hc
    omega
  have hm := owed_meets hr hinv (i := r.length) (by simp) how hpe (by omega) hlen
  exact hm.mono fun u hrun ⟨⟨r, b, hi⟩, k, ho⟩ => owed_receives hi hrun ho hv hcs

theorem round_acts {x : W} {r b : List Cid} (h : Inv F x r b) (hat : x.s.atomic = false) (now : Nat) : ∃ y, Acts F w x (.sched (.round now)) y .none ∧ (∃ r' b', Inv F y r' b') ∧ y.s.atomic = false := by
  obtain ⟨y, e, he, -⟩ := sched_eff (w := w) h (op := .round now) trivial (by rintro _ _ _ _ ⟨⟩)
  exact ⟨y, ⟨_, e⟩, ⟨_, _, eff_inv h he⟩, by rw [(does_spec h.placed he.ok.1 he.ok.2.1).2.2.1]; exact hat⟩

/-! ### An example: two processes, the first of which waits for any message -/

/-- `(recv ((? x) x))`. -/
def anyMsg : List Clause := [⟨binder Mbox.x, Mbox.x, .sym symNil⟩]

def demo0 : W := start ⟨fun _ => none, fun _ => none⟩ (fun _ => ⟨.ready, 0, 0⟩) (fun _ => ⟨fun _ => .sym symNil, 10, 0⟩)

def after5 (F : Flt) (x : W) (a : Act) : W := match wstep F 32 5 x a with
  | some (y, _) => y
  | none => x

def demo1 (F : Flt) : W := after5 F demo0 (.sched (.create 1))
def demo2 (F : Flt) : W := after5 F (demo1 F) (.sched (.create 2))
def demo3 (F : Flt) : W := after5 F (demo2 F) (.sched (.round 0))
def demo4 (F : Flt) : W := after5 F (demo3 F) (.recv anyMsg false 0 0 [] 100 100 false)

theorem demo_acts1 : Acts F 32 demo0 (.sched (.create 1)) (demo1 F) .none := ⟨5, fun f hf => by obtain ⟨k, rfl⟩ := Nat.exists_eq_add_of_le' hf; rfl⟩
theorem demo_acts2 : Acts F 32 (demo1 F) (.sched (.create 2)) (demo2 F) .none := ⟨5, fun f hf => by obtain ⟨k, rfl⟩ := Nat.exists_eq_add_of_le' hf; rfl⟩
theorem demo_acts3 : Acts F 32 (demo2 F) (.sched (.round 0)) (demo3 F) .none := ⟨5, fun f hf => by obtain ⟨k, rfl⟩ := Nat.exists_eq_add_of_le' hf; rfl⟩
theorem demo_acts4 : Acts F 32 (demo3 F) (.recv anyMsg false 0 0 [] 100 100 false) (demo4 F) (.received .block) := ⟨5, fun f hf => by obtain ⟨k, rfl⟩ := Nat.exists_eq_add_of_le' hf; rfl⟩

theorem demo_reach : Reach F 32 (demo4 F) := by
  refine ⟨_, _, _, _, .cons (a := .sched (.create 1)) ?_ demo_acts1 (.cons (a := .sched (.create 2)) ?_ demo_acts2 (.cons (a := .sched (.round 0)) ?_ demo_acts3 (.cons (a := .recv anyMsg false 0 0 [] 100 100 false) ?_ demo_acts4 .nil)))⟩
  · exact ⟨by simp [Allowed, start], trivial⟩
  · exact ⟨by show 2 ∉ [1]; simp, trivial⟩
  · exact ⟨trivial, trivial⟩
  · exact ⟨fun c hc => by obtain rfl : 1 = c := Option.some.inj hc; rfl, 1, rfl, by show 0 * _ ≤ 100; omega⟩

theorem demo_waits : Waits (demo4 F) 1 := by
  obtain ⟨r, b, hi⟩ := reach_inv (demo_reach (F := F))
  have hm : 1 ∈ (demo4 F).live := by show 1 ∈ [2, 1]; simp
  have h1 := hi.placed.all.mem_iff.2 hm
  have hs : ((demo4 F).s.info 1).state = .recvBl := rfl
  rcases List.mem_append.1 h1 with h | h
  · exact absurd (hi.placed.st_ready 1 h) (by rw [hs]; simp)
  · exact ⟨r, b, hi.placed, h, .inl hs⟩

example : ∃ cs to, (demo4 F).pend 1 = some (cs, to) ∧ ∀ e ∈ ((demo4 F).box 1).mail, ¬ Accepts F cs e := C115_waits_partial demo_reach demo_waits

theorem demo_accepts (v : T) : Accepts F anyMsg v := ⟨_, List.mem_singleton.2 rfl, by rw [pm_binder (v := Mbox.x) (by simp [binderVar, binder, Mbox.x, symMatchAny, symNil])]; rfl⟩

example (v : T) : ∃ y z, Acts F 32 (demo4 F) (.send 1 v) y (.sent true) ∧ RunR F 32 y [.sched (.round 1), .sched (.round 2)] z 2 ∧ Meets F 32 1 (Receives F 32 1 anyMsg v) y [.sched (.round 1), .sched (.round 2)] := by
  obtain ⟨r, b, h0⟩ := reach_inv (demo_reach (F := F))
  obtain ⟨y, hs, he, -⟩ := send_spec (w := 32) h0 1 v
  have hl : (1 : Nat) ∈ (demo4 F).live := by show 1 ∈ [2, 1]; simp
  rw [decide_eq_true hl] at hs
  have hs : Acts F 32 (demo4 F) (.send 1 v) y (.sent true) := ⟨_, hs⟩
  have ha0 : y.s.atomic = false := (does_spec h0.placed he.ok.1 he.ok.2.1).2.2.1
  have hi := eff_inv h0 he
  obtain ⟨y1, r1, ⟨r, b, hi⟩, ha⟩ := round_acts (w := 32) hi ha0 1
  obtain ⟨y2, r2, -⟩ := round_acts (w := 32) hi ha 2
  have hrun : RunR F 32 y [.sched (.round 1), .sched (.round 2)] y2 2 := by
    have h2 : RunR F 32 y1 [.sched (.round 2)] y2 1 := by
      have := RunR.cons (F := F) (w := 32) (x := y1) (a := .sched (.round 2)) ⟨trivial, trivial⟩ r2 .nil
      rwa [show roundNow y1 (.sched (.round 2)) = 1 by simp [roundNow, ha]] at this
    have := RunR.cons (F := F) (w := 32) (x := y) (a := .sched (.round 1)) ⟨trivial, trivial⟩ r1 h2
    rwa [show roundNow y (.sched (.round 1)) = 1 by simp [roundNow, ha0]] at this
  exact ⟨_, _, hs, hrun, C115_received_partial demo_reach demo_waits rfl (fun cl h => by rw [List.mem_singleton.1 h]; rfl) (demo_accepts v) hs hrun (by show 2 ≤ 2; omega) ⟨by simp, by simp⟩ (by show 0 < 10; omega)⟩

/-- The full claim fails when memory is short: with fewer than two free cells a process with one message blocks in `(recv ((? x) x))`, without an error, although its pattern accepts the message. -/
theorem C115_low_memory_violated {x : W} (h : Reach F w x) {c : Cid} (hr : x.s.running = some c) (hat : x.s.atomic = false) (hm : (x.box c).num = 1) {free : Nat} (hf : free < 2) (now us : Nat) (env : Env) (gcFree : Nat) (tr : Bool) :
    ∃ y, Acts F w x (.recv anyMsg false now us env free gcFree tr) y (.received .block) ∧ Waits y c ∧ ∃ e ∈ (y.box c).mail, Accepts F anyMsg e := by
  obtain ⟨r, b, hi⟩ := reach_inv h
  have ho : Allowed x.s x.live (.block .recvBl now us tr) := ⟨by rw [hr]; simp, by simp⟩
  obtain ⟨y, e, hd, hl, -, hbx, -⟩ := sched_spec (w := w) hi ho
  have er := (C35_low_memory_violated F (x.box c) hm Mbox.x env free gcFree hf).2
  have hp := (does_spec hi.placed ho hd).1
  have hb : c ∈ (after w x.s r b (.block .recvBl now us tr)).blocked := by simp [after, hat, hr]
  refine ⟨{ y with pend := put y.pend c (some (anyMsg, false)) }, ⟨r.length + b.length, fun f hff => ?_⟩, ⟨_, _, by rw [← hl] at hp; exact hp, hb, ?_⟩, ?_⟩
  · simp only [wstep, hat, hr, recvIn, Bool.false_eq_true, if_false]
    rw [show receive F anyMsg (x.box c) env free gcFree = some .block from er]
    simp only
    rw [e f hff]
  · obtain ⟨-, -, t, n, u, tr', g1, g2⟩ := new_blocked hd (placed_running hi.placed hr).2 hb
    cases g1
    exact .inl g2
  · refine ⟨(x.box c).slot 0, ?_, demo_accepts _⟩
    show _ ∈ (y.box c).mail
    rw [hbx c (by simp [timedOut]) (by simp)]
    simp [Mbox.mail, hm]

/-- Such a state is reached: process 1 runs and the host has sent it a message. -/
example (v : T) : ∃ x, Reach F 32 x ∧ x.s.running = some 1 ∧ x.s.atomic = false ∧ (x.box 1).num = 1 := by
  have h3 : Reach F 32 (demo3 F) := by
    refine ⟨_, _, _, _, .cons (a := .sched (.create 1)) ?_ demo_acts1 (.cons (a := .sched (.create 2)) ?_ demo_acts2 (.cons (a := .sched (.round 0)) ?_ demo_acts3 .nil))⟩
    · exact ⟨by simp [Allowed, start], trivial⟩
    · exact ⟨by show 2 ∉ [1]; simp, trivial⟩
    · exact ⟨trivial, trivial⟩
  obtain ⟨r, b, h0⟩ := reach_inv h3
  obtain ⟨y, hs, he, -, -, -, -, h5⟩ := send_spec (w := 32) h0 1 v
  have hd := does_spec h0.placed he.ok.1 he.ok.2.1
  obtain ⟨k, info, box, as, hrun⟩ := h3
  have app : ∀ {x y z : W} {as : List Act} {a : Act} {res : Res}, Run F 32 x as y → Ok y a → Acts F 32 y a z res → Run F 32 x (as ++ [a]) z := by
    intro x y z as a res h ho ha
    induction h with
    | nil => exact .cons ho ha .nil
    | cons ho' ha' _ ih => exact .cons ho' ha' (ih ho ha)
  refine ⟨y, ⟨k, info, box, _, app hrun (a := .send 1 v) trivial ⟨_, hs⟩⟩, ?_, hd.2.2.1, ?_⟩
  · rw [hd.2.1]
    simp only [after]
    split <;> rfl
  · rw [← mail_length, (h5 (by show 1 ∈ [2, 1]; simp)).2]
    rfl

end Verif.Chat
