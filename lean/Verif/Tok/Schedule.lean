import Verif.Tok.Closed
import Verif.Tok.ChanProps

/-!
# C19: tokenising does not depend on how the input arrives

The environment feeds characters to the channel in chunks of any size, closes it
at some point, and the reader runs its token dispatch at any moments in between.
-/

namespace Verif.Tok

/-- What happens to a reader. -/
inductive Event where
  /-- the writer writes characters -/
  | feed (bs : List Byte)
  /-- the writer closes the channel -/
  | close
  /-- the reader runs `cont_read_next_token` once -/
  | step

/-- A reader: its channel, the tokens it got, and how it ended. -/
structure Reader where
  stream : Stream
  out : List Token
  result : Option Out

/-- One event.  A closed channel takes no characters, a reader that has ended
does not run. -/
def Reader.event (r : Reader) : Event → Reader
  | .feed bs =>
    if r.stream.ended then r else { r with stream := { r.stream with avail := r.stream.avail ++ bs } }
  | .close => { r with stream := { r.stream with ended := true } }
  | .step =>
    match r.result with
    | some _ => r
    | none =>
      match nextToken r.stream with
      | (.token t, s) => { r with stream := s, out := r.out ++ [t] }
      | (.again, s) => { r with stream := s }
      | (o, s) => { r with stream := s, result := some o }

/-- A reader at the start. -/
def Reader.init : Reader := ⟨⟨[], false, false⟩, [], none⟩

/-- A run of events. -/
def Reader.run (r : Reader) (es : List Event) : Reader := es.foldl Reader.event r

/-- The characters fed before the channel is closed. -/
def input : List Event → List Byte
  | [] => []
  | .feed bs :: es => bs ++ input es
  | .close :: _ => []
  | .step :: es => input es

/-- Is the channel closed in the run? -/
def closed : List Event → Bool
  | [] => false
  | .close :: _ => true
  | _ :: es => closed es

/-- Tokenise a channel that holds all the input: the tokens and the final outcome. -/
def lexN : Nat → Stream → List Token × Out
  | 0, _ => ([], .fuel)
  | k + 1, s =>
    match nextToken s with
    | (.token t, s') => let r := lexN k s'; (t :: r.1, r.2)
    | (o, _) => ([], o)

/-- All the input at once on a closed channel.  Every token takes at least one
character, so this many rounds are enough. -/
def lexAll (bs : List Byte) : List Token × Out := lexN (bs.length + 1) ⟨bs, true, false⟩

/-! ## Proof -/

/-- Tokenising `s` gives `ts` and ends with `o`. -/
inductive Lexes : Stream → List Token → Out → Prop where
  | stop {s s' o} (h : nextToken s = (o, s')) (ho : ∀ t, o ≠ .token t) : Lexes s [] o
  | tok {s s' t ts o} (h : nextToken s = (.token t, s')) (hr : Lexes s' ts o) : Lexes s (t :: ts) o

theorem Lexes.unique {s : Stream} {ts : List Token} {o : Out} (h : Lexes s ts o) :
    ∀ {ts' o'}, Lexes s ts' o' → ts = ts' ∧ o = o' := by
  induction h with
  | stop h ho =>
    intro ts' o' h'
    cases h' with
    | stop h2 _ => rw [h] at h2; cases h2; exact ⟨rfl, rfl⟩
    | tok h2 _ => rw [h] at h2; cases h2; exact absurd rfl (ho _)
  | tok h _ ih =>
    intro ts' o' h'
    cases h' with
    | stop h2 ho => rw [h] at h2; cases h2; exact absurd rfl (ho _)
    | tok h2 hr => rw [h] at h2; cases h2; obtain ⟨rfl, rfl⟩ := ih hr; exact ⟨rfl, rfl⟩

theorem lexN_lexes : ∀ k (s : Stream), s.ended = true → s.avail.length < k →
    Lexes s (lexN k s).1 (lexN k s).2 := by
  intro k
  induction k with
  | zero => intro s _ h; omega
  | succ k ih =>
    intro s hs hk
    have hc := nextToken_closed s hs
    rcases hn : nextToken s with ⟨o, s'⟩
    rw [hn] at hc
    cases o with
    | token t =>
      simp only [lexN, hn]
      exact .tok hn (ih s' hc.2.2.1 (by have := hc.2.2.2 t rfl; simp only at this; omega))
    | _ => simp only [lexN, hn]; exact .stop hn (fun _ h => by cases h)

theorem lexAll_lexes (bs : List Byte) : Lexes ⟨bs, true, false⟩ (lexAll bs).1 (lexAll bs).2 :=
  lexN_lexes _ _ rfl (Nat.lt_succ_self _)

theorem Lexes.same_out {s s' : Stream} (h1 : (nextToken s).1 = (nextToken s').1)
    (h2 : (nextToken s).1 ≠ .finished → nextToken s = nextToken s') {ts o} (h : Lexes s' ts o) :
    Lexes s ts o := by
  cases h with
  | stop h ho =>
    refine .stop (s' := (nextToken s).2) (Prod.ext ?_ rfl) ho
    rw [h1, h]
  | tok h hr =>
    refine .tok (h2 ?_ ▸ h) hr
    rw [h1, h]; intro h; cases h

/-- What the run so far says of the whole input, `m` being the characters still
to come. -/
def Inv (inp : List Byte) (r : Reader) : Prop :=
  match r.result with
  | none => (r.stream.ended = false → ∀ m ts o, Lexes (r.stream.extend m true) ts o →
        Lexes ⟨inp ++ m, true, false⟩ (r.out ++ ts) o) ∧
      (r.stream.ended = true → ∀ ts o, Lexes r.stream ts o → Lexes ⟨inp, true, false⟩ (r.out ++ ts) o)
  | some o => (r.stream.ended = false → ∀ m, Lexes ⟨inp ++ m, true, false⟩ r.out o) ∧
      (r.stream.ended = true → Lexes ⟨inp, true, false⟩ r.out o)

theorem inv_append {inp : List Byte} {r : Reader} (h : Inv inp r) (he : r.stream.ended = false)
    (bs : List Byte) :
    Inv (inp ++ bs) { r with stream := { r.stream with avail := r.stream.avail ++ bs } } := by
  unfold Inv at h ⊢
  cases hr : r.result with
  | none =>
    rw [hr] at h
    simp only [he, forall_const] at h ⊢
    refine ⟨fun m ts o hl => ?_, fun h => by cases h⟩
    rw [List.append_assoc]
    refine h.1 (bs ++ m) ts o ?_
    simpa [Stream.extend] using hl
  | some o =>
    rw [hr] at h
    simp only [he, forall_const] at h ⊢
    exact ⟨fun m => by rw [List.append_assoc]; exact h.1 _, fun h => by cases h⟩

theorem inv_close {inp : List Byte} {r : Reader} (h : Inv inp r) :
    Inv inp { r with stream := { r.stream with ended := true } } := by
  unfold Inv at h ⊢
  cases he : r.stream.ended with
  | true =>
    have : ({ r.stream with ended := true } : Stream) = r.stream := by rw [← he]
    simp only [this, he] at h ⊢; simpa using h
  | false =>
    cases hr : r.result with
    | none =>
      rw [hr] at h
      simp only at h ⊢
      refine ⟨fun h => by simp at h, fun _ ts o hl => ?_⟩
      have := h.1 he [] ts o
      simp only [Stream.extend, List.append_nil] at this
      exact this hl
    | some o =>
      rw [hr] at h
      simp only at h ⊢
      refine ⟨fun h => by simp at h, fun _ => ?_⟩
      have := h.1 he []
      rwa [List.append_nil] at this

theorem inv_step {inp : List Byte} {r : Reader} (h : Inv inp r) : Inv inp (r.event .step) := by
  cases hr : r.result with
  | some o => simp only [Reader.event, hr]; exact h
  | none =>
    unfold Inv at h
    simp only [hr] at h
    cases he : r.stream.ended with
    | true =>
      have hc := nextToken_closed r.stream he
      rcases hn : nextToken r.stream with ⟨o, s⟩
      rw [hn] at hc
      cases o with
      | token t =>
        simp only [Reader.event, hr, hn, Inv]
        refine ⟨(fun h => absurd (h.symm.trans hc.2.2.1) (by simp)), fun _ ts o hl => ?_⟩
        rw [List.append_assoc]
        exact h.2 he _ o (.tok hn hl)
      | again => exact absurd rfl hc.1
      | fuel => exact absurd rfl hc.2.1
      | _ =>
        simp only [Reader.event, hr, hn, Inv]
        refine ⟨(fun h => absurd (h.symm.trans hc.2.2.1) (by simp)), fun _ => ?_⟩
        rw [← List.append_nil r.out]
        exact h.2 he [] _ (.stop hn (fun _ h => by cases h))
    | false =>
      have hx := fun m => nextToken_extend r.stream he m true
      rcases hn : nextToken r.stream with ⟨o, s⟩
      simp only [hn] at hx
      have hse : s.ended = false := (hx []).2.2.2
      cases o with
      | token t =>
        simp only [Reader.event, hr, hn, Inv]
        refine ⟨fun _ m ts o hl => ?_, fun h => absurd (h.symm.trans hse) (by simp)⟩
        rw [List.append_assoc]
        exact h.1 he m _ o (.tok ((hx m).2.1 (fun h => by cases h)) hl)
      | again =>
        simp only [Reader.event, hr, hn, Inv]
        refine ⟨fun _ m ts o hl => ?_, fun h => absurd (h.symm.trans hse) (by simp)⟩
        exact h.1 he m _ o (.same_out ((hx m).1 rfl).1 ((hx m).1 rfl).2 hl)
      | finished => exact absurd rfl (hx []).2.2.1
      | _ =>
        simp only [Reader.event, hr, hn, Inv]
        refine ⟨fun _ m => ?_, fun h => absurd (h.symm.trans hse) (by simp)⟩
        rw [← List.append_nil r.out]
        exact h.1 he m [] _ (.stop ((hx m).2.1 (fun h => by cases h)) (fun _ h => by cases h))

theorem event_ended (r : Reader) (h : r.stream.ended = true) (e : Event) :
    (r.event e).stream.ended = true := by
  cases e with
  | feed bs => simp only [Reader.event, h, if_true]
  | close => rfl
  | step =>
    simp only [Reader.event]
    cases hr : r.result with
    | some _ => exact h
    | none =>
      have hc := nextToken_closed r.stream h
      rcases hn : nextToken r.stream with ⟨o, s⟩
      rw [hn] at hc
      cases o <;> exact hc.2.2.1

theorem event_open (r : Reader) (h : r.stream.ended = false) :
    (r.event .step).stream.ended = false := by
  simp only [Reader.event]
  cases hr : r.result with
  | some _ => exact h
  | none =>
    have hc := (nextToken_extend r.stream h [] true).2.2.2
    rcases hn : nextToken r.stream with ⟨o, s⟩
    rw [hn] at hc
    cases o <;> exact hc

theorem inv_run_closed : ∀ (es : List Event) (inp : List Byte) (r : Reader), Inv inp r →
    r.stream.ended = true → Inv inp (r.run es) ∧ (r.run es).stream.ended = true := by
  intro es
  induction es with
  | nil => intro inp r h he; exact ⟨h, he⟩
  | cons e es ih =>
    intro inp r h he
    refine ih inp (r.event e) ?_ (event_ended r he e)
    cases e with
    | feed bs => simp only [Reader.event, he, if_true]; exact h
    | close => exact inv_close h
    | step => exact inv_step h

theorem inv_run : ∀ (es : List Event) (inp : List Byte) (r : Reader), Inv inp r →
    r.stream.ended = false → Inv (inp ++ input es) (r.run es) ∧
      (r.run es).stream.ended = closed es := by
  intro es
  induction es with
  | nil => intro inp r h he; simp only [input, List.append_nil]; exact ⟨h, he⟩
  | cons e es ih =>
    intro inp r h he
    cases e with
    | feed bs =>
      have h1 := inv_append h he bs
      have e1 : r.event (.feed bs) =
          { r with stream := { r.stream with avail := r.stream.avail ++ bs } } := by
        simp only [Reader.event, he, Bool.false_eq_true, if_false]
      have := ih (inp ++ bs) (r.event (.feed bs)) (e1 ▸ h1) (by rw [e1]; exact he)
      simp only [input, ← List.append_assoc]
      exact this
    | close =>
      simp only [input, List.append_nil]
      exact inv_run_closed es inp _ (inv_close h) rfl
    | step => exact ih inp _ (inv_step h) (event_open r he)

theorem inv_init : Inv [] Reader.init := by
  refine ⟨fun _ m ts o h => ?_, fun h => by cases h⟩
  simpa [Stream.extend, Reader.init] using h

/-! ## The property -/

/-- However the characters arrive and whenever the reader looks at them, the
tokens it has got are an initial part of what it would get from all the input at
once, whatever input `more` is still to come; and once it has ended, tokens and
outcome are those of all the input. -/
theorem C19_any_schedule (es : List Event) (more : List Byte) (hm : closed es = true → more = []) :
    (Reader.init.run es).out <+: (lexAll (input es ++ more)).1 ∧
    ∀ o, (Reader.init.run es).result = some o →
      lexAll (input es ++ more) = ((Reader.init.run es).out, o) := by
  obtain ⟨hi, he⟩ := inv_run es [] Reader.init inv_init rfl
  rw [List.nil_append] at hi
  generalize Reader.init.run es = r at hi he
  have hl := lexAll_lexes (input es ++ more)
  unfold Inv at hi
  cases hr : r.result with
  | none =>
    refine ⟨?_, fun o h => by cases h⟩
    rw [hr] at hi
    simp only at hi
    cases hc : closed es with
    | false =>
      rw [hc] at he
      have h1 := lexN_lexes ((r.stream.extend more true).avail.length + 1) (r.stream.extend more true)
        rfl (Nat.lt_succ_self _)
      have h2 := (hi.1 he more _ _ h1).unique hl
      rw [← h2.1]
      exact List.prefix_append _ _
    | true =>
      rw [hc] at he
      rw [hm hc, List.append_nil] at hl ⊢
      have h1 := lexN_lexes (r.stream.avail.length + 1) r.stream he (Nat.lt_succ_self _)
      have h2 := (hi.2 he _ _ h1).unique hl
      rw [← h2.1]
      exact List.prefix_append _ _
  | some o =>
    rw [hr] at hi
    simp only at hi
    have key : r.out = (lexAll (input es ++ more)).1 ∧ o = (lexAll (input es ++ more)).2 := by
      cases hc : closed es with
      | false => rw [hc] at he; exact (hi.1 he more).unique hl
      | true =>
        rw [hc] at he
        rw [hm hc, List.append_nil] at hl ⊢
        exact (hi.2 he).unique hl
    refine ⟨by rw [← key.1]; exact List.prefix_rfl, fun o' h => ?_⟩
    cases h
    exact Prod.ext key.1.symm key.2.symm

/-- Once the channel is closed the reader ends after at most as many further
steps as there are characters left, plus one. -/
theorem closed_terminates : ∀ (k : Nat) (r : Reader), r.stream.ended = true →
    (r.result = none → r.stream.avail.length < k) →
    ((r.run (List.replicate k .step)).result ≠ none) := by
  intro k
  induction k with
  | zero =>
    intro r _ h hr
    exact absurd (h hr) (by omega)
  | succ k ih =>
    intro r he h
    refine ih (r.event .step) (event_ended r he _) ?_
    cases hr : r.result with
    | some o => simp only [Reader.event, hr]; intro h; cases h
    | none =>
      have hc := nextToken_closed r.stream he
      have hlen := h hr
      rcases hn : nextToken r.stream with ⟨o, s⟩
      rw [hn] at hc
      simp only [Reader.event, hr, hn]
      cases o with
      | token t => intro _; have := hc.2.2.2 t rfl; simp only at this ⊢; omega
      | again => exact absurd rfl hc.1
      | _ => intro h; cases h

theorem run_append (r : Reader) (a b : List Event) : r.run (a ++ b) = (r.run a).run b :=
  List.foldl_append

theorem C19_closed_terminates (es : List Event) (hc : closed es = true) :
    (Reader.init.run (es ++ List.replicate ((Reader.init.run es).stream.avail.length + 1) .step)).result
      ≠ none := by
  rw [run_append]
  refine closed_terminates _ _ ?_ (fun _ => Nat.lt_succ_self _)
  rw [(inv_run es [] Reader.init inv_init rfl).2, hc]

/-- `(a 12)` in three pieces, the reader looking after each: the open piece `1`
of the number is not taken for a number. -/
example : (Reader.init.run [.feed (ascii "(a 1"), .step, .step, .step, .feed (ascii "2)"), .step, .step,
    .step, .close, .step]).out =
      [.syntax 1, .symbol (ascii "a"), .int 101 false 12, .syntax 2] ∧
    (Reader.init.run [.feed (ascii "(a 1"), .step, .step, .step, .feed (ascii "2)"), .step, .step,
      .step, .close, .step]).result = some .finished := by decide +kernel

/-! ## The buffered channel in place of the ideal stream -/

theorem ring_agrees {r : Ring} {q : Queue} (h : Holds r q) {n : Nat} (c : Bool)
    (hn : n ≤ q.pending.length) : r.peek n = Stream.peek ⟨q.pending, q.writerClosed, c⟩ n := by
  have := h.len
  rw [holds_peek h n (by omega)]
  rfl

theorem ring_reach {r : Ring} {q : Queue} (h : Holds r q) {n : Nat} (hr : Reach r.peek n) :
    n ≤ q.pending.length := by
  by_cases hn : n ≤ q.pending.length
  · exact hn
  · obtain ⟨c, e⟩ := hr q.pending.length (by omega)
    rw [ring_agrees h false (Nat.le_refl _)] at e
    unfold Stream.peek at e
    rw [List.getElem?_eq_none (Nat.le_refl _)] at e
    cases he : q.writerClosed <;> simp [he] at e

theorem ring_stops {r : Ring} {q : Queue} (h : Holds r q) :
    Stops r.peek (q.pending.length + 2) := by
  obtain ⟨m, hm, hc⟩ := stream_stops ⟨q.pending, q.writerClosed, false⟩
  refine ⟨q.pending.length, by omega, fun c e => ?_⟩
  rw [ring_agrees h false (Nat.le_refl _)] at e
  unfold Stream.peek at e
  rw [List.getElem?_eq_none (Nat.le_refl _)] at e
  cases he : q.writerClosed <;> simp [he] at e

/-- The tokenizers see the same through the ring buffer of a buffered channel as
through the queue it stands for: they look at a position only after all earlier
ones, so never beyond the 256 characters the buffer can hold. -/
theorem C19_ring_dispatch {r : Ring} {q : Queue} (h : Holds r q) (c : Bool) :
    dispatch r.peek (q.pending.length + 2) =
      dispatch (Stream.peek ⟨q.pending, q.writerClosed, c⟩) (q.pending.length + 2) := by
  have h1 : Ext r.peek (Stream.peek ⟨q.pending, q.writerClosed, c⟩) :=
    fun n hr => Or.inr (ring_agrees h c (ring_reach h hr))
  have h2 : Ext (Stream.peek ⟨q.pending, q.writerClosed, c⟩) r.peek :=
    fun n hr => Or.inr (ring_agrees h c (stream_reach hr)).symm
  have f1 := dispatch_ne_fuel (ring_stops h)
  have f2 := dispatch_ne_fuel (stream_stops ⟨q.pending, q.writerClosed, c⟩)
  rcases dispatch_ext h1 (Nat.le_refl (q.pending.length + 2)) with a | a | a
  · rcases dispatch_ext h2 (Nat.le_refl (q.pending.length + 2)) with b | b | b
    · refine Prod.ext (a.trans b.symm) ?_
      rw [(dispatch_uses _ _).2.1 a, (dispatch_uses _ _).2.1 b]
    · exact absurd b f2
    · exact b.symm
  · exact absurd a f1
  · exact a

example (g : Nat → Byte) : Holds (Ring.create g) ⟨[], [], false, false⟩ := holds_create g

end Verif.Tok
