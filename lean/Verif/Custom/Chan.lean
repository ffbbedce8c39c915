import Verif.Custom.Props
import Verif.Defrag.Props

/-
Reading a program from a string (`read`, `read-program`, `read-eval-program` of a string; C127): the channel that the reader gets
its characters from, and its relation to the string, over the cell heap, the collector and the blocks in use of `Verif.Custom`.

Simplifications:
* The allocator is a function of the blocks in use that yields an address or fails. The order of the list of blocks in use has no meaning.
* Of the state of a channel only the address of the text and its length are kept; what the reader does with it is treated in `Verif.Tok`.
* The bytes of an array are given by the address of its data.
* Channels that the host made itself (`lift_char_channel`) are not modelled.
-/

namespace Verif.Custom

open Verif.Heap

/-- The world, the states of string channels (`str`, `length` of `lbm_string_channel_state_t`, `include/lbm_channel.h:91-101`) by the address of
their block, and the bytes of arrays by the address of their data. -/
structure Src where
  w : World
  state : Nat → Nat × Nat
  bytes : Nat → List Nat

/-- `strlen`. `none`: there is no terminator, it reads outside of the array. -/
def strlen : List Nat → Option Nat
  | [] => none
  | b :: bs => if b = 0 then some 0 else (strlen bs).map (· + 1)

/-- `create_string_channel`, `src/eval_cps.c:846-873`, with `lbm_create_string_char_channel`, `src/lbm_channel.c:380-410`, and
`lbm_char_channel_set_dependency`, `src/lbm_channel.c:445-447`, for a text at `da`. `none`: the function returns false. -/
def createString (al : List Release → Option Nat) (r : Src) (da : Nat) (dep : Val) : Out (Src × Option Val) :=
  match al r.w.inUse with
  | none => .ok (r, none)
  | some st =>
    match al (.mem st :: r.w.inUse) with
    | none => .ok ({ r with w := { r.w with inUse := (.mem st :: r.w.inUse).erase (.mem st) } }, none)
    | some ch =>
      match strlen (r.bytes da) with
      | none => .ub
      | some len =>
        let u := .mem st :: .mem ch :: r.w.inUse
        let state := fun a => if a = st then (da, len) else r.state a
        match allocateCell r.w.heap .channel (.channel (some (ch, st)) nil) with
        | (h, .ptr t c i) =>
          .ok (⟨{ r.w with heap := h.setCell i { h.cells i with content := .channel (some (ch, st)) dep }, inUse := u }, state, r.bytes⟩, some (.ptr t c i))
        | (_, _) => .ok (⟨{ r.w with inUse := (u.erase (.mem st)).erase (.mem ch) }, state, r.bytes⟩, none)

/-- `lbm_dec_str`, `src/heap.c:231-239`, for an array with its data in a block of its own. `none`: not such an array. -/
def decStr (h : Heap) (x : Val) : Option Nat :=
  match x with
  | .ptr .array false i =>
    match (h.cells i).content with
    | .byteArr _ da => some da
    | _ => none
  | _ => none

/-- What `read` comes to before the first character is read: a channel, or an error. -/
inductive Opened
  | chan (v : Val) | merror | eerror
deriving DecidableEq, Repr

/-- `apply_read_base`, `src/eval_cps.c:2357-2373`, for an argument that is no channel: the channel is made, when that
fails there is a collection and a second attempt. The argument is still on the stack, so that it is in `ctxs`. -/
def openString (al : List Release → Option Nat) (fuel : Nat) (r : Src) (x : Val) (glob : List Val) (ctxs : List CtxRoots) : Option (Out (Src × Opened)) :=
  match decStr r.w.heap x with
  | none => some (.ok (r, .eerror))
  | some da =>
    match createString al r da x with
    | .ub => some .ub
    | .critical => some .critical
    | .ok (r1, some v) => some (.ok (r1, .chan v))
    | .ok (r1, none) =>
      match collect fuel r1.w [] glob ctxs with
      | none => none
      | some .ub => some .ub
      | some .critical => some .critical
      | some (.ok w2) =>
        match decStr w2.heap x with
        | none => some .ub
        | some da2 =>
          match createString al { r1 with w := w2 } da2 x with
          | .ub => some .ub
          | .critical => some .critical
          | .ok (r3, some v) => some (.ok (r3, .chan v))
          | .ok (r3, none) => some (.ok (r3, .merror))

/-! ## Specification -/

/-- The allocator hands out blocks that are not in use (C01). -/
def Fresh (al : List Release → Option Nat) : Prop := ∀ u a, al u = some a → .mem a ∉ u

/-- Cell `i` is an open channel on the text of the string in cell `j`: the text it reads is where the string has its bytes and is shorter than the string, and the blocks of
channel and string are in use. -/
def ReadsFrom (r : Src) (i j : Nat) : Prop :=
  ∃ ch st hd da len, (r.w.heap.cells i).content = .channel (some (ch, st)) (.ptr .array false j) ∧ (r.w.heap.cells j).content = .byteArr hd da ∧
    r.state st = (da, len) ∧ len < (r.bytes da).length ∧ .mem ch ∈ r.w.inUse ∧ .mem st ∈ r.w.inUse ∧ .mem hd ∈ r.w.inUse ∧ .mem da ∈ r.w.inUse

/-- The text of the channel in cell `i` ends at the first zero byte of the string. -/
def WholeText (r : Src) (i : Nat) : Prop :=
  ∃ ch st dep da len, (r.w.heap.cells i).content = .channel (some (ch, st)) dep ∧ r.state st = (da, len) ∧ (r.bytes da)[len]? = some 0 ∧
    ∀ k < len, (r.bytes da)[k]? ≠ some 0

/-- What may happen while the channel in cell `i` reads the string in cell `j`: other objects and other channels are made, cells of other objects are written, custom values are
destroyed, bytes of arrays are stored, there are collections. The reader holds the channel, so that a collection finds it. -/
inductive Reading (n cap i j : Nat) (al : List Release → Option Nat) : Src → List (Nat × Nat) → (Nat → Prop) → (Nat → Prop) → Prop
  | start {r : Src} {made : List (Nat × Nat)} {live cust : Nat → Prop} : Hist n cap r.w made live cust → live i → live j → ReadsFrom r i j →
      Reading n cap i j al r made live cust
  | alloc {r : Src} {made : List (Nat × Nat)} {live cust : Nat → Prop} {t : PTy} {c : Content} {h : Heap} {k : Nat} : Reading n cap i j al r made live cust →
      Content.isCustom c = false → (blocks c).Nodup → (∀ b ∈ blocks c, b ∉ r.w.inUse) → allocateCell r.w.heap t c = (h, .ptr t false k) →
      Reading n cap i j al { r with w := { r.w with heap := h, inUse := blocks c ++ r.w.inUse } } made (fun m => live m ∨ m = k) cust
  | chan {r r' : Src} {made : List (Nat × Nat)} {live cust : Nat → Prop} {j' hd da k : Nat} : Reading n cap i j al r made live cust → live j' →
      (r.w.heap.cells j').content = .byteArr hd da → 0 ∈ r.bytes da → createString al r da (.ptr .array false j') = .ok (r', some (.ptr .channel false k)) →
      Reading n cap i j al r' made (fun m => live m ∨ m = k) cust
  | write {r : Src} {made : List (Nat × Nat)} {live cust : Nat → Prop} {k : Nat} {c : Content} : Reading n cap i j al r made live cust → live k → ¬ cust k →
      k ≠ i → k ≠ j → Content.isCustom c = false → blocks c = blocks (r.w.heap.cells k).content →
      Reading n cap i j al { r with w := { r.w with heap := r.w.heap.setCell k { r.w.heap.cells k with content := c } } } made live cust
  | destruct {r : Src} {w' : World} {made : List (Nat × Nat)} {live cust : Nat → Prop} {k a : Nat} : Reading n cap i j al r made live cust → cust k →
      (r.w.heap.cells k).content = .custom a → customDestruct r.w (.ptr .custom false k) = .ok (w', .true) →
      Reading n cap i j al { r with w := w' } made live cust
  | store {r : Src} {made : List (Nat × Nat)} {live cust : Nat → Prop} {bytes : Nat → List Nat} : Reading n cap i j al r made live cust →
      (∀ a, (bytes a).length = (r.bytes a).length) → Reading n cap i j al { r with bytes := bytes } made live cust
  | gc {r : Src} {w' : World} {made : List (Nat × Nat)} {live cust : Nat → Prop} {fuel : Nat} {pre glob : List Val} {ctxs : List CtxRoots} :
      Reading n cap i j al r made live cust → WF r.w.heap → RootsOK r.w.heap pre glob ctxs → StackFits r.w.heap → r.w.heap.dropped = false →
      (∀ i < r.w.heap.size, ¬ Reachable r.w.heap (rootsOf r.w.heap pre glob ctxs) i → PlainContent (r.w.heap.cells i).content) →
      Reachable r.w.heap (rootsOf r.w.heap pre glob ctxs) i → (∀ f, fuel ≤ f → collect f r.w pre glob ctxs = some (.ok w')) →
      Reading n cap i j al { r with w := w' } made (Reachable r.w.heap (rootsOf r.w.heap pre glob ctxs))
        (fun i => cust i ∧ Reachable r.w.heap (rootsOf r.w.heap pre glob ctxs) i)

/-! ## Lemmas -/

theorem strlen_some {bs : List Nat} : ∀ {n : Nat}, strlen bs = some n → n < bs.length ∧ bs[n]? = some 0 ∧ ∀ k < n, bs[k]? ≠ some 0 := by
  induction bs with
  | nil => intro n h; simp [strlen] at h
  | cons b bs ih =>
    intro n h
    simp only [strlen] at h
    split at h
    · next hb => simp only [Option.some.injEq] at h; subst h; subst hb; exact ⟨by simp, rfl, by omega⟩
    · next hb =>
      cases hs : strlen bs with
      | none => simp [hs] at h
      | some m =>
        simp only [hs, Option.map_some, Option.some.injEq] at h
        subst h
        obtain ⟨h1, h2, h3⟩ := ih hs
        refine ⟨by simpa using h1, by simpa using h2, ?_⟩
        intro k hk
        cases k with
        | zero => simpa using hb
        | succ k => simpa using h3 k (by omega)

theorem strlen_of_mem {bs : List Nat} (h : 0 ∈ bs) : ∃ n, strlen bs = some n := by
  induction bs with
  | nil => cases h
  | cons b bs ih =>
    simp only [strlen]
    by_cases hb : b = 0
    · simp [hb]
    · obtain ⟨n, hn⟩ := ih ((List.mem_cons.1 h).resolve_left (Ne.symm hb))
      simp [hb, hn]

theorem alloc_ptr {n cap : Nat} {h : Heap} {live : Nat → Prop} (hcap : 0 < cap) (hh : Heap.Hist n cap h live) (t : PTy) (c : Content) :
    (allocateCell h t c = (h, merror) ∧ numFree h = 0) ∨ ∃ h' i, allocateCell h t c = (h', .ptr t false i) ∧ 0 < numFree h := by
  obtain ⟨l, hf, _⟩ := Heap.hist_inv hcap hh
  have hlen := freeOK_len hf
  cases l with
  | nil => exact .inl ⟨allocateCell_full hf t c, by simpa using hlen⟩
  | cons k l =>
    obtain ⟨h2, e1, _⟩ := allocateCell_spec hf t c
    exact .inr ⟨h2, k, e1, by simp at hlen; omega⟩

/-! ## C127 -/

/-- C127 for making the channel of a text with a terminator. It works exactly when there are two blocks and a cell. Then the result is a channel in a cell that was not in use, with
the string as what it depends on; it reads from the string; no other cell changes. When it does not work, heap and blocks in use are as before. -/
theorem C127_create {n cap : Nat} {r : Src} {made : List (Nat × Nat)} {live cust : Nat → Prop} (hcap : 0 < cap) (hh : Hist n cap r.w made live cust)
    {al : List Release → Option Nat} (hal : Fresh al) {j hd da : Nat} (hj : live j) (hs : (r.w.heap.cells j).content = .byteArr hd da) (hz : 0 ∈ r.bytes da) :
    ∃ r' v, createString al r da (.ptr .array false j) = .ok (r', v) ∧ r'.bytes = r.bytes ∧ r'.w.log = r.w.log ∧
      (v ≠ none ↔ (∃ st, al r.w.inUse = some st ∧ ∃ ch, al (.mem st :: r.w.inUse) = some ch) ∧ 0 < numFree r.w.heap) ∧
      (v = none → r'.w = r.w) ∧
      (∀ c, v = some c → ∃ i, c = .ptr .channel false i ∧ ¬ live i ∧ (∀ k, k ≠ i → r'.w.heap.cells k = r.w.heap.cells k) ∧
        ReadsFrom r' i j ∧ WholeText r' i ∧ (∃ st ch, r'.w.inUse = .mem st :: .mem ch :: r.w.inUse ∧ .mem st ∉ r.w.inUse ∧ .mem ch ∉ r.w.inUse ∧ st ≠ ch ∧
          ∀ a, a ≠ st → r'.state a = r.state a) ∧
        Hist n cap r'.w made (fun k => live k ∨ k = i) cust) := by
  have hi := hist_inv hcap hh
  obtain ⟨l, hf, hl, hlt, hsz, hgc⟩ := Heap.hist_inv hcap hi.heap
  have hjn : j < n := by rw [← hsz]; exact hlt j hj
  have hown : .mem hd ∈ r.w.inUse ∧ .mem da ∈ r.w.inUse := by
    have hb : ∀ x, x ∈ blocks (r.w.heap.cells j).content → x ∈ r.w.inUse := by
      intro x hx
      have h1 := hi.own x
      have h2 := count_flat_one (f := fun i => blocks (r.w.heap.cells i).content) x hjn
      have h3 := List.count_pos_iff.2 hx
      exact List.count_pos_iff.1 (by omega)
    rw [hs] at hb
    exact ⟨hb _ (by simp [blocks, Content.owned]), hb _ (by simp [blocks, Content.owned])⟩
  obtain ⟨len, hlen⟩ := strlen_of_mem hz
  have hl3 := strlen_some hlen
  unfold createString
  cases h1 : al r.w.inUse with
  | none => exact ⟨r, none, rfl, rfl, rfl, by simp, fun _ => rfl, by simp⟩
  | some st =>
    have f1 := hal _ _ h1
    simp only
    cases h2 : al (.mem st :: r.w.inUse) with
    | none =>
      refine ⟨_, none, rfl, rfl, rfl, by simp [h2], fun _ => by simp, by simp⟩
    | some ch =>
      have f2 := hal _ _ h2
      have hne : st ≠ ch := by rintro rfl; simp at f2
      have f3 : .mem ch ∉ r.w.inUse := fun h => f2 (by simp [h])
      simp only [hlen]
      rcases alloc_ptr hcap hi.heap .channel (.channel (some (ch, st)) nil) with ⟨ha, h0⟩ | ⟨h', i, ha, h0⟩
      · rw [ha]
        simp only [merror]
        refine ⟨_, none, rfl, rfl, rfl, by simp [h0], fun _ => by simp, by simp⟩
      · rw [ha]
        simp only
        obtain ⟨_, hin, hnl, _, hc', hoth, hsz'⟩ := alloc_free hcap hi.heap ha
        have hji : j ≠ i := by rintro rfl; exact hnl hj
        refine ⟨_, _, rfl, rfl, rfl, by simp [h2, h0], by simp, ?_⟩
        intro c hc
        simp only [Option.some.injEq] at hc
        subst hc
        have halloc : Hist n cap { r.w with heap := h', inUse := blocks (.channel (some (ch, st)) nil) ++ r.w.inUse } made (fun k => live k ∨ k = i) cust := by
          refine .alloc hh rfl ?_ ?_ ha
          · simp [blocks, Content.owned, hne]
          · simp [blocks, Content.owned, f1, f3]
        refine ⟨i, rfl, hnl, ?_, ⟨ch, st, hd, da, len, ?_, ?_, ?_, hl3.1, ?_, ?_, ?_, ?_⟩, ⟨ch, st, .ptr .array false j, da, len, ?_, ?_, hl3.2⟩, ⟨st, ch, rfl, f1, f3, hne, ?_⟩, ?_⟩
        · intro k hk; simp [Heap.setCell, hk, hoth k hk]
        · simp [Heap.setCell]
        · simp [Heap.setCell, hji, hoth j hji, hs]
        · simp
        · simp
        · simp
        · simp [hown.1]
        · simp [hown.2]
        · simp [Heap.setCell]
        · simp
        · intro a ha'; simp [ha']
        · have hci : ¬ cust i := fun h => hnl (hi.kind i h).1
          have := Hist.write (c := .channel (some (ch, st)) (.ptr .array false j)) halloc (.inr rfl) hci rfl (by simp [hc', blocks, Content.owned])
          simpa [blocks, Content.owned] using this

theorem ReadsFrom.of {r r' : Src} {i j : Nat} (h : ReadsFrom r i j) (hi : r'.w.heap.cells i = r.w.heap.cells i) (hj : r'.w.heap.cells j = r.w.heap.cells j)
    (hst : ∀ ch st d, (r.w.heap.cells i).content = .channel (some (ch, st)) d → r'.state st = r.state st)
    (hb : ∀ a, (r'.bytes a).length = (r.bytes a).length)
    (hu : ∀ x, x ∈ blocks (r.w.heap.cells i).content ∨ x ∈ blocks (r.w.heap.cells j).content → x ∈ r.w.inUse → x ∈ r'.w.inUse) : ReadsFrom r' i j := by
  obtain ⟨ch, st, hd, da, len, h1, h2, h3, h4, h5, h6, h7, h8⟩ := h
  rw [h1, h2] at hu
  refine ⟨ch, st, hd, da, len, by rw [hi, h1], by rw [hj, h2], by rw [hst _ _ _ h1, h3], by rw [hb]; exact h4, hu _ ?_ h5, hu _ ?_ h6, hu _ ?_ h7, hu _ ?_ h8⟩ <;>
    simp [blocks, Content.owned]

open Classical in
/-- C127 for a collection: it ends normally. While the channel can be reached, channel and string stay: the cells, the blocks, the text. When it cannot be reached, its two blocks are
given back. -/
theorem C127_collect {n cap : Nat} {r : Src} {made : List (Nat × Nat)} {live cust : Nat → Prop} (hcap : 0 < cap) (hh : Hist n cap r.w made live cust)
    {i j : Nat} (hr : ReadsFrom r i j) (hin : i < n) {pre glob : List Val} {ctxs : List CtxRoots} (hw : WF r.w.heap) (ho : RootsOK r.w.heap pre glob ctxs)
    (hfit : StackFits r.w.heap) (hd : r.w.heap.dropped = false)
    (hplain : ∀ i < r.w.heap.size, ¬ Reachable r.w.heap (rootsOf r.w.heap pre glob ctxs) i → PlainContent (r.w.heap.cells i).content) :
    ∃ n0 w', (∀ fuel, n0 ≤ fuel → collect fuel r.w pre glob ctxs = some (.ok w')) ∧
      (Reachable r.w.heap (rootsOf r.w.heap pre glob ctxs) i →
        ReadsFrom { r with w := w' } i j ∧ w'.heap.cells i = r.w.heap.cells i ∧ w'.heap.cells j = r.w.heap.cells j) ∧
      (¬ Reachable r.w.heap (rootsOf r.w.heap pre glob ctxs) i → ∀ ch st dep, (r.w.heap.cells i).content = .channel (some (ch, st)) dep →
        .mem ch ∉ w'.inUse ∧ .mem st ∉ w'.inUse) := by
  have hi := hist_inv hcap hh
  obtain ⟨_, _, _, _, hs, hc⟩ := Heap.hist_inv hcap hi.heap
  have hcap' : 0 < r.w.heap.gcCap := by rw [hc]; exact hcap
  obtain ⟨n0, h', rel, hgc, _⟩ := C07_gc_preserves hw hcap' ho hfit hd hplain
  have hgc0 := hgc n0 (Nat.le_refl _)
  have hd' := gc_nodrop (b := true) hw hcap' ho (Or.inl hfit) hd hgc0
  obtain ⟨u, e, hu, hfree, hkeep, hsz⟩ := collect_ok hcap hi hw ho hplain hgc0 hd'
  have hall : ∀ fuel, n0 ≤ fuel → collect fuel r.w pre glob ctxs = collect n0 r.w pre glob ctxs := by
    intro fuel hf
    simp only [collect, hgc fuel hf, hgc0]
  have hstay : ∀ k, Reachable r.w.heap (rootsOf r.w.heap pre glob ctxs) k → ∀ x ∈ blocks (r.w.heap.cells k).content, x ∈ u := by
    intro k hk x hx
    have h1 := hu x
    have h2 := hi.own x
    have h3 := count_flat_filter (fun i => Reachable r.w.heap (rootsOf r.w.heap pre glob ctxs) i)
            (f := fun i => blocks (r.w.heap.cells i).content) x n
    have h4 := count_flat_one (f := fun i => if Reachable r.w.heap (rootsOf r.w.heap pre glob ctxs) i then blocks (r.w.heap.cells i).content else [])
      x (hkeep k hk).1
    have h5 := List.count_pos_iff.2 hx
    simp only [hk, if_true] at h4
    exact List.count_pos_iff.1 (by omega)
  refine ⟨n0, _, fun fuel hf => by rw [hall fuel hf, e], ?_, ?_⟩
  · intro hri
    have hrj : Reachable r.w.heap (rootsOf r.w.heap pre glob ctxs) j := by
      obtain ⟨ch, st, hd, da, len, h1, _⟩ := hr
      exact .step (t := .array) hri (by rw [h1]; simp [Content.refs])
    refine ⟨hr.of (hkeep i hri).2 (hkeep j hrj).2 (fun _ _ _ _ => rfl) (fun _ => rfl) ?_, (hkeep i hri).2, (hkeep j hrj).2⟩
    rintro x (hx | hx) _
    · exact hstay i hri x hx
    · exact hstay j hrj x hx
  · intro hri ch st dep hcon
    have hgone : ∀ x ∈ blocks (r.w.heap.cells i).content, x ∉ u := by
      intro x hx hm
      have h1 := hu x
      have h2 := List.nodup_iff_count.1 hi.nodup x
      have h6 : 0 < (((List.range n).filter fun i => ¬ Reachable r.w.heap (rootsOf r.w.heap pre glob ctxs) i).flatMap
          fun i => blocks (r.w.heap.cells i).content).count x := by
        rw [List.count_pos_iff, List.mem_flatMap]
        exact ⟨i, by simp [hin, hri], hx⟩
      have h7 := List.count_pos_iff.2 hm
      omega
    rw [hcon] at hgone
    exact ⟨hgone _ (by simp [blocks, Content.owned]), hgone _ (by simp [blocks, Content.owned])⟩

theorem collect_fuel {w : World} {pre glob : List Val} {ctxs : List CtxRoots} {f n0 : Nat} {w1 w2 : World}
    (h : ∀ fuel, n0 ≤ fuel → collect fuel w pre glob ctxs = some (.ok w1)) (h2 : ∀ fuel, f ≤ fuel → collect fuel w pre glob ctxs = some (.ok w2)) : w2 = w1 := by
  have a := h (n0 + f) (by omega)
  rw [h2 (n0 + f) (by omega)] at a
  simpa using a

/-- C127, over everything that may happen while a string is read: the channel stays an open channel on the text of the string, whatever other objects are made or dropped and however often there is a
collection, so that each character that the reader looks at is a byte of the string, in a block that is in use. -/
theorem C127_reading {n cap i j : Nat} {al : List Release → Option Nat} {r : Src} {made : List (Nat × Nat)} {live cust : Nat → Prop} (hcap : 0 < cap) (hal : Fresh al)
    (h : Reading n cap i j al r made live cust) : ReadsFrom r i j ∧ Hist n cap r.w made live cust := by
  suffices hs : ReadsFrom r i j ∧ Hist n cap r.w made live cust ∧ live i ∧ live j from ⟨hs.1, hs.2.1⟩
  induction h with
  | start h1 h2 h3 h4 => exact ⟨h4, h1, h2, h3⟩
  | @alloc r made live cust t c h k _ hc hn hf ha ih =>
    obtain ⟨i1, i2, i3, i4⟩ := ih
    obtain ⟨_, _, hnl, _, _, hoth, _⟩ := alloc_free hcap (hist_inv hcap i2).heap ha
    refine ⟨i1.of (hoth i (by rintro rfl; exact hnl i3)) (hoth j (by rintro rfl; exact hnl i4)) (fun _ _ _ _ => rfl) (fun _ => rfl) ?_, .alloc i2 hc hn hf ha, .inl i3, .inl i4⟩
    intro x _ hx
    simp [hx]
  | @chan r r' made live cust j' hd da k _ hj' hs hz hc ih =>
    obtain ⟨i1, i2, i3, i4⟩ := ih
    obtain ⟨r'', v, e, hb, _, _, _, hok⟩ := C127_create hcap i2 hal hj' hs hz
    rw [e] at hc
    simp only [Out.ok.injEq, Prod.mk.injEq] at hc
    obtain ⟨rfl, rfl⟩ := hc
    obtain ⟨k', hk, hnl, hoth, _, _, ⟨st, ch, hu, f1, _, _, hst⟩, hhist⟩ := hok _ rfl
    cases hk
    refine ⟨i1.of (hoth i (by rintro rfl; exact hnl i3)) (hoth j (by rintro rfl; exact hnl i4)) ?_ (by simp [hb]) ?_, hhist, .inl i3, .inl i4⟩
    · intro ch2 st2 d hcon
      refine hst _ ?_
      rintro rfl
      obtain ⟨_, _, _, _, _, h1, _, _, _, _, h6, _⟩ := i1
      rw [hcon] at h1
      simp only [Content.channel.injEq, Option.some.injEq, Prod.mk.injEq] at h1
      rw [← h1.1.2] at h6
      exact f1 h6
    · intro x _ hx
      simp [hu, hx]
  | @write r made live cust k c _ hl hcu hki hkj hc hb ih =>
    obtain ⟨i1, i2, i3, i4⟩ := ih
    refine ⟨i1.of (by simp [Heap.setCell, Ne.symm hki]) (by simp [Heap.setCell, Ne.symm hkj]) (fun _ _ _ _ => rfl) (fun _ => rfl) (fun _ _ h => h), .write i2 hl hcu hc hb, i3, i4⟩
  | @destruct r w' made live cust k a _ hcu hca he ih =>
    obtain ⟨i1, i2, i3, i4⟩ := ih
    obtain ⟨w2, e, _, _, hoth, _, hu, _, hhist⟩ := C98_destruct hcap i2 hcu hca
    rw [e] at he
    simp only [Out.ok.injEq, Prod.mk.injEq, and_true] at he
    subst he
    have hki : i ≠ k ∧ j ≠ k := by
      obtain ⟨_, _, _, _, _, h1, h2, _⟩ := i1
      constructor
      · rintro rfl; rw [h1] at hca; cases hca
      · rintro rfl; rw [h2] at hca; cases hca
    exact ⟨i1.of (hoth i hki.1) (hoth j hki.2) (fun _ _ _ _ => rfl) (fun _ => rfl) (fun _ _ h => by simpa [hu] using h), hhist, i3, i4⟩
  | @store r made live cust bytes _ hb ih =>
    obtain ⟨i1, i2, i3, i4⟩ := ih
    exact ⟨i1.of rfl rfl (fun _ _ _ _ => rfl) hb (fun _ _ h => h), i2, i3, i4⟩
  | @gc r w' made live cust fuel pre glob ctxs _ hw ho hfit hd hplain hri hc ih =>
    obtain ⟨i1, i2, i3, i4⟩ := ih
    have hi := hist_inv hcap i2
    obtain ⟨_, _, _, hlt, hs, hgc⟩ := Heap.hist_inv hcap hi.heap
    obtain ⟨n0, w2, e, hk, _⟩ := C127_collect hcap i2 i1 (by rw [← hs]; exact hlt i i3) hw ho hfit hd hplain
    obtain ⟨n1, w3, e3, _, _, _, hhist⟩ := C98_collect hcap i2 hw ho hfit hd hplain
    have h2 := collect_fuel e hc
    have h3 := collect_fuel e3 hc
    subst h2
    subst h3
    refine ⟨(hk hri).1, hhist, hri, ?_⟩
    obtain ⟨ch, st, hd, da, len, h1, _⟩ := i1
    exact .step (t := .array) hri (by rw [h1]; simp [Content.refs])

/-- C127 for `read` of a string: with a reachable string it gives a channel on the whole text of that string, or, when there is no memory for one even after a collection, a memory error. The
string stays as it is, and nothing is left allocated after an error. -/
theorem C127_open {n cap : Nat} {r : Src} {made : List (Nat × Nat)} {live cust : Nat → Prop} (hcap : 0 < cap) (hh : Hist n cap r.w made live cust)
    {al : List Release → Option Nat} (hal : Fresh al) {j hd da : Nat} (hj : live j) (hs : (r.w.heap.cells j).content = .byteArr hd da) (hz : 0 ∈ r.bytes da)
    {glob : List Val} {ctxs : List CtxRoots} (hroot : .ptr .array false j ∈ rootsOf r.w.heap [] glob ctxs) (hw : WF r.w.heap) (ho : RootsOK r.w.heap [] glob ctxs)
    (hfit : StackFits r.w.heap) (hd0 : r.w.heap.dropped = false)
    (hplain : ∀ i < r.w.heap.size, ¬ Reachable r.w.heap (rootsOf r.w.heap [] glob ctxs) i → PlainContent (r.w.heap.cells i).content) :
    ∃ n0 r' o, (∀ fuel, n0 ≤ fuel → openString al fuel r (.ptr .array false j) glob ctxs = some (.ok (r', o))) ∧
      r'.bytes = r.bytes ∧ r'.w.heap.cells j = r.w.heap.cells j ∧
      ((∃ i, o = .chan (.ptr .channel false i) ∧ ReadsFrom r' i j ∧ WholeText r' i) ∨
       (o = .merror ∧ (∀ fuel, n0 ≤ fuel → collect fuel r.w [] glob ctxs = some (.ok r'.w)) ∧
         ¬ ((∃ st, al r'.w.inUse = some st ∧ ∃ ch, al (.mem st :: r'.w.inUse) = some ch) ∧ 0 < numFree r'.w.heap))) := by
  have hdec : decStr r.w.heap (.ptr .array false j) = some da := by simp [decStr, hs]
  obtain ⟨r1, v, e, hb, _, _, hno, hok⟩ := C127_create hcap hh hal hj hs hz
  cases v with
  | some v =>
    obtain ⟨i, rfl, hnl, hoth, h1, h2, _⟩ := hok _ rfl
    refine ⟨0, r1, .chan (.ptr .channel false i), fun fuel _ => by simp [openString, hdec, e], hb, hoth j (by rintro rfl; exact hnl hj), .inl ⟨i, rfl, h1, h2⟩⟩
  | none =>
    have hw1 := hno rfl
    have hrj : Reachable r.w.heap (rootsOf r.w.heap [] glob ctxs) j := .root (t := .array) hroot
    obtain ⟨n0, w2, ec, _, _, _, hhist⟩ := C98_collect hcap hh hw ho hfit hd0 hplain
    have hcell : w2.heap.cells j = r.w.heap.cells j := by
      have hi := hist_inv hcap hh
      obtain ⟨_, _, _, _, hsz, hc⟩ := Heap.hist_inv hcap hi.heap
      have hcap' : 0 < r.w.heap.gcCap := by rw [hc]; exact hcap
      obtain ⟨n1, h', rel, hgc, _⟩ := C07_gc_preserves hw hcap' ho hfit hd0 hplain
      have hgc0 := hgc n1 (Nat.le_refl _)
      have hd' := gc_nodrop (b := true) hw hcap' ho (Or.inl hfit) hd0 hgc0
      obtain ⟨u, e2, _, _, hkeep, _⟩ := collect_ok hcap hi hw ho hplain hgc0 hd'
      have e3 := ec (n0 + n1) (by omega)
      have e4 : collect (n0 + n1) r.w [] glob ctxs = collect n1 r.w [] glob ctxs := by simp only [collect, hgc (n0 + n1) (by omega), hgc0]
      rw [e4, e2] at e3
      simp only [Option.some.injEq, Out.ok.injEq] at e3
      rw [← e3]
      exact (hkeep j hrj).2
    have hs2 : (({ r1 with w := w2 } : Src).w.heap.cells j).content = .byteArr hd da := by simp only [hcell, hs]
    have hdec2 : decStr w2.heap (.ptr .array false j) = some da := by simp only [decStr, hcell, hs]
    obtain ⟨r3, v3, e3, hb3, _, hiff, hno3, hok3⟩ := C127_create (r := { r1 with w := w2 }) hcap hhist hal hrj hs2 (by simpa [hb] using hz)
    have hopen : ∀ fuel, n0 ≤ fuel → openString al fuel r (.ptr .array false j) glob ctxs =
        (match v3 with | some v => some (.ok (r3, .chan v)) | none => some (.ok (r3, .merror))) := by
      intro fuel hf
      simp only [openString, hdec, e, hw1, ec fuel hf, hdec2, e3]
      cases v3 <;> rfl
    cases v3 with
    | some v =>
      obtain ⟨i, rfl, hnl, hoth, h1, h2, _⟩ := hok3 _ rfl
      exact ⟨n0, r3, .chan (.ptr .channel false i), hopen, by simp [hb3, hb], by rw [hoth j (by rintro rfl; exact hnl hrj)]; exact hcell, .inl ⟨i, rfl, h1, h2⟩⟩
    | none =>
      have hw3 := hno3 rfl
      refine ⟨n0, r3, .merror, hopen, by simp [hb3, hb], by rw [hw3]; exact hcell, .inr ⟨rfl, fun fuel hf => by rw [ec fuel hf, hw3], ?_⟩⟩
      rw [hw3]
      exact fun h => hiff.2 h rfl

/-! ### A concrete case -/

/-- A heap of three cells with the string "(+ 1" in cell 0. -/
def demoSrc : Src :=
  ⟨{ heap := (allocateCell (init 3 20) .array (.byteArr 100 104)).1, words := fun _ => ⟨0, 0, 0⟩, inUse := [.mem 104, .mem 100] }, fun _ => (0, 0),
    fun a => if a = 104 then [40, 43, 32, 49, 0, 0, 0, 0] else []⟩

/-- An allocator: the address above the highest in use. -/
def upAlloc (u : List Release) : Option Nat := some (u.foldl (fun m x => match x with | .mem a => max m (a + 1) | _ => m) 0)

theorem upAlloc_fresh : Fresh upAlloc := by
  intro u a h hm
  simp only [upAlloc, Option.some.injEq] at h
  have : ∀ (u : List Release) m, (.mem a ∈ u ∨ a < m) → a < u.foldl (fun m x => match x with | .mem a => max m (a + 1) | _ => m) m := by
    intro u
    induction u with
    | nil => intro m h; simpa using h
    | cons x u ih =>
      intro m h
      simp only [List.foldl_cons]
      apply ih
      rcases h with h | h
      · rcases List.mem_cons.1 h with rfl | h
        · right; simp only; omega
        · exact .inl h
      · right; cases x <;> simp only <;> omega
  have := this u 0 (.inl hm)
  omega

theorem demoSrc_hist : Hist 3 20 demoSrc.w [] (fun j => False ∨ j = 0) (fun _ => False) :=
  .alloc (c := .byteArr 100 104) (t := .array) (i := 0) (.init (words := fun _ => ⟨0, 0, 0⟩) (by decide)) rfl (by decide) (by simp) rfl

/-- `demoSrc` with the channel that `read` makes. -/
def demoOpen : Src :=
  match createString upAlloc demoSrc 104 (.ptr .array false 0) with
  | .ok (r, _) => r
  | _ => demoSrc

theorem demoOpen_eq : createString upAlloc demoSrc 104 (.ptr .array false 0) = .ok (demoOpen, some (.ptr .channel false 1)) := rfl

example : ReadsFrom demoOpen 1 0 ∧ WholeText demoOpen 1 ∧ demoOpen.state 105 = (104, 4) := by
  obtain ⟨r', v, e, _, _, _, _, hok⟩ := C127_create (by decide) demoSrc_hist upAlloc_fresh (j := 0) (hd := 100) (da := 104) (.inr rfl) rfl (by simp [demoSrc])
  rw [demoOpen_eq] at e
  simp only [Out.ok.injEq, Prod.mk.injEq] at e
  obtain ⟨rfl, rfl⟩ := e
  obtain ⟨i, hi, _, _, h1, h2, _⟩ := hok _ rfl
  cases hi
  exact ⟨h1, h2, rfl⟩

theorem demoOpen_reading : ∃ live, live 0 ∧ Reading 3 20 1 0 upAlloc demoOpen [] live (fun _ => False) := by
  obtain ⟨r', v, e, _, _, _, _, hok⟩ := C127_create (by decide) demoSrc_hist upAlloc_fresh (j := 0) (hd := 100) (da := 104) (.inr rfl) rfl (by simp [demoSrc])
  rw [demoOpen_eq] at e
  simp only [Out.ok.injEq, Prod.mk.injEq] at e
  obtain ⟨rfl, rfl⟩ := e
  obtain ⟨i, hi, _, _, h1, h2, _, h3⟩ := hok _ rfl
  cases hi
  exact ⟨_, .inl (.inr rfl), .start h3 (.inr rfl) (.inl (.inr rfl)) h1⟩

theorem demoOpen_cells (i : Nat) : demoOpen.w.heap.cells i = if i = 1 then { content := .channel (some (106, 105)) (.ptr .array false 0) }
    else if i = 0 then { content := .byteArr 100 104 } else (init 3 20).cells i := by
  have h : demoOpen.w.heap.cells = fun i => if i = 1 then { content := .channel (some (106, 105)) (.ptr .array false 0) } else
      if i = 1 then { content := .channel (some (106, 105)) nil } else if i = 0 then { content := .byteArr 100 104 } else (init 3 20).cells i := rfl
  rw [h]
  by_cases h1 : i = 1 <;> simp [h1]

theorem demoOpen_wf : WF demoOpen.w.heap := by
  have c2 : (init 3 20).cells 2 = { content := .pair nil nil } := rfl
  refine ⟨?_, ?_, ?_, ?_⟩
  · exact below3 (P := fun i => ∀ a d, (demoOpen.w.heap.cells i).content = .pair a d → OkRef demoOpen.w.heap a ∧ OkRef demoOpen.w.heap d)
      ⟨fun a d h => by simp [demoOpen_cells] at h, fun a d h => by simp [demoOpen_cells] at h, fun a d h => by
        simp [demoOpen_cells, c2] at h; obtain ⟨rfl, rfl⟩ := h; simp [OkRef, nil]⟩
  · exact below3 (P := fun i => ∀ c dep, (demoOpen.w.heap.cells i).content = .channel (some c) dep → OkRef demoOpen.w.heap dep)
      ⟨fun a d h => by simp [demoOpen_cells] at h, fun a d h => by
        simp [demoOpen_cells] at h; obtain ⟨_, rfl⟩ := h
        exact ⟨by decide, by simp [kindOK, demoOpen_cells, Content.refs]⟩, fun a d h => by simp [demoOpen_cells, c2] at h⟩
  · exact below3 (P := fun i => ∀ hd da es, (demoOpen.w.heap.cells i).content = .lispArr hd da es → es ≠ [] ∧ ∀ e ∈ es, OkElem demoOpen.w.heap e)
      (by simp [demoOpen_cells, c2])
  · intro i
    rw [demoOpen_cells]
    split
    · exact ⟨rfl, rfl⟩
    · split
      · exact ⟨rfl, rfl⟩
      · simp only [init]; split <;> exact ⟨rfl, rfl⟩

theorem demoOpen_fits : StackFits demoOpen.w.heap := by
  have c2 : (init 3 20).cells 2 = { content := .pair nil nil } := rfl
  refine ⟨fun _ => 0, 1, ?_, by decide⟩
  exact below3 (P := fun i => ∀ hd da es, (demoOpen.w.heap.cells i).content = .lispArr hd da es → (0 < 1 ∧
      ∀ j, Val.ptr .lispArray false j ∈ es → 0 < 0)) (by simp [demoOpen_cells, c2])

theorem demoOpen_plain : ∀ i < 3, PlainContent (demoOpen.w.heap.cells i).content := by
  have c2 : (init 3 20).cells 2 = { content := .pair nil nil } := rfl
  exact below3 (by simp [demoOpen_cells, c2, PlainContent, nil, symIndI, symIndU, symIndF, symDefragArray, symArray, symLispArray, symChannel, symCustom, symDefragMem])

/-- A collection while the channel is on the stack of the reader keeps the string, which nothing else refers to. A collection afterwards gives the blocks of the channel back. -/
example : (∃ fuel w', collect fuel demoOpen.w [.ptr .channel false 1] [] [] = some (.ok w') ∧ ReadsFrom { demoOpen with w := w' } 1 0) ∧
    ∃ fuel w', collect fuel demoOpen.w [] [] [] = some (.ok w') ∧ .mem 105 ∉ w'.inUse ∧ .mem 106 ∉ w'.inUse := by
  obtain ⟨live, h0, h⟩ := demoOpen_reading
  obtain ⟨hr, hh⟩ := C127_reading (by decide) upAlloc_fresh h
  constructor
  · obtain ⟨n0, w', e, h1, _⟩ := C127_collect (pre := [.ptr .channel false 1]) (glob := []) (ctxs := []) (by decide) hh hr (by decide) demoOpen_wf
      ⟨by simp [OkRef, kindOK, demoOpen_cells]; decide, by simp, by simp, by simp, by simp, by simp⟩ demoOpen_fits rfl (fun i hi _ => demoOpen_plain i hi)
    exact ⟨n0, w', e n0 (Nat.le_refl _), (h1 (.root (t := .channel) (by simp [rootsOf]))).1⟩
  · obtain ⟨n0, w', e, _, h2⟩ := C127_collect (pre := []) (glob := []) (ctxs := []) (by decide) hh hr (by decide) demoOpen_wf
      ⟨by simp, by simp, by simp, by simp, by simp, by simp⟩ demoOpen_fits rfl (fun i hi _ => demoOpen_plain i hi)
    have hno : ¬ Reachable demoOpen.w.heap (rootsOf demoOpen.w.heap [] [] []) 1 := by
      intro hx
      have : ∀ i, Reachable demoOpen.w.heap (rootsOf demoOpen.w.heap [] [] []) i → False := by
        intro i hx
        induction hx with
        | root hm => simp [rootsOf] at hm
        | step _ _ ih => exact ih
      exact this _ hx
    have := h2 hno 106 105 (.ptr .array false 0) (by simp [demoOpen_cells])
    exact ⟨n0, w', e n0 (Nat.le_refl _), this.2, this.1⟩

/-- `read` of the same string once more. -/
example : ∃ n0 r' o, (∀ fuel, n0 ≤ fuel → openString upAlloc fuel demoOpen (.ptr .array false 0) []
      [⟨nil, nil, nil, nil, [], [.ptr .array false 0, .ptr .channel false 1]⟩] = some (.ok (r', o))) ∧ ∃ i, o = .chan (.ptr .channel false i) ∧ ReadsFrom r' i 0 := by
  obtain ⟨live, h0, h⟩ := demoOpen_reading
  obtain ⟨hr, hh⟩ := C127_reading (by decide) upAlloc_fresh h
  obtain ⟨n0, r', o, e, _, _, ho⟩ := C127_open (by decide) hh upAlloc_fresh (j := 0) (hd := 100) (da := 104) h0 (by simp [demoOpen_cells]) (by decide)
    (glob := []) (ctxs := [⟨nil, nil, nil, nil, [], [.ptr .array false 0, .ptr .channel false 1]⟩]) (by simp [rootsOf]; decide) demoOpen_wf
    ⟨by simp, by simp, by simp; exact .done rfl, by simp [OkRef, nil], by simp, by
      simp [OkRef, kindOK, demoOpen_cells, Content.refs]; decide⟩ demoOpen_fits rfl (fun i hi _ => demoOpen_plain i hi)
  refine ⟨n0, r', o, e, ?_⟩
  rcases ho with ⟨i, h1, h2, _⟩ | ⟨h1, _⟩
  · exact ⟨i, h1, h2⟩
  · have e1 : ∃ r2, openString upAlloc n0 demoOpen (.ptr .array false 0) [] [⟨nil, nil, nil, nil, [], [.ptr .array false 0, .ptr .channel false 1]⟩] =
        some (.ok (r2, .chan (.ptr .channel false 2))) := ⟨_, rfl⟩
    obtain ⟨r2, e1⟩ := e1
    rw [e n0 (Nat.le_refl _)] at e1
    simp only [Option.some.injEq, Out.ok.injEq, Prod.mk.injEq] at e1
    rw [h1] at e1
    exact absurd e1.2 (by simp)

/-- While the channel reads, another array is made. -/
example : ∃ r live, Reading 3 20 1 0 upAlloc r [] live (fun _ => False) ∧ r.w.inUse = [.mem 201, .mem 200, .mem 105, .mem 106, .mem 104, .mem 100] := by
  obtain ⟨live, h0, h⟩ := demoOpen_reading
  exact ⟨_, _, .alloc (t := .array) (c := .byteArr 200 201) (k := 2) h rfl (by decide) (by decide) rfl, rfl⟩

/-- C127 fails for an array without a terminator: `read` accepts any byte array, and looks for the end of the text outside of the array. -/
theorem C127_unterminated_violated : ∃ (r : Src) (live cust : Nat → Prop), Hist 3 20 r.w [] live cust ∧ live 0 ∧ (r.w.heap.cells 0).content = .byteArr 100 104 ∧
    r.bytes 104 = [49, 50] ∧ ∀ fuel glob ctxs, openString upAlloc fuel r (.ptr .array false 0) glob ctxs = some .ub :=
  ⟨{ demoSrc with bytes := fun _ => [49, 50] }, _, _, demoSrc_hist, .inr rfl, rfl, rfl, fun _ _ _ => rfl⟩

/-- C127 fails for a text in a defragmentable memory: such an array is a byte array as well, and the channel keeps the place where its bytes are (`dataAt`). The next allocation in that memory may
move the bytes; what is in the old place then is no longer the text. -/
theorem C127_moved_violated : ∃ (p : Defrag.Pool) (m : Defrag.Store), Defrag.DHist 4 1000 64 p m ∧ m 2 = some (5, [0, 7]) ∧ ∃ d, Defrag.dataAt p 2 = some d ∧
    p.mem (d + 1) = 7 ∧ (Defrag.alloc p 16 (some 5) (some 6)).2 = .cell 6 ∧ Defrag.dataAt (Defrag.alloc p 16 (some 5) (some 6)).1 2 ≠ some d ∧
    (Defrag.alloc p 16 (some 5) (some 6)).1.mem (d + 1) ≠ 7 :=
  ⟨Defrag.demo, Defrag.demoStore, Defrag.demo_hist, rfl, 8, by decide +kernel, by decide +kernel, by decide +kernel, by decide +kernel, by decide +kernel⟩

end Verif.Custom
