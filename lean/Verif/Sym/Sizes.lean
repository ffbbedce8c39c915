import Verif.Sym.Spec

/-!
# Property C141: the sizes of the symbol table

`symtab-size`, `symtab-size-flash`, `symtab-size-names` and `symtab-size-names-flash`
(`src/extensions/runtime_extensions.c:174-196`) on 32-bit words. The counters are natural numbers in the model.
-/

namespace Verif.Sym

/-- Where an entry of the table is: entry and name in RAM, both in flash, or the entry in RAM and the name a constant of the
host. -/
inductive Place
  | ram | flash | const
deriving DecidableEq

/-- The table with its four counters, `src/symrepr.c:252-255`. `log` and `lost` record what was stored: the entries, newest
first, and the names that were written to flash although their entry could not be written. They are not part of the code. -/
structure Counted where
  tab : Tab
  list : Nat := 0
  listFlash : Nat := 0
  strings : Nat := 0
  stringsFlash : Nat := 0
  log : List (Place × Name) := []
  lost : List Name := []

/-- The words of a name with its zero, `src/symrepr.c:372-377`. -/
def nameWords (n : Name) : Nat :=
  if (n.length + 1) % 4 = 0 then (n.length + 1) / 4 else (n.length + 1) / 4 + 1

/-- `add_symbol_to_symtab` in `lbm_add_symbol_base` with its counters, `src/symrepr.c:403-424`. -/
def Counted.ram (s : Counted) (n : Name) (mem : Bool) : Counted × Option Nat :=
  match addBaseRam s.tab n mem with
  | (t, some i) => ({ s with tab := t, list := s.list + 3 * 4, strings := s.strings + (n.length + 1), log := (.ram, n) :: s.log }, some i)
  | (t, none) => ({ s with tab := t }, none)

/-- `store_symbol_name_flash` and `add_symbol_to_symtab_flash` in `lbm_add_symbol_base` with their counters, `src/symrepr.c:368-389` and
`src/symrepr.c:426-440`. -/
def Counted.flash (s : Counted) (n : Name) (w1 w2 : Bool) : Counted × Option Nat :=
  if n.length + 1 = 1 then (s, none)
  else if !w1 then (s, none)
  else
    match addBaseFlash s.tab n w1 w2 with
    | (t, some i) => ({ s with tab := t, stringsFlash := s.stringsFlash + nameWords n, listFlash := s.listFlash + 3, log := (.flash, n) :: s.log }, some i)
    | (t, none) => ({ s with tab := t, stringsFlash := s.stringsFlash + nameWords n, lost := n :: s.lost }, none)

/-- `lbm_add_symbol_const_base` with its counter, `src/symrepr.c:478-488`. -/
def Counted.const (s : Counted) (n : Name) (mem : Bool) : Counted × Option Nat :=
  match addBaseConst s.tab n mem with
  | (t, some i) => ({ s with tab := t, list := s.list + 3, log := (.const, n) :: s.log }, some i)
  | (t, none) => ({ s with tab := t }, none)

/-- The operations on the table, as in `Step` and `StepsC`. -/
inductive SOp
  | add (n : Name) (mem : Bool)
  | addFlash (n : Name) (w1 w2 : Bool)
  | addConst (n : Name) (mem : Bool)
  | read (n : Name) (flash m1 m2 : Bool)
  | ext (n : Name) (f : Nat)
  | clr (id : Nat)

/-- `lbm_add_symbol`, `lbm_add_symbol_flash`, `lbm_add_symbol_const`, `src/symrepr.c:456-499`, the reader, `src/eval_cps.c:3984-4035`, and the
functions of the extension table, which leave the counters alone. -/
def Counted.step (s : Counted) : SOp → Counted
  | .add n mem => if (getByName s.tab n).isSome then s else (s.ram n mem).1
  | .addFlash n w1 w2 => if (getByName s.tab n).isSome then s else (s.flash n w1 w2).1
  | .addConst n mem => if (getByName s.tab n).isSome then s else (s.const n mem).1
  | .read n flash m1 m2 =>
    if (getByName s.tab n).isSome then s
    else if 4 < n.length ∧ n.take 4 = str "ext-" then { s with tab := (readSymbol s.tab n flash m1 m2).1 }
    else if flash then (s.flash n m1 m2).1
    else if (s.ram n m1).2.isSome then (s.ram n m1).1
    else ((s.ram n m1).1.ram n m2).1
  | .ext n f => { s with tab := (addExtension s.tab n f).1 }
  | .clr id => { s with tab := (clrExtension s.tab id).1 }

def Counted.run (s : Counted) : List SOp → Counted
  | [] => s
  | o :: os => (s.step o).run os

/-- The same operation on the table alone. -/
def SOp.onTab (t : Tab) : SOp → Tab
  | .add n mem => (addSymbol t n mem).1
  | .addFlash n w1 w2 => (addSymbolFlash t n w1 w2).1
  | .addConst n mem => (addSymbolConst t n mem).1
  | .read n flash m1 m2 => (readSymbol t n flash m1 m2).1
  | .ext n f => (addExtension t n f).1
  | .clr id => (clrExtension t id).1

/-- `lbm_get_symbol_table_size`, `src/symrepr.c:509-511`. -/
def Counted.size (s : Counted) : Nat := s.list + s.strings
/-- `lbm_get_symbol_table_size_flash`, `src/symrepr.c:513-516`. -/
def Counted.sizeFlash (s : Counted) : Nat := (s.listFlash + s.stringsFlash) * 4
/-- `lbm_get_symbol_table_size_names`, `src/symrepr.c:518-520`. -/
def Counted.sizeNames (s : Counted) : Nat := s.strings
/-- `lbm_get_symbol_table_size_names_flash`, `src/symrepr.c:522-524`. -/
def Counted.sizeNamesFlash (s : Counted) : Nat := s.stringsFlash * 4

/-! ### Specification: bytes that entries take -/

/-- Bytes of RAM: three words of four bytes, and the name with its zero if it is copied. -/
def ramBytes : Place × Name → Nat
  | (.ram, n) => 12 + (n.length + 1)
  | (.const, _) => 12
  | (.flash, _) => 0

/-- Bytes of names in RAM. -/
def ramNameBytes : Place × Name → Nat
  | (.ram, n) => n.length + 1
  | _ => 0

/-- Bytes of a name in flash: with its zero, in full words. -/
def padded (n : Name) : Nat := (n.length + 1 + 3) / 4 * 4

/-- Bytes of names in flash. -/
def flashNameBytes : Place × Name → Nat
  | (.flash, n) => padded n
  | _ => 0

/-- Bytes of flash. -/
def flashBytes : Place × Name → Nat
  | (.flash, n) => 12 + padded n
  | _ => 0

/-- How many entries have a name that is a constant of the host. -/
def consts (l : List (Place × Name)) : Nat := (l.filter (fun e => e.1 = .const)).length

/-! ### Proofs -/

/-- The counters say what is stored. -/
structure Exact (s : Counted) : Prop where
  names : s.log.map Prod.snd = s.tab.syms.map Prod.fst
  size : s.size + 9 * consts s.log = (s.log.map ramBytes).sum
  sizeNames : s.sizeNames = (s.log.map ramNameBytes).sum
  sizeFlash : s.sizeFlash = (s.log.map flashBytes).sum + (s.lost.map padded).sum
  sizeNamesFlash : s.sizeNamesFlash = (s.log.map flashNameBytes).sum + (s.lost.map padded).sum

theorem nameWords_padded (n : Name) : nameWords n * 4 = padded n := by
  simp only [nameWords, padded]; split <;> omega

theorem exact_tab {s : Counted} (h : Exact s) {t : Tab} (ht : t.syms = s.tab.syms) : Exact { s with tab := t } :=
  ⟨by rw [h.names, ← ht], h.size, h.sizeNames, h.sizeFlash, h.sizeNamesFlash⟩

theorem exact_ram {s : Counted} (h : Exact s) (n : Name) (mem : Bool) : Exact (s.ram n mem).1 := by
  obtain ⟨h1, h2, h3, h4, h5⟩ := h
  simp only [Counted.size, Counted.sizeNames, Counted.sizeFlash, Counted.sizeNamesFlash] at h2 h3 h4 h5
  unfold Counted.ram addBaseRam
  by_cases hc : 1 < n.length + 1 ∧ n.length + 1 ≤ 257 ∧ mem = true
  · rw [if_pos hc]
    refine ⟨by simp [h1], ?_, ?_, ?_, ?_⟩ <;>
      simp only [Counted.size, Counted.sizeNames, Counted.sizeFlash, Counted.sizeNamesFlash, consts, List.map_cons, List.sum_cons, ramBytes, ramNameBytes, flashBytes,
        flashNameBytes, List.filter_cons] <;> simp only [consts] at h2 <;> (try simp) <;> omega
  · rw [if_neg hc]; exact ⟨h1, h2, h3, h4, h5⟩

theorem exact_const {s : Counted} (h : Exact s) (n : Name) (mem : Bool) : Exact (s.const n mem).1 := by
  obtain ⟨h1, h2, h3, h4, h5⟩ := h
  simp only [Counted.size, Counted.sizeNames, Counted.sizeFlash, Counted.sizeNamesFlash] at h2 h3 h4 h5
  unfold Counted.const addBaseConst
  by_cases hc : mem = true
  · rw [if_pos hc]
    refine ⟨by simp [h1], ?_, ?_, ?_, ?_⟩ <;>
      simp only [Counted.size, Counted.sizeNames, Counted.sizeFlash, Counted.sizeNamesFlash, consts, List.map_cons, List.sum_cons, ramBytes, ramNameBytes, flashBytes,
        flashNameBytes, List.filter_cons] <;> simp only [consts] at h2 <;> (try simp) <;> omega
  · rw [if_neg hc]; exact ⟨h1, h2, h3, h4, h5⟩

theorem exact_flash {s : Counted} (h : Exact s) (n : Name) (w1 w2 : Bool) : Exact (s.flash n w1 w2).1 := by
  have h0 := h
  obtain ⟨h1, h2, h3, h4, h5⟩ := h
  simp only [Counted.size, Counted.sizeNames, Counted.sizeFlash, Counted.sizeNamesFlash] at h2 h3 h4 h5
  have hw := nameWords_padded n
  unfold Counted.flash
  by_cases hn : n.length + 1 = 1
  · rw [if_pos hn]; exact h0
  rw [if_neg hn]
  cases w1 with
  | false => exact h0
  | true =>
    rw [if_neg (by simp)]
    unfold addBaseFlash
    rw [if_neg hn, if_neg (by simp)]
    cases w2 with
    | true =>
      rw [if_neg (by simp)]
      refine ⟨by simp [h1], ?_, ?_, ?_, ?_⟩ <;>
        simp only [Counted.size, Counted.sizeNames, Counted.sizeFlash, Counted.sizeNamesFlash, consts, List.map_cons, List.sum_cons, ramBytes, ramNameBytes, flashBytes,
          flashNameBytes, List.filter_cons] <;> simp only [consts] at h2 <;> (try simp) <;> omega
    | false =>
      rw [if_pos (by simp)]
      refine ⟨by simp [h1], ?_, ?_, ?_, ?_⟩ <;>
        simp only [Counted.size, Counted.sizeNames, Counted.sizeFlash, Counted.sizeNamesFlash, List.map_cons, List.sum_cons] <;> omega

theorem addExtension_syms (t : Tab) (n : Name) (f : Nat) : (addExtension t n f).1.syms = t.syms := by
  unfold addExtension
  split
  · split
    · simp only
      split
      · split
        · split <;> rfl
        · rfl
      · rfl
    · rfl
  · split <;> rfl

theorem readSymbol_ext_syms (t : Tab) (n : Name) (flash m1 m2 : Bool) (hn : getByName t n = none) (he : 4 < n.length ∧ n.take 4 = str "ext-") :
    (readSymbol t n flash m1 m2).1.syms = t.syms := by
  have ha := addExtension_syms t n 0
  unfold readSymbol
  rw [hn]
  simp only
  rw [if_pos he]
  split
  · split
    · exact ha
    · split <;> exact ha
  · rfl

theorem exact_step {s : Counted} (h : Exact s) (o : SOp) : Exact (s.step o) := by
  cases o with
  | add n mem => simp only [Counted.step]; split <;> first | exact h | exact exact_ram h n mem
  | addFlash n w1 w2 => simp only [Counted.step]; split <;> first | exact h | exact exact_flash h n w1 w2
  | addConst n mem => simp only [Counted.step]; split <;> first | exact h | exact exact_const h n mem
  | read n flash m1 m2 =>
    simp only [Counted.step]
    split
    · exact h
    · next hn =>
      split
      · next he => exact exact_tab h (readSymbol_ext_syms _ _ _ _ _ (by simpa using hn) he)
      · split
        · exact exact_flash h n m1 m2
        · split
          · exact exact_ram h n m1
          · exact exact_ram (exact_ram h n m1) n m2
  | ext n f => exact exact_tab h (addExtension_syms _ _ _)
  | clr id => exact exact_tab h (by unfold clrExtension; simp only; split <;> rfl)

theorem exact_run : ∀ (os : List SOp) {s : Counted}, Exact s → Exact (s.run os) := by
  intro os
  induction os with
  | nil => intro s h; exact h
  | cons o os ih => intro s h; exact ih (exact_step h o)

/-- The runtime before its first symbol. -/
def Counted.start (extMax : Nat) : Counted := { tab := init0 extMax }

theorem exact_start (extMax : Nat) : Exact (.start extMax) := by
  refine ⟨rfl, rfl, rfl, rfl, rfl⟩

/-- The counters do not change what happens to the table: it is the one of C25 and C55. -/
theorem C141_table (s : Counted) (o : SOp) : (s.step o).tab = o.onTab s.tab := by
  have hr : ∀ (s : Counted) n mem, (s.ram n mem).1.tab = (addBaseRam s.tab n mem).1 ∧ (s.ram n mem).2 = (addBaseRam s.tab n mem).2 := by
    intro s n mem; unfold Counted.ram
    cases hb : addBaseRam s.tab n mem with
    | mk t r => cases r <;> exact ⟨rfl, rfl⟩
  have hf : ∀ (s : Counted) n w1 w2, (s.flash n w1 w2).1.tab = (addBaseFlash s.tab n w1 w2).1 := by
    intro s n w1 w2; unfold Counted.flash
    by_cases hn : n.length + 1 = 1
    · rw [if_pos hn]; unfold addBaseFlash; rw [if_pos hn]
    · rw [if_neg hn]
      by_cases hw : (!w1) = true
      · rw [if_pos hw]; unfold addBaseFlash; rw [if_neg hn, if_pos hw]
      · rw [if_neg hw]
        cases hb : addBaseFlash s.tab n w1 w2 with
        | mk t r => cases r <;> rfl
  have hc : ∀ (s : Counted) n mem, (s.const n mem).1.tab = (addBaseConst s.tab n mem).1 := by
    intro s n mem; unfold Counted.const
    cases hb : addBaseConst s.tab n mem with
    | mk t r => cases r <;> rfl
  cases o with
  | add n mem => cases hg : getByName s.tab n <;> simp [Counted.step, SOp.onTab, addSymbol, hg, (hr _ _ _).1]
  | addFlash n w1 w2 => cases hg : getByName s.tab n <;> simp [Counted.step, SOp.onTab, addSymbolFlash, hg, hf]
  | addConst n mem => cases hg : getByName s.tab n <;> simp [Counted.step, SOp.onTab, addSymbolConst, hg, hc]
  | read n flash m1 m2 =>
    cases hg : getByName s.tab n with
    | some i => simp [Counted.step, SOp.onTab, readSymbol, hg]
    | none =>
      simp only [Counted.step, hg, Option.isSome_none, Bool.false_eq_true, if_false, SOp.onTab]
      by_cases he : 4 < n.length ∧ n.take 4 = str "ext-"
      · rw [if_pos he]
      · rw [if_neg he]
        have hrs : readSymbol s.tab n flash m1 m2 = if flash then addBaseFlash s.tab n m1 m2 else
            match (addBaseRam s.tab n m1).2 with
            | some i => ((addBaseRam s.tab n m1).1, some i)
            | none => addBaseRam (addBaseRam s.tab n m1).1 n m2 := by
          unfold readSymbol; rw [hg]; simp only; rw [if_neg he]; rfl
        rw [hrs]
        cases flash with
        | true => simp [hf]
        | false =>
          simp only [Bool.false_eq_true, if_false]
          cases hm : (addBaseRam s.tab n m1).2 with
          | some i => rw [if_pos (by rw [(hr _ _ _).2, hm]; rfl)]; exact (hr _ _ _).1
          | none =>
            rw [if_neg (by rw [(hr _ _ _).2, hm]; simp), (hr _ _ _).1, (hr _ _ _).1]
  | ext n f => rfl
  | clr id => rfl

/-- **C141.**  After any history the names in the log are those of the table, and the reported sizes are the bytes that its
entries take, except that an entry with a constant name counts nine bytes less than it takes, and that the flash
sizes contain the names that were written although their entry could not be. -/
theorem C141_sizes_partial (extMax : Nat) (os : List SOp) :
    let s := (Counted.start extMax).run os
    s.log.map Prod.snd = s.tab.syms.map Prod.fst ∧
    s.size + 9 * consts s.log = (s.log.map ramBytes).sum ∧
    s.sizeNames = (s.log.map ramNameBytes).sum ∧
    s.sizeFlash = (s.log.map flashBytes).sum + (s.lost.map padded).sum ∧
    s.sizeNamesFlash = (s.log.map flashNameBytes).sum + (s.lost.map padded).sum := by
  have h := exact_run os (exact_start extMax)
  exact ⟨h.names, h.size, h.sizeNames, h.sizeFlash, h.sizeNamesFlash⟩

/-- A history with two symbols in RAM, one in flash and one that does not fit: the sizes are 12 + 4 and 12 + 2 bytes in RAM, 12 + 8
bytes in flash. -/
example : let s := (Counted.start 4).run [.add (str "abc") true, .add (str "z") true, .read (str "flashy") true true true, .add (str "w") false]
    s.size = 30 ∧ s.sizeNames = 6 ∧ s.sizeFlash = 20 ∧ s.sizeNamesFlash = 8 ∧ s.log.length = 3 := by decide +kernel

/-- **C141 fails** for names that are constants of the host, as all names of the runtime extensions are: the entry takes
12 bytes, but the size grows by 3. -/
theorem C141_const_violated : let s := (Counted.start 4).run [.addConst (str "width") true]
    s.log = [(.const, str "width")] ∧ (s.log.map ramBytes).sum = 12 ∧ s.size = 3 := by decide +kernel

/-- **C141 fails** when the flash is full after the name: the size counts the name of a symbol that is not in the
table. -/
theorem C141_lost_violated : let s := (Counted.start 4).run [.addFlash (str "lost") true false]
    s.tab.syms = [] ∧ s.sizeNamesFlash = 8 := by decide +kernel

end Verif.Sym
