import Verif.Prof.Model

/-!
# What a profile should be
-/

namespace Verif.Prof

/-- What a context is recognized by: its id and the first 19 bytes of its name. -/
abbrev Key := Nat × Option (List Nat)

/-- The key of what is running. -/
def Running.key : Running → Option Key
  | .ctx id name _ => some (id, name.map (List.take 19))
  | .idle _ => none

/-- The keys in the order in which they were first seen. -/
def keys (rs : List Running) : List Key := rs.foldl (fun ks r => match r.key with | some k => if k ∈ ks then ks else ks ++ [k] | none => ks) []

/-- The number of samples with this key. -/
def seen (rs : List Running) (k : Key) : Nat := rs.countP fun r => r.key = some k

/-- The number of samples with this key that were taken during garbage collection. -/
def seenGc (rs : List Running) (k : Key) : Nat := rs.countP fun r => match r with | .ctx _ _ gc => r.key = some k && gc | .idle _ => false

/-- The number of samples taken while nothing was running. -/
def idles (rs : List Running) (sleeping : Bool) : Nat := rs.countP fun r => match r with | .ctx _ _ _ => false | .idle b => b = sleeping

/-- The text in the array of an entry, up to the zero. -/
def Entry.text (e : Entry) : List Nat := e.name.takeWhile (· ≠ 0)

/-- What an entry shows: id, name, count and count during collection; nothing if it is not used. -/
def Entry.shows (e : Entry) : Option (Key × Nat × Nat) :=
  e.cid.map fun id => ((id, if e.hasName then some e.text else none), e.count, e.gcCount)

/-- The names are C strings. -/
def Names (rs : List Running) : Prop := ∀ r ∈ rs, ∀ id s gc, r = .ctx id (some s) gc → 0 ∉ s

end Verif.Prof
