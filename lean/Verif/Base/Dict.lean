/-!
# Python dictionaries and exceptions

A Python `dict` is an association list in insertion order with distinct keys.
-/

namespace Verif

/-- The Python exceptions (and non-termination) that the modelled code can run into. -/
inductive Err where
  | keyError | valueError | indexError | typeError | assertionError
  | zeroDivision | overflowError | attributeError | stopIteration | runtimeError | osError
  /-- Not an exception: the loop did not end with the draws it was given. -/
  | diverges
  deriving DecidableEq, Repr

/-- A Python `dict`: association list, insertion order, distinct keys (`Dict.WF`). -/
abbrev Dict (κ : Type u) (α : Type v) := List (κ × α)

namespace Dict

variable {κ : Type u} {α : Type v} [DecidableEq κ]

/-- `d.get(k)`; `none` is where `d[k]` raises `KeyError`. -/
def get? : Dict κ α → κ → Option α
  | [], _ => none
  | (k', v) :: d, k => if k' = k then some v else get? d k

/-- `d[k] = v`: an existing key keeps its place, a new key goes to the end. -/
def set : Dict κ α → κ → α → Dict κ α
  | [], k, v => [(k, v)]
  | (k', v') :: d, k, v => if k' = k then (k', v) :: d else (k', v') :: set d k v

/-- the dict without key `k` (unchanged if the key is missing). -/
def erase : Dict κ α → κ → Dict κ α
  | [], _ => []
  | (k', v') :: d, k => if k' = k then d else (k', v') :: erase d k

/-- `d.keys()` -/
def keys (d : Dict κ α) : List κ := d.map Prod.fst

/-- `d.values()` -/
def values (d : Dict κ α) : List α := d.map Prod.snd

/-- `k in d` -/
def contains (d : Dict κ α) (k : κ) : Bool := (d.get? k).isSome

/-- `del d[k]`; `none` is `KeyError`. -/
def del? (d : Dict κ α) (k : κ) : Option (Dict κ α) :=
  if d.contains k then some (d.erase k) else none

/-- `d.update(e)` -/
def update (d e : Dict κ α) : Dict κ α := e.foldl (fun d kv => d.set kv.1 kv.2) d

/-- `dict(pairs)`: later duplicates overwrite the value, in the place of the first one. -/
def ofPairs (l : List (κ × α)) : Dict κ α := update [] l

/-- Representation invariant of a dict. -/
def WF (d : Dict κ α) : Prop := d.keys.Nodup

end Dict

end Verif
