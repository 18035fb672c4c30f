import Verif.Spec.Replay
import Verif.Model.Table

/-!
# What a sampled window should contain

`e` is a stored episode, `s` the first transition of the window, `n` its length.
-/

namespace Verif.Spec

variable {V : Type u}

/-- `n` consecutive rows from row `s` on. -/
def rowsFrom (rows : List V) (s n : Nat) : List V := (rows.drop s).take n

/-- Is transition `i` the last of a sequence with `len` transitions? -/
def isLast (len i : Nat) : Bool := i + 1 == len

/-- The rows of a column in a window: recorded rows for a plain column, the episode's first value for
a tag, the rows one (or `m`) later for the next-element columns, only the row after the window for
the last-only variant, and a flag for the final transition for dones and masks. -/
def windowOf (name : String) (kind : ColKind) (e : Entry V) (s n : Nat) : List (Cell V) :=
  match kind with
  | .plain => (rowsFrom (e.rows name) s n).map .row
  | .tag => (rowsFrom (e.rows name) 0 1).map .row
  | .virt .next tgt => (rowsFrom (e.rows tgt) (s + 1) n).map .row
  | .virt .nextLast tgt => (rowsFrom (e.rows tgt) (s + n) 1).map .row
  | .virt (.nextN m) tgt => (rowsFrom (e.rows tgt) (s + m) n).map .row
  | .virt .dones tgt => (List.range n).map fun i => .bit (isLast (e.rows tgt).length (s + i))
  | .virt .masks tgt => (List.range n).map fun i => .bit (!isLast (e.rows tgt).length (s + i))

/-- The number of rows per window of a column. -/
def rowsPerWindow (kind : ColKind) (n : Nat) : Nat :=
  match kind with
  | .tag => 1
  | .virt .nextLast _ => 1
  | _ => n

/-- An episode that has all the rows its columns promise: at least one per transition, one more in a
column whose next element is used. -/
def EpisodeOk (columns : List Column) (e : Entry V) : Prop :=
  ∀ c ∈ columns, match c.kind with
    | .plain => e.len ≤ (e.rows c.name).length
    | .tag => 1 ≤ (e.rows c.name).length
    | .virt .next tgt => e.len + 1 ≤ (e.rows tgt).length
    | .virt .nextLast tgt => e.len + 1 ≤ (e.rows tgt).length
    | .virt (.nextN m) tgt => e.len + m ≤ (e.rows tgt).length
    | .virt .dones _ => True
    | .virt .masks _ => True

end Verif.Spec
