/-!
# What a replay memory holds: an ordered list of episodes
-/

namespace Verif.Spec

/-- A stored episode: identity, number of transitions, rows per column. -/
structure Entry (V : Type u) where
  id : Int
  len : Nat
  rows : String → List V

variable {V : Type u}

/-- Total number of transitions. -/
def total (q : List (Entry V)) : Nat := (q.map Entry.len).sum

/-- Drop the oldest episodes, one at a time, while `n` more transitions do not fit. -/
def dropOldest (cap : Int) (n : Nat) : List (Entry V) → List (Entry V)
  | [] => []
  | e :: q => if (total (e :: q) : Int) + n ≤ cap then e :: q else dropOldest cap n q

/-- A queue of episodes bounded by the total number of transitions. -/
def boundedAdd (cap : Int) (q : List (Entry V)) (e : Entry V) : List (Entry V) :=
  dropOldest cap e.len q ++ [e]

/-- What can be done to a memory. -/
inductive Act (V : Type u) where
  | add (e : Entry V)
  | resize (cap : Int)

/-- One action on the bounded queue (capacity and contents). -/
def queueStep (s : Int × List (Entry V)) : Act V → Int × List (Entry V)
  | .add e => (s.1, boundedAdd s.1 s.2 e)
  | .resize cap => (cap, s.2)

/-- The bounded queue: capacity and contents after a list of actions. -/
def queueAfter (cap : Int) (acts : List (Act V)) : Int × List (Entry V) :=
  acts.foldl queueStep (cap, [])

/-- All episodes ever added, in order. -/
def added (acts : List (Act V)) : List (Entry V) :=
  acts.filterMap fun a => match a with
    | .add e => some e
    | .resize _ => none

/-- The most recent add of an identity. -/
def lastAdd (acts : List (Act V)) (id : Int) : Option (Entry V) :=
  (added acts).reverse.find? fun e => e.id = id

/-- State (capacity, total of everything added, something did not fit) of an unbounded memory that
also watches whether everything fitted the capacity of that time. -/
def tallyStep (s : Int × Nat × Bool) : Act V → Int × Nat × Bool
  | .add e => (s.1, s.2.1 + e.len, s.2.2 || decide (s.1 < (s.2.1 : Int) + e.len))
  | .resize cap => (cap, s.2.1, s.2.2)

/-- Has an add ever not fitted? -/
def everFull (cap : Int) (acts : List (Act V)) : Bool :=
  (acts.foldl tallyStep (cap, 0, false)).2.2

end Verif.Spec
