import Verif.Base.Res

/-!
# Data loaders

`emote/memory/memory.py` 472-557. A generator is a state machine: `fresh` (its body has not started), `looping`
(stopped at the `yield` in its loop) or `done`. The table can change between two `next` calls; what a loader asks
of it is its size and the outcome of `sample`, which are arguments of `next`. Timers are not modelled.
-/

namespace Verif

/-- A value in a batch: a tensor of the table or a number. -/
inductive BVal (D : Type u) where
  | tensor (d : D)
  | num (n : Nat)
  deriving DecidableEq, Repr

/-- An entry of what a loader yields: a data group, or the size. -/
inductive Entry (D : Type u) where
  | data (d : Dict String (BVal D))
  | num (n : Nat)
  deriving DecidableEq, Repr

/-- What a loader sees of its table when it is asked for a batch: the size, and what `sample` returns or
raises for a count and a length. -/
structure TableView (D : Type u) where
  size : Int
  sample : Nat → Nat → Except Err (Dict String (BVal D))

/-- The state of a generator. -/
inductive GenState where
  | fresh | looping | done
  deriving DecidableEq, Repr

/-- `MemoryLoader`, `memory.py` 472-486. -/
structure Loader where
  group : String
  count : Nat
  length : Nat
  sizeKey : String
  deriving DecidableEq, Repr

namespace Loader

variable {D : Type u}

/-- `is_ready`, `memory.py` 488-490 -/
def isReady (l : Loader) (t : TableView D) : Bool := decide (t.size ≥ (l.count * l.length : Nat))

/-- One round of the loop, `memory.py` 499-504. The last line is a dict literal: a repeated key keeps the last
value. -/
def batch (l : Loader) (t : TableView D) : Except Err (Dict String (Entry D)) :=
  match t.sample l.count l.length with
  | .error e => .error e
  | .ok data => .ok (Dict.ofPairs [(l.group, Entry.data (data.set l.sizeKey (.num (l.count * l.length)))),
      (l.sizeKey, Entry.num (l.count * l.length))])

/-- `next` on the generator of `__iter__`, `memory.py` 492-504. An exception ends a generator. The untyped
`Exception` of line 494 is `runtimeError`. -/
def next (l : Loader) (t : TableView D) : GenState → GenState × Except Err (Dict String (Entry D))
  | .done => (.done, .error .stopIteration)
  | .fresh =>
    if l.isReady t then
      match l.batch t with
      | .error e => (.done, .error e)
      | .ok b => (.looping, .ok b)
    else (.done, .error .runtimeError)
  | .looping => match l.batch t with
    | .error e => (.done, .error e)
    | .ok b => (.looping, .ok b)

end Loader

/-- `JointMemoryLoader`, `memory.py` 507-523. -/
structure JointLoader where
  loaders : List Loader
  sizeKey : String
  deriving DecidableEq, Repr

namespace JointLoader

variable {D : Type u}

/-- `memory.py` 511-522: groups that occur more than once are rejected. -/
def new (loaders : List Loader) (sizeKey : String) : Except Err JointLoader :=
  if (loaders.filter fun l => decide (1 < (loaders.map Loader.group).count l.group)).length ≠ 0 then .error .valueError
  else .ok ⟨loaders, sizeKey⟩

/-- `is_ready`, `memory.py` 524-525. Each loader comes with the view of its table. -/
def isReady (views : List (Loader × TableView D)) : Bool := views.all fun lv => lv.1.isReady lv.2

/-- The body of the loop over the loaders, `memory.py` 537-540: `next(iter(loader))`, then the entries of the
batch. `out[size_key] += …` and `data[loader.size_key]` on something that is not a number is a `TypeError`. -/
def addLoader (sizeKey : String) (lv : Loader × TableView D) (out : Dict String (Entry D)) :
    Except Err (Dict String (Entry D)) :=
  match (lv.1.next lv.2 .fresh).2 with
  | .error e => .error e
  | .ok data => match data.get? lv.1.group with
    | none => .error .keyError
    | some d =>
      let out := out.set lv.1.group d
      match out.get? sizeKey, data.get? lv.1.sizeKey with
      | some (.num n), some (.num m) => .ok (out.set sizeKey (.num (n + m)))
      | none, _ => .error .keyError
      | _, none => .error .keyError
      | _, _ => .error .typeError

/-- `memory.py` 537-540, the loop. -/
def addLoaders (sizeKey : String) : List (Loader × TableView D) → Dict String (Entry D) →
    Except Err (Dict String (Entry D))
  | [], out => .ok out
  | lv :: lvs, out => match addLoader sizeKey lv out with
    | .error e => .error e
    | .ok out => addLoaders sizeKey lvs out

/-- One round of the loop, `memory.py` 534-542. -/
def batch (sizeKey : String) (views : List (Loader × TableView D)) : Except Err (Dict String (Entry D)) :=
  addLoaders sizeKey views [(sizeKey, .num 0)]

/-- `next` on the generator of `__iter__`, `memory.py` 527-542. `views` are the loaders with their tables. -/
def next (sizeKey : String) (views : List (Loader × TableView D)) :
    GenState → GenState × Except Err (Dict String (Entry D))
  | .done => (.done, .error .stopIteration)
  | .fresh =>
    if isReady views then
      match batch sizeKey views with
      | .error e => (.done, .error e)
      | .ok b => (.looping, .ok b)
    else (.done, .error .runtimeError)
  | .looping => match batch sizeKey views with
    | .error e => (.done, .error e)
    | .ok b => (.looping, .ok b)

/-- What `JointMemoryLoaderWithDataGroup` yields: a group of groups, and the size. -/
inductive GroupEntry (D : Type u) where
  | group (g : Dict String (Entry D))
  | size (e : Entry D)
  deriving DecidableEq, Repr

/-- `next` on the generator of `JointMemoryLoaderWithDataGroup.__iter__`, `memory.py` 553-557. There is no loop:
after the one `yield` the body ends. (The generator of the superclass is new, and dropped after one batch.) -/
def nextGrouped (dataGroup sizeKey : String) (views : List (Loader × TableView D)) :
    GenState → GenState × Except Err (Dict String (GroupEntry D))
  | .done => (.done, .error .stopIteration)
  | .fresh => match (next sizeKey views .fresh).2 with
    | .error e => (.done, .error e)
    | .ok data => match data.get? sizeKey with
      | none => (.done, .error .keyError)
      | some n => (.looping, .ok (Dict.ofPairs [(dataGroup, .group (data.erase sizeKey)), (sizeKey, .size n)]))
  | .looping => (.done, .error .stopIteration)

end JointLoader

end Verif
