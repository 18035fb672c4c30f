import Verif.Model.Table

/-!
# Adaptors on sampled batches, and the table builders

`emote/memory/adaptors.py`, `emote/memory/builder.py`, the adaptor loop of `table.py` 209-211.

A sampled tensor is the list of its rows (`Cell`s). The workspace is copied into the tensor
(`torch.tensor`, `table.py` 192), so what adaptors do in place cannot reach the table.
-/

namespace Verif

variable {V : Type u}

/-- A value in the batch: a tensor, or the dictionary built by `DictObsAdaptor`. -/
inductive Out (V : Type u) where
  | col (rows : List (Cell V))
  | obs (d : Dict String (List (Cell V)))
  deriving DecidableEq, Repr

/-- `SampleResult` -/
abbrev Batch (V : Type u) := Dict String (Out V)

/-- A tensor operation on a value that may be a dictionary. -/
def Out.tensor : Out V → Except Err (List (Cell V))
  | .col rows => .ok rows
  | .obs _ => .error .attributeError

namespace Adaptors

/-- `result.pop(key)` for a tensor; a missing key is a `KeyError`. (Popping a dictionary that an earlier
`DictObsAdaptor` made would nest it; that is not modelled, and is a `typeError` here.) -/
def popCol (b : Batch V) (key : String) : Except Err (Batch V × List (Cell V)) :=
  match b.get? key with
  | none => .error .keyError
  | some (.obs _) => .error .typeError
  | some (.col rows) => .ok (b.erase key, rows)

/-- The loop of `DictObsAdaptor.__call__`, `adaptors.py` 39-42. -/
def dictObsLoop (withNext : Bool) : List (String × String) → Batch V → Dict String (List (Cell V)) →
    Dict String (List (Cell V)) →
    Except Err (Batch V × Dict String (List (Cell V)) × Dict String (List (Cell V)))
  | [], b, o, x => .ok (b, o, x)
  | (key, outKey) :: rest, b, o, x => do
    let (b, rows) ← popCol b key
    let o := o.set outKey rows
    if withNext then do
      let (b, rows) ← popCol b ("next_" ++ key)
      dictObsLoop withNext rest b o (x.set outKey rows)
    else dictObsLoop withNext rest b o x

/-- `DictObsAdaptor.__call__`, `adaptors.py` 36-46. -/
def dictObs (keyMap : List (String × String)) (withNext : Bool) (b : Batch V) : Except Err (Batch V) := do
  let (b, o, x) ← dictObsLoop withNext keyMap b [] []
  .ok ((b.set "observation" (.obs o)).set "next_observation" (.obs x))

/-- `KeyScaleAdaptor.__call__`, `adaptors.py` 60-62; `f` is the multiplication by the scale. -/
def keyScale (f : Cell V → Cell V) (key : String) (b : Batch V) : Except Err (Batch V) :=
  match b.get? key with
  | none => .error .keyError
  | some (.obs _) => .error .typeError
  | some (.col rows) => .ok (b.set key (.col (rows.map f)))

/-- `KeyCastAdaptor.__call__`, `adaptors.py` 76-78: the cast (`f`) is computed and dropped. -/
def keyCast (f : Cell V → Cell V) (key : String) (b : Batch V) : Except Err (Batch V) :=
  match b.get? key with
  | none => .error .keyError
  | some (.obs _) => .error .attributeError
  | some (.col rows) =>
    let _casted := rows.map f
    .ok b

/-- Is the cell 1.0? `isOne` says so for a stored row. -/
def isOne (one : V → Bool) : Cell V → Bool
  | .row v => one v
  | .bit b => b

/-- `value.reshape(-1, n)[:, -1]`: the last row of each group of `n`. `none`: the reshape is impossible
(`n = 0`, or the number of rows is not a multiple of `n`). -/
def lastOfGroups (rows : List (Cell V)) (n : Nat) : Option (List (Cell V)) :=
  if n = 0 ∨ rows.length % n ≠ 0 then none
  else some ((List.range (rows.length / n)).filterMap fun k => rows[k * n + (n - 1)]?)

/-- `torch.where(mask, a, b)` for two vectors and the reshape to the shape of `a`, `adaptors.py` 112-120:
equal lengths, or a single-element `b` that is broadcast. (A single-element `a` is broadcast too, but then
the reshape back fails.) -/
def whereOne (one : V → Bool) (a b : List (Cell V)) : Except Err (List (Cell V)) :=
  if a.length = b.length then .ok (List.zipWith (fun x y => if isOne one x then x else y) a b)
  else match b with
    | [y] => .ok (a.map fun x => if isOne one x then x else y)
    | _ => .error .runtimeError

/-- `TerminalAdaptor.__call__`, `adaptors.py` 94-121, for scalar tags (shape `()`, as in `builder.py`
35-41). `n` is `sequence_length`. -/
def terminal (one : V → Bool) (targetKey valueKey : String) (n : Nat) (b : Batch V) :
    Except Err (Batch V) :=
  match b.get? targetKey, b.get? valueKey with
  | some target, some value => do
    let target ← target.tensor
    let value ← value.tensor
    match lastOfGroups value n with
    | none => .error .runtimeError
    | some last => do
      let r ← whereOne one target last
      .ok (b.set targetKey (.col r))
  | _, _ => .error .keyError

end Adaptors

/-- An adaptor handed to a table. -/
inductive Adaptor (V : Type u) where
  | dictObs (keyMap : List (String × String)) (withNext : Bool)
  | keyScale (f : Cell V → Cell V) (key : String)
  | keyCast (f : Cell V → Cell V) (key : String)
  | terminal (one : V → Bool) (targetKey valueKey : String)

/-- Calling an adaptor with the batch and the sequence length. -/
def Adaptor.apply (n : Nat) (b : Batch V) : Adaptor V → Except Err (Batch V)
  | .dictObs keyMap withNext => Adaptors.dictObs keyMap withNext b
  | .keyScale f key => Adaptors.keyScale f key b
  | .keyCast f key => Adaptors.keyCast f key b
  | .terminal one targetKey valueKey => Adaptors.terminal one targetKey valueKey n b

/-- The adaptor loop of `sample`, `table.py` 209-211. -/
def adapt (n : Nat) : List (Adaptor V) → Batch V → Except Err (Batch V)
  | [], b => .ok b
  | a :: as, b => do
    let b ← a.apply n b
    adapt n as b

/-- `sample` with the adaptors, `table.py` 196-211. -/
def Table.sampleAdapted (as : List (Adaptor V)) (count n : Nat) (c r : Nat → Nat)
    (junk : String → Nat → Cell V) (t : Table V) : Res (Table V) (Batch V) :=
  (Table.sample count n c r junk t).andThen fun t out =>
    (t, adapt n as (out.map fun p => (p.1, .col p.2)))

namespace Builder

/-- The columns of one observation key, `builder.py` 108-119 (one-step) and 186-197 (n-step). -/
def obsColumns (nstep : Bool) (key : String) : List Column :=
  [⟨key, .plain⟩, ⟨"next_" ++ key, .virt (if nstep then .nextLast else .next) key⟩]

/-- The columns of `DictObsMemoryTable` (`builder.py` 81-119) and `DictObsNStepMemoryTable` (159-197),
with the terminal column of `DictMemoryTable` (34-41) at the end. -/
def columns (nstep useTerminal : Bool) (keys : List String) : List Column :=
  [⟨"actions", .plain⟩, ⟨"dones", .virt .dones "actions"⟩, ⟨"masks", .virt .masks "actions"⟩,
   ⟨"rewards", .plain⟩] ++ keys.flatMap (obsColumns nstep) ++
  (if useTerminal then [⟨"terminal", .tag⟩] else [])

/-- The adaptors of `DictMemoryTable`, `builder.py` 32-42. -/
def adaptors (one : V → Bool) (useTerminal : Bool) (keys : List String) : List (Adaptor V) :=
  .dictObs (keys.map fun k => (k, k)) true ::
  (if useTerminal then [.terminal one "terminal" "masks"] else [])

end Builder

end Verif
