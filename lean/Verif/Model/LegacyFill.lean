import Verif.Base.Res

/-!
# Filling a table from a legacy dump

`fill_table_from_legacy_file` in `emote/memory/loading.py`. Reading the pickle file and the reshaping, 28-36, are left out: a dump
is what the arrays are after them. There are two numbers of `actions` for each row of the others (48, 62); `pair` makes one row of
two of them. The memory is any function for `add_sequence`.
-/

namespace Verif

namespace LegacyFill

variable {V : Type u} {T : Type w}

/-- `state`, after 34-36 -/
structure Dump (V : Type u) where
  dones : List Bool
  actions : List V
  rewards : List V
  nextObs : List V
  obs : List V
  deriving DecidableEq, Repr

/-- The keyword arguments, 14-16 -/
structure Flags where
  obs : Bool
  actions : Bool
  rewards : Bool

/-- `[i for i, d in enumerate(state["dones"]) if d]`, 38; `i` counts -/
def doneIndices : Nat → List Bool → List Nat
  | _, [] => []
  | i, d :: ds => if d then i :: doneIndices (i + 1) ds else doneIndices (i + 1) ds

/-- `a[start:stop]` for bounds that are not negative -/
def slice {α : Type u} (l : List α) (start stop : Nat) : List α := (l.drop start).take (stop - start)

/-- `actions.reshape(-1, 2)`, 62 -/
def reshape2 (pair : V → V → V) : List V → Except Err (List V)
  | [] => .ok []
  | [_] => .error .valueError
  | a :: b :: rest => match reshape2 pair rest with
    | .error e => .error e
    | .ok rows => .ok (pair a b :: rows)

/-- `outs`, 57-65, for one episode -/
def outs (f : Flags) (obs actions rewards : List V) : Dict String (List V) :=
  (if f.obs then [("obs", obs)] else []) ++ (if f.actions then [("actions", actions)] else []) ++
    (if f.rewards then [("rewards", rewards)] else [])

/-- What is handed to the memory for the rows from `prev` to `done`, 47-65 -/
def sequence (f : Flags) (pair : V → V → V) (d : Dump V) (prev done : Nat) : Except Err (Dict String (List V)) :=
  let rewards := slice d.rewards prev (done + 1)
  let actions := slice d.actions (prev * 2) ((done + 1) * 2)
  let dones := slice d.dones prev (done + 1)
  match dones.head?, dones.getLast? with
  | some first, some last =>
    if first && dones.length ≠ 1 then .error .assertionError
    else if !last then .error .assertionError
    else match d.nextObs[done + 1]? with
      | none => .error .indexError
      | some x =>
        let obs := slice d.obs prev (done + 1) ++ [x]
        if f.actions then
          match reshape2 pair actions with
          | .error e => .error e
          | .ok rows => .ok (outs f obs rows rewards)
        else .ok (outs f obs [] rewards)
  | _, _ => .error .indexError

/-- The loop, 39-70 -/
def loop (f : Flags) (pair : V → V → V) (mem : Int → Dict String (List V) → T → Res T Unit) (d : Dump V) :
    List Nat → Nat → Int → T → Res T Unit
  | [], _, _, t => (t, .ok ())
  | done :: rest, prev, agent, t =>
    if (done : Int) - prev < 10 then loop f pair mem d rest (done + 1) (agent - 1) t
    else match sequence f pair d prev done with
      | .error e => (t, .error e)
      | .ok seq => (mem agent seq t).andThen fun t _ => loop f pair mem d rest (done + 1) (agent - 1) t

/-- `fill_table_from_legacy_file`, 38-70 -/
def fill (f : Flags) (pair : V → V → V) (mem : Int → Dict String (List V) → T → Res T Unit) (d : Dump V) (t : T) : Res T Unit :=
  loop f pair mem d (doneIndices 0 d.dones) 0 (-1) t

end LegacyFill

end Verif
