import Verif.Model.Adaptors
import Verif.Model.Returns

/-!
# The targets of a sampled batch

`QTarget.begin_batch` of `emote/algorithms/sac.py` 146-171 and of `emote/algorithms/dqn.py` 54-66, called with a batch as
the adaptors of a table leave it (`next_observation`, `rewards` and `masks`; the callback's other arguments are not used).

Networks work row by row: a batch of features goes in, one result for each row comes out. What the policy draws for a row
is part of the function given for that row. The exponential of `ln_alpha` is the argument `alpha`. Logging is left out.
-/

namespace Verif

namespace Targets

variable {V : Type u} {K : Type v} [Field K] [LinearOrder K] {A : Type w}

/-- One row of a dictionary of tensors. -/
def rowAt (x : Dict String (List (Cell V))) (k : Nat) : Option (Dict String (Cell V)) :=
  x.mapM fun p => p.2[k]?.map fun c => (p.1, c)

/-- The rows that a network called with `**next_observation` works on, `sac.py` 147, `dqn.py` 55. A network cannot be called
without features, nor with features of which there are different numbers of rows. -/
def rows (x : Dict String (List (Cell V))) : Except Err (List (Dict String (Cell V))) :=
  match x with
  | [] => .error .typeError
  | p :: _ =>
    if x.all (fun q => q.2.length == p.2.length) then
      match (List.range p.2.length).mapM (rowAt x) with
      | some rs => .ok rs
      | none => .error .runtimeError
    else .error .runtimeError

/-- An element of a tensor as a number: `masks` are floats (`builder.py` 69-97 and 169-173). -/
def number (num : V → K) : Cell V → K
  | .row v => num v
  | .bit b => if b then 1 else 0

/-- The networks of soft actor-critic: the policy gives an action and its log-probability (for each row with the noise that
was drawn for it), the target networks give values. -/
structure SacNets (V : Type u) (K : Type v) (A : Type w) where
  policy : Nat → Dict String (Cell V) → A × K
  q1t : A → Dict String (Cell V) → K
  q2t : A → Dict String (Cell V) → K

/-- `QTarget.begin_batch`, `sac.py` 146-171, on a batch. Arguments are looked up by name (`callback.py` 51-65), and a missing
one is a `TypeError`. -/
def sacBegin (num : V → K) (nets : SacNets V K A) (gamma alpha scale : K) (len : Nat) (masking : Bool) (b : Batch V) :
    Except Err (List K) :=
  match b.get? "next_observation", b.get? "rewards", b.get? "masks" with
  | some (.obs x), some (.col r), some (.col m) =>
    match rows x with
    | .error e => .error e
    | .ok rs =>
      Returns.sacTargets gamma alpha scale len masking
        (rs.mapIdx fun k row => nets.q1t (nets.policy k row).1 row)
        (rs.mapIdx fun k row => nets.q2t (nets.policy k row).1 row)
        (rs.mapIdx fun k row => (nets.policy k row).2)
        (r.map (number num)) (m.map (number num))
  | _, _, _ => .error .typeError

/-- `QTarget.begin_batch`, `dqn.py` 54-66, on a batch. `qt` is the target network: the values of all actions. -/
def dqnBegin (num : V → K) (qt : Dict String (Cell V) → List K) (gamma scale : K) (len : Nat) (b : Batch V) :
    Except Err (List K) :=
  match b.get? "next_observation", b.get? "rewards", b.get? "masks" with
  | some (.obs x), some (.col r), some (.col m) =>
    match rows x with
    | .error e => .error e
    | .ok rs =>
      Returns.dqnTargets gamma scale len (rs.map qt) (r.map (number num)) (m.map (number num))
  | _, _, _ => .error .typeError

end Targets

end Verif
