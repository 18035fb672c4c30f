import Verif.Model.Numerics
import Verif.Model.Returns
import Mathlib.Algebra.Order.Floor.Ring

/-!
# Q-learning with discrete actions

`emote/algorithms/dqn.py`: the loss (`QLoss`, 111-115), on the targets of `Model/Returns.lean` and the soft update of
`Model/Numerics.lean`. The network is a table: one row of action values for each observation, which is then a number.
Numbers are exact.
-/

namespace Verif

namespace Dqn

open Numerics

variable {K : Type u} [Field K] [LinearOrder K] [FloorRing K]

/-- `actions.to(torch.int64)`, 112: towards zero -/
def toInt64 (x : K) : Int := if 0 ≤ x then ⌊x⌋ else ⌈x⌉

/-- `gather(1, indices)` for one row, 113: an index that is negative or too large raises `RuntimeError`. -/
def gather (row : List K) (i : Int) : Except Err K :=
  if i < 0 then .error .runtimeError
  else match row[i.toNat]? with
    | some x => .ok x
    | none => .error .runtimeError

/-- `gather(1, indices)` for all rows: there may be fewer actions than rows, but not more. -/
def gatherAll : List (List K) → List K → Except Err (List K)
  | row :: rows, a :: actions => match gather row (toInt64 a) with
    | .error e => .error e
    | .ok x => match gatherAll rows actions with
      | .error e => .error e
      | .ok xs => .ok (x :: xs)
  | _, [] => .ok []
  | [], _ :: _ => .error .runtimeError

/-- Broadcasting of two columns -/
def pairs (q target : List K) : Except Err (List (K × K)) :=
  if q.length = target.length then .ok (q.zip target)
  else match q, target with
    | [x], ts => .ok (ts.map fun t => (x, t))
    | q, [t] => .ok (q.map fun x => (x, t))
    | _, _ => .error .runtimeError

/-- `QLoss.loss`, 111-115, from the output of the network. For no rows the code gives NaN, this 0. -/
def loss (rows : List (List K)) (actions target : List K) : Except Err K :=
  match gatherAll rows actions with
  | .error e => .error e
  | .ok q => match pairs q target with
    | .error e => .error e
    | .ok l => .ok ((l.map fun p => (p.1 - p.2) ^ 2).sum / l.length)

/-- The output of a table for a batch of observations -/
def eval (net : Net K) : List Nat → Except Err (List (List K))
  | [] => .ok []
  | o :: os => match net[o]? with
    | none => .error .indexError
    | some row => match eval net os with
      | .error e => .error e
      | .ok rows => .ok (row :: rows)

/-- A row of a batch with rollouts of length 1 -/
structure Sample (K : Type u) where
  obs : Nat
  action : K
  reward : K
  mask : K
  next : Nat

/-- `QTarget.begin_batch`, 54-66 -/
def targets (gamma scale : K) (target : Net K) (b : List (Sample K)) : Except Err (List K) :=
  match eval target (b.map Sample.next) with
  | .error e => .error e
  | .ok rows => Returns.dqnTargets gamma scale 1 rows (b.map Sample.reward) (b.map Sample.mask)

/-- The loss of a table on a batch with its targets -/
def batchLoss (q : Net K) (b : List (Sample K)) (ts : List K) : Except Err K :=
  match eval q (b.map Sample.obs) with
  | .error e => .error e
  | .ok rows => loss rows (b.map Sample.action) ts

end Dqn

end Verif
