import Mathlib.Algebra.Order.Field.Basic
import Mathlib.Algebra.BigOperators.Group.List.Basic
import Verif.Base.Res

/-!
# Discounted returns and Q targets

`emote/utils/gamma_matrix.py` 23-53, `emote/algorithms/sac.py` 146-171, `emote/algorithms/dqn.py` 54-66.

Tensors are lists (of lists), numbers are elements of a field: rounding is left out. A matrix is the list of its rows,
except the gamma matrix, which is written column by column and kept as the list of its columns. Broadcasting of a
dimension of size 1 against another size is left out; the sizes must be equal.
-/

namespace Verif

namespace Returns

variable {K : Type u} [Field K]

/-- `gamma_vector`, `gamma_matrix.py` 26-28: the powers 0 .. n -/
def gammaVector (g : K) (n : Nat) : List K := (List.range (n + 1)).map fun cc => g ^ cc

/-- Column `cc`, 30: zeros down to row `cc`, then the powers -/
def gammaColumn (g : K) (n cc : Nat) : List K := List.replicate cc 0 ++ (gammaVector g n).take (n + 1 - cc)

/-- `make_gamma_matrix`, 23-31, as the list of its columns (each has `n + 1` rows) -/
def gammaMatrix (g : K) (n : Nat) : List (List K) := (List.range n).map (gammaColumn g n)

/-- The product of a row and a column. -/
def dot (a b : List K) : K := (List.zipWith (· * ·) a b).sum

/-- `discount`, 42-48, for a gamma matrix with `rows` rows. `torch.cat` and `torch.matmul` raise for sizes that do not
fit. -/
def discount (rewards values : List (List K)) (rows : Nat) (columns : List (List K)) : Except Err (List K) :=
  if rewards.length ≠ values.length then .error .runtimeError
  else if ¬ (List.zipWith (· ++ ·) rewards values).all (fun row => row.length == rows) then .error .runtimeError
  else .ok ((List.zipWith (· ++ ·) rewards values).flatMap fun row => columns.map (dot row))

/-- Consecutive pieces of a list. -/
def pieces (len : Nat) : Nat → List α → List (List α)
  | 0, _ => []
  | n + 1, l => l.take len :: pieces len n (l.drop len)

/-- `split_rollouts`, 51-52: `view` raises if the number of rows is not a multiple of the length. -/
def splitRollouts (data : List α) (len : Nat) : Except Err (List (List α)) :=
  if len = 0 then .error .zeroDivision
  else if data.length / len * len ≠ data.length then .error .runtimeError
  else .ok (pieces len (data.length / len) data)

/-- `[:, -1]` of rollouts: an empty rollout has no last step. -/
def lastSteps (l : List (List α)) : Except Err (List α) :=
  match l.mapM List.getLast? with
  | some x => .ok x
  | none => .error .indexError

variable [LinearOrder K]

/-- `torch.min(q1, q2) - alpha * logp`, `sac.py` 148-155 -/
def nextValues (alpha : K) (q1 q2 logp : List K) : List K :=
  List.zipWith (fun q l => q - alpha * l) (List.zipWith min q1 q2) logp

/-- `QTarget.begin_batch` of `sac.py` 146-171, from the outputs of the networks. Logging is left out. -/
def sacTargets (gamma alpha scale : K) (len : Nat) (masking : Bool) (q1 q2 logp rewards masks : List K) :
    Except Err (List K) :=
  match splitRollouts masks len with
  | .error e => .error e
  | .ok maskRolls => match lastSteps maskRolls with
    | .error e => .error e
    | .ok last => match splitRollouts (rewards.map (scale * ·)) len with
      | .error e => .error e
      | .ok rewardRolls =>
        let next := nextValues alpha q1 q2 logp
        let next := if masking then List.zipWith (· * ·) next last else next
        match discount rewardRolls (next.map ([·])) (len + 1) (gammaMatrix gamma len) with
        | .error e => .error e
        | .ok qt => if qt.length = rewards.length then .ok qt else .error .assertionError

/-- The largest value of a row. -/
def best : List K → Option K
  | [] => none
  | x :: xs => some (xs.foldl max x)

/-- `max(1)[0]`: the largest value of each row; a row without values has none. -/
def rowMax (rows : List (List K)) : Except Err (List K) :=
  match rows.mapM best with
  | some x => .ok x
  | none => .error .indexError

/-- `QTarget.begin_batch` of `dqn.py` 54-66, from the output of the target network -/
def dqnTargets (gamma scale : K) (len : Nat) (nextQ : List (List K)) (rewards masks : List K) : Except Err (List K) :=
  match rowMax nextQ with
  | .error e => .error e
  | .ok top => match splitRollouts masks len with
    | .error e => .error e
    | .ok maskRolls => match lastSteps maskRolls with
      | .error e => .error e
      | .ok last => match splitRollouts (rewards.map (scale * ·)) len with
        | .error e => .error e
        | .ok rewardRolls =>
          discount rewardRolls ((List.zipWith (· * ·) top last).map ([·])) (len + 1) (gammaMatrix gamma len)

end Returns

end Verif
