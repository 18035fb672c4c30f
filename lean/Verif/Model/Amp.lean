import Verif.Base.Dict
import Mathlib.Algebra.Order.Field.Basic

/-!
# Adversarial rewards: `AMPReward` and `ActionSymmetryAMPReward`

`emote/algorithms/amp.py` 117-181 and `emote/algorithms/action_symmetry.py` 14-26, 91-149. A batch is the list of its rows:
`O` is an observation row, `S` a mapped state, `K` the numbers. The discriminator maps a batch of rows to a batch of
predictions. Logging and gradients are not modelled.
-/

namespace Verif

namespace Amp

variable {O S K : Type}

/-- The parts of size `n` of a batch. -/
def chunks (n : Nat) : Nat → List O → List (List O)
  | 0, _ => []
  | k + 1, l => l.take n :: chunks n k (l.drop n)

/-- `obs.reshape(bsz // L, L, -1)`, `amp.py` 150-152, followed by the concatenation with `next_obs` in 156: with a batch that is not
a (positive) multiple of `L` one of the two raises. -/
def rollouts (L : Nat) (obs : List O) : Except Err (List (List O)) :=
  if L = 0 then .error .zeroDivision
  else if obs.length = 0 then .error .runtimeError
  else if obs.length / L * L = obs.length then .ok (chunks L (obs.length / L) obs)
  else .error .runtimeError

/-- `amp.py` 153-159: the observations with those of `next_obs` at the end of each rollout, without the first. -/
def successors (L : Nat) (obs next : List O) : Except Err (List O) :=
  match rollouts L obs with
  | .error e => .error e
  | .ok rs =>
    if rs.length = next.length then .ok ((List.zipWith (fun r n => (r ++ [n]).drop 1) rs next).flatten)
    else .error .runtimeError

variable [Field K]

/-- `1.0 - 0.25 * (predictions - 1.0) ** 2.0`, `amp.py` 168. -/
def style (p : K) : K := 1 - 1 / 4 * (p - 1) ^ 2

/-- `AMPReward.begin_batch`, `amp.py` 138-181: the rewards it returns. -/
def ampReward (L : Nat) (w : K) (map : O → S) (disc : List (S × S) → List K) (obs next : List O) (rewards : List K) :
    Except Err (List K) :=
  match successors L obs next with
  | .error e => .error e
  | .ok succ =>
    let predictions := disc (List.zip (obs.map map) (succ.map map))
    if predictions.length = rewards.length then
      .ok (List.zipWith (fun r p => r + w * style p) rewards predictions)
    else .error .assertionError

/-- `torch.clamp(x, -1.0, 1.0)` -/
def clamp [LinearOrder K] (x : K) : K := min (max x (-1)) 1

/-- `action_map_fn`, `action_symmetry.py` 22-24, on a row: the slices one after the other. -/
def actionMap (ranges : List (Nat × Nat)) (row : List K) : List K :=
  (ranges.map fun r => (row.take r.2).drop r.1).flatten

/-- The confusion reward, `action_symmetry.py` 130-134 (the clamps included). -/
def confusion [LinearOrder K] (right left : K) : K :=
  (1 - 1 / 4 * (clamp left - 1) ^ 2) + (1 - 1 / 4 * (clamp right + 1) ^ 2)

/-- `ActionSymmetryAMPReward.begin_batch`, `action_symmetry.py` 110-149: the rewards it returns, for batches of equal
length. -/
def symmetryReward [LinearOrder K] (w : K) (right left : O → S) (disc : List S → List K) (actions : List O) (rewards : List K) :
    List K :=
  let predictions := disc (actions.map right ++ actions.map left)
  let r := predictions.take actions.length
  let l := predictions.drop actions.length
  List.zipWith (fun r c => r + c * w) rewards (List.zipWith confusion r l)

end Amp

end Verif
