import Verif.Model.Dqn
import Verif.Model.LossStep
import Mathlib.Analysis.Calculus.Deriv.Basic

/-!
# Q-learning with gradient steps

`emote/algorithms/dqn.py`: a training with `QTarget` (`Model/Returns.lean`, `Model/Numerics.lean`) and `QLoss` (`Model/Dqn.lean`),
a `LossCallback` (`Model/LossStep.lean`). The network is a table of action values with `n` observations and `m + 1` actions, its
entries are the parameters. The optimizer is `torch.optim.SGD` without momentum and weight decay; automatic differentiation is the
derivative. Numbers are exact.
-/

namespace Verif

namespace DqnRun

open Numerics Dqn

/-- The entries of the table -/
abbrev Entry (n m : Nat) := Fin n × Fin (m + 1)

/-- The entries as the optimizer has them -/
def entries (n m : Nat) : List (Entry n m) := List.product (List.finRange n) (List.finRange (m + 1))

/-- The table with these entries -/
def netOf {n m : Nat} (v : Entry n m → ℝ) : Net ℝ := List.ofFn fun s => List.ofFn fun a => v (s, a)

/-- `QLoss.loss`, `dqn.py` 111-115, as a function of the parameters, for a batch with its targets; where it raises, this is 0 (then
there is no step, see `trainBatch`). -/
noncomputable def lossOf {n m : Nat} (b : List (Sample ℝ) × List ℝ) (v : Entry n m → ℝ) : ℝ :=
  match batchLoss (netOf v) b.1 b.2 with
  | .ok x => x
  | .error _ => 0

/-- `torch.optim.SGD`: each parameter with a gradient moves against it -/
noncomputable def sgd (_ : Unit) (rate : ℝ) (l : List (ℝ × Option ℝ)) : Unit × List ℝ :=
  ((), l.map fun x => match x.2 with
    | none => x.1
    | some d => x.1 - rate * d)

/-- `QTarget.__init__`, `dqn.py` 19-52, and `QLoss.__init__`, 86-109: what a training is set up with -/
structure Setup where
  name : String
  gamma : ℝ
  scale : ℝ
  tau : ℝ
  maxNorm : ℝ
  rate : Nat → ℝ

/-- `QLoss`, 71-115, as a loss of `Model/LossStep.lean` -/
noncomputable def Setup.cfg (c : Setup) (n m : Nat) : LossStep.Cfg (Entry n m) Unit (List (Sample ℝ) × List ℝ) where
  name := c.name
  own := entries n m
  maxNorm := c.maxNorm
  loss := lossOf
  deriv := fun b v p => some (deriv (fun x => lossOf b (Function.update v p x)) (v p))
  step := sgd
  rate := c.rate

/-- What changes in a training -/
structure Learner (n m : Nat) where
  loss : LossStep.State Unit
  net : LossStep.World (Entry n m)
  target : Net ℝ

/-- One batch in `Trainer.train_one_batch`: `QTarget.begin_batch`, `dqn.py` 54-66, `LossCallback.backward`, `loss.py` 57-67, and
`QTarget.end_batch`, `dqn.py` 67-69 -/
noncomputable def trainBatch {n m : Nat} (c : Setup) (b : List (Sample ℝ)) (x : Learner n m) : Except Err (Learner n m) :=
  match targets c.gamma c.scale x.target b with
  | .error e => .error e
  | .ok ts =>
    match batchLoss (netOf x.net.value) b ts with
    | .error e => .error e
    | .ok _ =>
      let r := LossStep.backward (c.cfg n m) (b, ts) x.loss x.net
      .ok ⟨r.1, r.2, (DqnNets.endBatch ⟨netOf r.2.value, x.target, c.tau⟩).target⟩

/-- Batches one after the other -/
noncomputable def train {n m : Nat} (c : Setup) : List (List (Sample ℝ)) → Learner n m → Except Err (Learner n m)
  | [], x => .ok x
  | b :: bs, x =>
    match trainBatch c b x with
    | .error e => .error e
    | .ok x => train c bs x

/-! ## Checkpoints -/

/-- What a checkpoint holds of a training: `LossCallback.state_dict`, `loss.py` 90-96, with the logs of `mixins/logging.py` 91-109. Plain
gradient descent keeps nothing but its learning rate, which is part of the setup here. `QTarget` adds nothing: it has no state of its own
(`Callback.state_dict`, `callback.py` 228-231), and no name, so that it can be no restoree. -/
structure Saved (n m : Nat) where
  value : Entry n m → ℝ
  logs : Dict String ℝ

def save {n m : Nat} (x : Learner n m) : Saved n m := ⟨x.net.value, x.loss.logs⟩

/-- `LossCallback.load_state_dict`, `loss.py` 98-111, in a new process: the schedule starts anew, and the target network is the one that was
made with the new process. -/
def load {n m : Nat} (d : Saved n m) (x : Learner n m) : Learner n m := ⟨⟨(), x.loss.steps, d.logs⟩, ⟨d.value, x.net.grad⟩, x.target⟩

/-- A new process: `QTarget.__init__`, `dqn.py` 43-52, without a target network copies the network; gradients and logs are empty. -/
def fresh {n m : Nat} (v : Entry n m → ℝ) : Learner n m := ⟨⟨(), 0, []⟩, ⟨v, fun _ => none⟩, netOf v⟩

end DqnRun

end Verif
