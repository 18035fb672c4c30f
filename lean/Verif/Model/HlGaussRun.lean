import Verif.Model.Numerics
import Verif.Model.DqnRun

/-!
# Training a value network with HL-Gauss

`emote/algorithms/hlgauss.py`: `QLoss`, a `LossCallback` (`Model/LossStep.lean`), trains a `QNet` towards targets that are given. The logits
are a table: `cell` says which row of it belongs to an input (observation and actions), and there are `m + 1` bins. The entries are the
parameters, the optimizer is plain gradient descent and automatic differentiation is the derivative, as in `Model/DqnRun.lean`. Numbers are
exact.
-/

namespace Verif

namespace HlGaussRun

open Numerics

/-- `QNet.__init__`, `hlgauss.py` 23-36, and `QLoss.__init__`, 116-142 -/
structure Setup (X : Type) (r : Nat) where
  name : String
  cell : X → Fin r
  lo : ℝ
  hi : ℝ
  ratio : ℝ
  maxNorm : ℝ
  rate : Nat → ℝ

variable {X : Type} {r m : Nat}

/-- `logit_net(actions, **observation)` for one row, 38 and 145 -/
def logits (c : Setup X r) (v : Fin r × Fin (m + 1) → ℝ) (x : X) : List ℝ := List.ofFn fun j => v (c.cell x, j)

/-- `QNet.forward` for one row, 38-47 -/
noncomputable def value (c : Setup X r) (v : Fin r × Fin (m + 1) → ℝ) (x : X) : ℝ :=
  qFromLogit (centers c.lo c.hi (m + 1)) (logits c v x)

/-- The distributions of all targets, 148 and 76 -/
noncomputable def allProbs (c : Setup X r) (bins : Nat) : List (X × ℝ) → Except Err (List (List ℝ))
  | [] => .ok []
  | y :: ys =>
    match lossTarget c.ratio c.lo c.hi bins y.2, allProbs c bins ys with
    | some p, .ok ps => .ok (p :: ps)
    | none, _ => .error .indexError
    | _, .error e => .error e

/-- `HLGaussLoss.forward`, 75-78, as called in `QLoss.loss`, 149: the mean over the rows; the shapes must be the same. -/
noncomputable def batchLoss (c : Setup X r) (b : List (X × ℝ)) (v : Fin r × Fin (m + 1) → ℝ) : Except Err ℝ :=
  match allProbs c (m + 1) b with
  | .error e => .error e
  | .ok ps =>
    let ls := b.map fun y => logits c v y.1
    if ls.map List.length = ps.map List.length then
      .ok ((List.zipWith crossEntropy ls ps).sum / ls.length)
    else .error .assertionError

/-- The loss as a function of the parameters; where it raises, this is 0 (then there is no step, see `trainBatch`). -/
noncomputable def lossOf (c : Setup X r) (b : List (X × ℝ)) (v : Fin r × Fin (m + 1) → ℝ) : ℝ :=
  match batchLoss c b v with
  | .ok x => x
  | .error _ => 0

/-- `QLoss`, 90-149, as a loss of `Model/LossStep.lean` -/
noncomputable def Setup.cfg (c : Setup X r) (m : Nat) : LossStep.Cfg (DqnRun.Entry r m) Unit (List (X × ℝ)) where
  name := c.name
  own := DqnRun.entries r m
  maxNorm := c.maxNorm
  loss := lossOf c
  deriv := fun b v p => some (deriv (fun x => lossOf c b (Function.update v p x)) (v p))
  step := DqnRun.sgd
  rate := c.rate

/-- What changes in a training -/
structure Learner (r m : Nat) where
  loss : LossStep.State Unit
  net : LossStep.World (DqnRun.Entry r m)

/-- The mean of the values of the rows, which `QLoss.loss` logs, 146-147 -/
noncomputable def prediction (c : Setup X r) (b : List (X × ℝ)) (v : Fin r × Fin (m + 1) → ℝ) : ℝ :=
  (b.map fun y => value c v y.1).sum / b.length

/-- One batch: `LossCallback.backward`, `loss.py` 57-67, with `QLoss.loss`, `hlgauss.py` 144-149 -/
noncomputable def trainBatch (c : Setup X r) (b : List (X × ℝ)) (x : Learner r m) : Except Err (Learner r m) :=
  match batchLoss c b x.net.value with
  | .error e => .error e
  | .ok _ =>
    let logs := x.loss.logs.set ("training/" ++ c.name ++ "_prediction") (prediction c b x.net.value)
    let y := LossStep.backward (c.cfg m) b { x.loss with logs := logs } x.net
    .ok ⟨y.1, y.2⟩

/-- Batches one after the other -/
noncomputable def train (c : Setup X r) : List (List (X × ℝ)) → Learner r m → Except Err (Learner r m)
  | [], x => .ok x
  | b :: bs, x =>
    match trainBatch c b x with
    | .error e => .error e
    | .ok x => train c bs x

end HlGaussRun

end Verif
