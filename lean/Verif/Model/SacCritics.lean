import Verif.Model.DqnRun
import Verif.Model.SacPolicy

/-!
# The critics of soft actor-critic with gradient steps

`emote/algorithms/sac.py`: a training with `QTarget` (`Model/Returns.lean`, `Model/Numerics.lean`) and two times `QLoss`
(`Model/SacPolicy.lean`), each a `LossCallback` (`Model/LossStep.lean`) with an optimizer of its own. Observations and actions are of any
kind. A critic cuts the pairs of them into finitely many cells and has one number for each cell, its parameters; the cells are laid out as
the entries of a table. The policy gives one action with its log-probability for each observation; it and the temperature do not change
here. The optimizers are `torch.optim.SGD` without momentum and weight decay; automatic differentiation is the derivative. Numbers are
exact.
-/

namespace Verif

namespace SacCritics

open Numerics DqnRun

/-- A row of a batch -/
structure Row (O A : Type) where
  obs : O
  action : A
  reward : ℝ
  mask : ℝ

/-- A batch of rollouts: the rows, and for each rollout what was observed after its last step -/
structure Batch (O A : Type) where
  rows : List (Row O A)
  next : List O

/-- `QLoss.__init__`, `sac.py` 50-73: a critic is set up with these. `cell` is what its network makes of an observation and an action. -/
structure Critic (O A : Type) (n m : Nat) where
  name : String
  cell : O → A → Entry n m
  maxNorm : ℝ
  rate : Nat → ℝ

/-- `QTarget.__init__`, 114-144, with the two critics -/
structure Setup (O A : Type) (n m : Nat) where
  policy : O → A × ℝ
  lnAlpha : ℝ
  gamma : ℝ
  scale : ℝ
  tau : ℝ
  len : Nat
  masking : Bool
  first : Critic O A n m
  second : Critic O A n m

variable {O A : Type} {n m : Nat}

/-- The output of a critic of which these are the parameters -/
def output (net : Net ℝ) (p : Entry n m) : Except Err ℝ :=
  match net[p.1.val]? with
  | none => .error .indexError
  | some row => match row[p.2.val]? with
    | none => .error .indexError
    | some x => .ok x

/-- `self.q1t(next_p_sample, **next_observation)`, 148-149, for all rollouts -/
def outputs (net : Net ℝ) : List (Entry n m) → Except Err (List ℝ)
  | [] => .ok []
  | p :: ps => match output net p with
    | .error e => .error e
    | .ok x => match outputs net ps with
      | .error e => .error e
      | .ok xs => .ok (x :: xs)

/-- `QTarget.begin_batch`, 146-171 -/
noncomputable def targets (c : Setup O A n m) (q1t q2t : Net ℝ) (b : Batch O A) : Except Err (List ℝ) :=
  match outputs q1t (b.next.map fun o => c.first.cell o (c.policy o).1) with
  | .error e => .error e
  | .ok q1 => match outputs q2t (b.next.map fun o => c.second.cell o (c.policy o).1) with
    | .error e => .error e
    | .ok q2 => Returns.sacTargets c.gamma (Real.exp c.lnAlpha) c.scale c.len c.masking q1 q2 (b.next.map fun o => (c.policy o).2)
        (b.rows.map Row.reward) (b.rows.map Row.mask)

/-- `QLoss.loss`, 75-78, as a function of the parameters -/
noncomputable def lossOf (cell : O → A → Entry n m) (b : List (Row O A) × List ℝ) (v : Entry n m → ℝ) : ℝ :=
  SacPolicy.qLoss (b.1.map fun r => v (cell r.obs r.action)) b.2

/-- `QLoss`, 26-78, as a loss of `Model/LossStep.lean` -/
noncomputable def Critic.cfg (c : Critic O A n m) : LossStep.Cfg (Entry n m) Unit (List (Row O A) × List ℝ) where
  name := c.name
  own := entries n m
  maxNorm := c.maxNorm
  loss := lossOf c.cell
  deriv := fun b v p => some (deriv (fun x => lossOf c.cell b (Function.update v p x)) (v p))
  step := sgd
  rate := c.rate

/-- What changes in a training -/
structure Learner (n m : Nat) where
  loss1 : LossStep.State Unit
  loss2 : LossStep.State Unit
  q1 : LossStep.World (Entry n m)
  q2 : LossStep.World (Entry n m)
  q1t : Net ℝ
  q2t : Net ℝ

/-- One batch in `Trainer.train_one_batch`: `QTarget.begin_batch`, `LossCallback.backward` of both critics, `loss.py` 57-67, and
`QTarget.end_batch`, `sac.py` 173-176 -/
noncomputable def trainBatch (c : Setup O A n m) (b : Batch O A) (x : Learner n m) : Except Err (Learner n m) :=
  match targets c x.q1t x.q2t b with
  | .error e => .error e
  | .ok ts =>
    let r1 := LossStep.backward c.first.cfg (b.rows, ts) x.loss1 x.q1
    let r2 := LossStep.backward c.second.cfg (b.rows, ts) x.loss2 x.q2
    let nets := SacNets.endBatch ⟨netOf r1.2.value, netOf r2.2.value, x.q1t, x.q2t, c.tau⟩
    .ok ⟨r1.1, r2.1, r1.2, r2.2, nets.q1t, nets.q2t⟩

/-- Batches one after the other -/
noncomputable def train (c : Setup O A n m) : List (Batch O A) → Learner n m → Except Err (Learner n m)
  | [], x => .ok x
  | b :: bs, x =>
    match trainBatch c b x with
    | .error e => .error e
    | .ok x => train c bs x

end SacCritics

end Verif
