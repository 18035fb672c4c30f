import Mathlib.Analysis.Calculus.Deriv.Basic
import Mathlib.Analysis.Calculus.Deriv.Add

/-!
# The loss of the discriminators

`gradient_loss_function` and `DiscriminatorLoss.loss`, `emote/algorithms/amp.py` 12-31 and 63-115; the loss of
`emote/algorithms/action_symmetry.py` 60-93 is the same with other inputs. A batch is a matrix with rows `B` and columns
`J`. A network maps a batch to one number for each row; it may look at all rows (as batch normalisation does). How the
inputs are cut out of the batches is not modelled here (for the pairs of states see `Model/Amp.lean`). Numbers are exact.
-/

namespace Verif

namespace Disc

variable {B C J : Type} [Fintype B] [Fintype C] [Fintype J] [DecidableEq B] [DecidableEq J]

/-- The batch with another number in row `i`, column `j` -/
def put (x : B → J → ℝ) (i : B) (j : J) (t : ℝ) : B → J → ℝ := Function.update x i (Function.update (x i) j t)

/-- `torch.autograd.grad(predictions, model_input, …)`, 24-27: for several outputs it gives the derivatives of their sum.
Where there is no derivative, this is 0. -/
noncomputable def inputsGrad (net : (B → J → ℝ) → B → ℝ) (x : B → J → ℝ) (i : B) (j : J) : ℝ :=
  deriv (fun t => ∑ k, net (put x i j t) k) (x i j)

/-- `torch.mean` -/
noncomputable def mean (f : B → ℝ) : ℝ := (∑ i, f i) / Fintype.card B

/-- `gradient_loss_function`, 12-31; the list that is concatenated in 28 has one element -/
noncomputable def gradientLoss (net : (B → J → ℝ) → B → ℝ) (x : B → J → ℝ) : ℝ :=
  mean fun i => ∑ j, inputsGrad net x i j ^ 2

/-- `DiscriminatorLoss.loss`, 63-104: `net` and `net'` are the discriminator, on batches of the two sizes -/
noncomputable def loss (weight : ℝ) (net : (B → J → ℝ) → B → ℝ) (net' : (C → J → ℝ) → C → ℝ) (pos : B → J → ℝ)
    (neg : C → J → ℝ) : ℝ :=
  (mean fun i => (net pos i - 1) ^ 2) + (mean fun i => (net' neg i + 1) ^ 2) + weight * gradientLoss net pos

end Disc

end Verif
