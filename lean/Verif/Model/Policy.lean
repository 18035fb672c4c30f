import Mathlib.Analysis.SpecialFunctions.Log.Basic
import Mathlib.Analysis.SpecialFunctions.Artanh
import Mathlib.Data.Real.Sqrt
import Mathlib.Analysis.Real.Pi.Bounds
import Mathlib.Algebra.BigOperators.Fin

/-!
# The Gaussian policy head, the auto-encoder's loss, the dynamics ensemble

`emote/nn/gaussian_policy.py` 36-72, `emote/algorithms/genrl/vae.py` 30-47, `emote/models/ensemble.py` 100-178. All numbers are
real numbers: rounding is not modelled, so a sample of the policy is never exactly ±1 and torch's linear continuation of
`softplus` above 20 is not needed. `n` is the number of action (latent, output) dimensions; the functions are those for
one row of the batch.
-/

namespace Verif

namespace Policy

open Real

noncomputable section

/-- `x.clamp(min=lo, max=hi)` -/
def clamp (lo hi x : ℝ) : ℝ := min (max x lo) hi

/-- `F.softplus` -/
def softplus (x : ℝ) : ℝ := log (1 + exp x)

/-- `self.mean(x).clamp(min=-5, max=5)`, `gaussian_policy.py` 56; the argument is the output of the linear layer. -/
def mean (m : ℝ) : ℝ := clamp (-5) 5 m

/-- `torch.exp(self.log_std(x).clamp(min=-20, max=2))`, `gaussian_policy.py` 57. -/
def std (s : ℝ) : ℝ := exp (clamp (-20) 2 s)

/-- `Normal(mean, std).log_prob(x)` of torch. -/
def normalLogProb (μ σ x : ℝ) : ℝ := -((x - μ) ^ 2) / (2 * σ ^ 2) - log σ - log (√(2 * π))

/-- `TanhTransform.log_abs_det_jacobian(x, y)` of torch. -/
def tanhLogJacobian (x : ℝ) : ℝ := 2 * (log 2 - x - softplus (-2 * x))

/-- `GaussianPolicyHead.forward` in training mode, `gaussian_policy.py` 58-70: `rsample` computes `mean + std * ε` and then `tanh`;
`log_prob` of the sample uses the value before `tanh` from the transform's cache. -/
def trainForward {n : Nat} (m s ε : Fin n → ℝ) : (Fin n → ℝ) × ℝ :=
  let x := fun i => mean (m i) + std (s i) * ε i
  (fun i => tanh (x i), (∑ i, normalLogProb (mean (m i)) (std (s i)) (x i)) - ∑ i, tanhLogJacobian (x i))

/-- `GaussianPolicyHead.forward` in evaluation mode, `gaussian_policy.py` 72. -/
def evalForward {n : Nat} (m s ε : Fin n → ℝ) : Fin n → ℝ := fun i => tanh (mean (m i) + std (s i) * ε i)

/-! ### Variational auto-encoder -/

/-- The latent value, `vae.py` 31-34. -/
def latent {n : Nat} (mu logStd ε : Fin n → ℝ) : Fin n → ℝ := fun i => ε i * exp (logStd i) + mu i

/-- `kld` of one row, `vae.py` 41-42. -/
def kld {n : Nat} (mu logStd : Fin n → ℝ) : ℝ := (∑ i, (-logStd i + mu i ^ 2 * 0.5 + exp (logStd i))) - n

/-! ### Ensemble of Gaussians -/

/-- The bounded log variance, `ensemble.py` 105-106. -/
def boundLogvar (lo hi l : ℝ) : ℝ :=
  let l1 := hi - softplus (hi - l)
  lo + softplus (l1 - lo)

/-- `forward` for one output, `ensemble.py` 108-124: the averages over the members. -/
def ensembleForward {k : Nat} (lo hi : ℝ) (means logvars : Fin k → ℝ) : ℝ × ℝ :=
  ((∑ i, means i) / k, (∑ i, boundLogvar lo hi (logvars i)) / k)

/-- The value `sample` draws, `ensemble.py` 173-178 (not deterministic), for one output: `ε` is the standard normal draw. -/
def ensembleSample {k : Nat} (lo hi : ℝ) (means logvars : Fin k → ℝ) (ε : ℝ) : ℝ :=
  let r := ensembleForward lo hi means logvars
  r.1 + √(exp r.2) * ε

/-- `GaussianNLLLoss` of torch (without the constant term, `eps = 1e-6`) for one element. -/
def gaussianNLL (μ target var : ℝ) : ℝ :=
  let v := max var (1 / 10 ^ 6)
  0.5 * (log v + (μ - target) ^ 2 / v)

/-- `loss` for `k` members, `b` rows and `n` outputs, `ensemble.py` 141-155; the target is the same for all members. -/
def ensembleLoss {k b n : Nat} (lo hi : Fin n → ℝ) (means logvars : Fin k → Fin b → Fin n → ℝ) (target : Fin b → Fin n → ℝ) : ℝ :=
  (∑ i, (∑ r, ∑ j, gaussianNLL (means i r j) (target r j) (exp (boundLogvar (lo j) (hi j) (logvars i r j)))) / (b * n)) +
    0.01 * ((∑ j, hi j) - ∑ j, lo j)

end

end Policy

end Verif
