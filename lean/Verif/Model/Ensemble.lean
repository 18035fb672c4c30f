import Verif.Model.Policy
import Verif.Model.Temperature

/-!
# The networks of the ensemble

`EnsembleLinearLayer` and `EnsembleOfGaussian` of `emote/models/ensemble.py`: the members' networks side by side. Numbers are real
numbers, `k` is the number of members, `b` the number of rows of a batch. A tensor of shape (k, b, n) is a function of three
indices; a tensor of shape (1, b, n) is broadcast to (k, b, n). Normalisation of the data is in `Model/Dynamics.lean`.
-/

namespace Verif

namespace Ens

noncomputable section

/-- `EnsembleLinearLayer`, 30-45: a weight for each member, input and output, a bias for each member and output -/
structure Layer (k : Nat) (ι ο : Type) where
  weight : Fin k → ι → ο → ℝ
  bias : Fin k → ο → ℝ

/-- `x.matmul(self.weight) + self.bias`, 47-48 -/
def Layer.forward {k b : Nat} {ι ο : Type} [Fintype ι] (l : Layer k ι ο) (x : Fin k → Fin b → ι → ℝ) : Fin k → Fin b → ο → ℝ :=
  fun i r o => (∑ j, x i r j * l.weight i j o) + l.bias i o

/-- `nn.ReLU`, 70 -/
def relu {k b : Nat} {ο : Type} (x : Fin k → Fin b → ο → ℝ) : Fin k → Fin b → ο → ℝ := fun i r o => max 0 (x i r o)

/-- `EnsembleOfGaussian`, 52-98, with `nIn` inputs, `h` hidden numbers, `n` outputs and `m + 1` hidden layers. The last layer has an
output `.inl j` for the mean and `.inr j` for the log variance of output `j`, 102-103. -/
structure Net (k nIn h n m : Nat) where
  first : Layer k (Fin nIn) (Fin h)
  rest : Fin m → Layer k (Fin h) (Fin h)
  last : Layer k (Fin h) (Fin n ⊕ Fin n)
  lo : Fin n → ℝ
  hi : Fin n → ℝ

variable {k nIn h n m b : Nat}

/-- The hidden layers and the last one, 101-102 -/
def Net.raw (net : Net k nIn h n m) (x : Fin k → Fin b → Fin nIn → ℝ) : Fin k → Fin b → Fin n ⊕ Fin n → ℝ :=
  net.last.forward ((List.ofFn net.rest).foldl (fun x l => relu (l.forward x)) (relu (net.first.forward x)))

/-- `default_forward`, 100-107: means and log variances -/
def Net.defaultForward (net : Net k nIn h n m) (x : Fin k → Fin b → Fin nIn → ℝ) :
    (Fin k → Fin b → Fin n → ℝ) × (Fin k → Fin b → Fin n → ℝ) :=
  (fun i r j => net.raw x i r (.inl j), fun i r j => Policy.boundLogvar (net.lo j) (net.hi j) (net.raw x i r (.inr j)))

/-- `forward`, 109-124: the averages over the members -/
def Net.forward (net : Net k nIn h n m) (x : Fin b → Fin nIn → ℝ) : (Fin b → Fin n → ℝ) × (Fin b → Fin n → ℝ) :=
  (fun r j => (∑ i, (net.defaultForward fun _ => x).1 i r j) / k, fun r j => (∑ i, (net.defaultForward fun _ => x).2 i r j) / k)

/-- `sample`, 157-178: `ε` are the standard normal draws of `torch.normal` -/
def Net.sample (net : Net k nIn h n m) (deterministic : Bool) (ε : Fin b → Fin n → ℝ) (x : Fin b → Fin nIn → ℝ) :
    Fin b → Fin n → ℝ :=
  if deterministic then (net.forward x).1
  else fun r j => (net.forward x).1 r j + √(Real.exp ((net.forward x).2 r j)) * ε r j

/-- `loss`, 126-155, for data of each member (three dimensions) -/
def Net.loss3 (net : Net k nIn h n m) (x : Fin k → Fin b → Fin nIn → ℝ) (target : Fin k → Fin b → Fin n → ℝ) : ℝ :=
  (∑ i, (∑ r, ∑ j, Policy.gaussianNLL ((net.defaultForward x).1 i r j) (target i r j) (Real.exp ((net.defaultForward x).2 i r j))) /
    (b * n)) + 0.01 * ((∑ j, net.hi j) - ∑ j, net.lo j)

/-- `loss`, 126-155, for data with two dimensions, which is the same for all members (142-147) -/
def Net.loss (net : Net k nIn h n m) (x : Fin b → Fin nIn → ℝ) (target : Fin b → Fin n → ℝ) : ℝ :=
  net.loss3 (fun _ => x) fun _ => target

/-- `ModelLoss` (`emote/models/callbacks.py` 21-62) as a loss callback, with plain gradient descent. The parameters that the optimizer
has are named by a member and a `q` of `qs`; `build` makes the ensemble of their values (the others and the bounds of the
variance are fixed). A batch is an input with its target. Derivatives that do not exist (at the kink of `relu`) are 0 here. -/
def trainer {Q : Type} [DecidableEq Q] (qs : List Q) (build : (Fin k → Q → ℝ) → Net k nIn h n m) (maxNorm : ℝ) (rate : Nat → ℝ) :
    LossStep.Cfg (Fin k × Q) Unit ((Fin b → Fin nIn → ℝ) × (Fin b → Fin n → ℝ)) where
  name := "dynamic_model"
  own := (List.finRange k).flatMap fun i => qs.map fun q => (i, q)
  maxNorm := maxNorm
  loss d v := (build fun i q => v (i, q)).loss d.1 d.2
  deriv d v p := some (deriv (fun t => (build fun i q => (Function.update v p t) (i, q)).loss d.1 d.2) (v p))
  step := Temp.sgd
  rate := rate

end

end Ens

end Verif
