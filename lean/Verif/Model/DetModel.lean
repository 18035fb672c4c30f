import Mathlib.Analysis.SpecialFunctions.Pow.Real
import Mathlib.Algebra.BigOperators.Fin
import Verif.Base.Dict

/-!
# The deterministic dynamics model

`DeterministicModel` of `emote/models/model.py` 192-255: linear layers with batch normalisation. Numbers are real numbers. Batches
have at least one row.
-/

namespace Verif

namespace DetNet

noncomputable section

/-- `nn.Linear` -/
structure Linear (i o : Nat) where
  weight : Fin o → Fin i → ℝ
  bias : Fin o → ℝ

/-- `nn.Linear.forward` -/
def Linear.forward {i o b : Nat} (l : Linear i o) (x : Fin b → Fin i → ℝ) : Fin b → Fin o → ℝ :=
  fun r k => (∑ j, l.weight k j * x r j) + l.bias k

/-- `nn.BatchNorm1d` with its defaults: `eps = 1e-5`, `momentum = 0.1`, running statistics, factor and offset -/
structure Norm (h : Nat) where
  gamma : Fin h → ℝ
  beta : Fin h → ℝ
  mean : Fin h → ℝ
  var : Fin h → ℝ

/-- The mean of a column of the batch. -/
def colMean {h b : Nat} (x : Fin b → Fin h → ℝ) (k : Fin h) : ℝ := (∑ r, x r k) / b

/-- The variance of a column of the batch, not corrected. -/
def colVar {h b : Nat} (x : Fin b → Fin h → ℝ) (k : Fin h) : ℝ := (∑ r, (x r k - colMean x k) ^ 2) / b

/-- `BatchNorm1d.forward`: in training mode with the statistics of the batch, which are also mixed into the running statistics (with
the corrected variance), and not for a batch of one row; otherwise with the running statistics. -/
def Norm.forward {h b : Nat} (training : Bool) (l : Norm h) (x : Fin b → Fin h → ℝ) : Except Err ((Fin b → Fin h → ℝ) × Norm h) :=
  if training then
    if b = 1 then .error .valueError
    else .ok (fun r k => (x r k - colMean x k) / √(colVar x k + 1 / 10 ^ 5) * l.gamma k + l.beta k,
      { l with
        mean := fun k => 9 / 10 * l.mean k + 1 / 10 * colMean x k
        var := fun k => 9 / 10 * l.var k + 1 / 10 * (colVar x k * b / (b - 1)) })
  else .ok (fun r k => (x r k - l.mean k) / √(l.var k + 1 / 10 ^ 5) * l.gamma k + l.beta k, l)

/-- One of the hidden blocks, 208-213 and 217-222 -/
structure Block (i o : Nat) where
  lin : Linear i o
  norm : Norm o

/-- Linear layer, normalisation, `nn.ReLU` -/
def Block.forward {i o b : Nat} (training : Bool) (l : Block i o) (x : Fin b → Fin i → ℝ) :
    Except Err ((Fin b → Fin o → ℝ) × Block i o) := do
  let y ← l.norm.forward training (l.lin.forward x)
  pure (fun r k => max 0 (y.1 r k), ⟨l.lin, y.2⟩)

/-- The blocks after the first one, one after the other -/
def blocks {h b : Nat} (training : Bool) : List (Block h h) → (Fin b → Fin h → ℝ) → Except Err ((Fin b → Fin h → ℝ) × List (Block h h))
  | [], x => .ok (x, [])
  | l :: ls, x => do
    let y ← l.forward training x
    let z ← blocks training ls y.1
    pure (z.1, y.2 :: z.2)

/-- `DeterministicModel`, 193-226. `training` is the flag of `nn.Module`: it is set when a module is made. -/
structure Model (i h o : Nat) where
  training : Bool
  first : Block i h
  rest : List (Block h h)
  last : Linear h o

/-- `forward` and `sample`, 228-232 and 243-255. If a layer raises, nothing has been written: it is the first one that does. -/
def Model.forward {i h o b : Nat} (m : Model i h o) (x : Fin b → Fin i → ℝ) : Except Err ((Fin b → Fin o → ℝ) × Model i h o) := do
  let y ← m.first.forward m.training x
  let z ← blocks m.training m.rest y.1
  pure (m.last.forward z.1, ⟨m.training, y.2, z.2, m.last⟩)

/-- `loss`, 234-241: the mean of the squared differences -/
def Model.loss {i h o b : Nat} (m : Model i h o) (x : Fin b → Fin i → ℝ) (target : Fin b → Fin o → ℝ) : Except Err (ℝ × Model i h o) := do
  let y ← m.forward x
  pure ((∑ r, ∑ k, (y.1 r k - target r k) ^ 2) / (b * o), y.2)

end

end DetNet

end Verif
