import Mathlib.Analysis.Calculus.Deriv.Basic
import Verif.Model.LossStep

/-!
# One batch of the temperature loss

`AlphaLoss`, `emote/algorithms/sac.py` 282-335, with `LossCallback.backward` (`Model/LossStep.lean`) and plain gradient
descent as optimizer. `logp` are the log-probabilities of the policy's actions in the batch, `target k` is the value of
the entropy schedule after `k` batches. (What holds for every optimizer is C62.)
-/

namespace Verif

namespace Temp

open LossStep

/-- `loss`, 317-326 -/
noncomputable def loss (logp : List ℝ) (target ln : ℝ) : ℝ :=
  (logp.map fun l => ln * (-l - target)).sum / logp.length

/-- `torch.optim.SGD` -/
def sgd (_ : Unit) (rate : ℝ) (l : List (ℝ × Option ℝ)) : Unit × List ℝ :=
  ((), l.map fun x => match x.2 with
    | some g => x.1 - rate * g
    | none => x.1)

/-- The loss callback, 282-315. A batch is its log-probabilities with the value of the schedule. -/
noncomputable def cfg (maxNorm : ℝ) (rate : Nat → ℝ) : Cfg Unit Unit (List ℝ × ℝ) where
  name := "alpha"
  own := [()]
  maxNorm := maxNorm
  loss b v := loss b.1 b.2 (v ())
  deriv b v _ := some (deriv (loss b.1 b.2) (v ()))
  step := sgd
  rate := rate

/-- The logarithm of the temperature with its gradient, the callback, and the number of steps of the entropy schedule -/
structure State where
  world : World Unit
  cb : LossStep.State Unit
  batches : Nat

/-- The temperature -/
noncomputable def State.alpha (s : State) : ℝ := Real.exp (s.world.value ())

/-- `backward` and then `end_batch`, 328-335, with `_max_ln_alpha`, 305 -/
noncomputable def batch (maxNorm maxAlpha : ℝ) (rate target : Nat → ℝ) (logp : List ℝ) (s : State) : State :=
  let r := backward (cfg maxNorm rate) (logp, target s.batches) s.cb s.world
  ⟨⟨fun u => min (r.2.value u) (Real.log maxAlpha), r.2.grad⟩, r.1, s.batches + 1⟩

end Temp

end Verif
