import Verif.Model.Strategy
import Mathlib.Analysis.SpecialFunctions.Pow.Real
import Mathlib.MeasureTheory.Measure.Lebesgue.Basic

/-!
# The probabilities used by the random strategies

`Verif/Model/Strategy.lean` says which outcomes are possible; here are the numbers handed to
`np.random.choice(ids, p=...)`, as exact reals, and the probability that `int(random.random() * n)` takes a
given value when `random.random()` is uniform on `[0, 1)`.
-/

namespace Verif

open MeasureTheory

namespace Uniform

/-- `self._prios` as set by `_rebalance`, `uniform_strategy.py` 38. -/
noncomputable def weights (s : Uniform) : List ℝ :=
  s.prios.map fun (n : ℕ) => (n : ℝ) / ((s.prios.sum : ℕ) : ℝ)

end Uniform

namespace Coverage

/-- `combined_prios`, `coverage_based_strategy.py` 42-48. -/
noncomputable def combined (alpha : ℝ) (s : Coverage) : List ℝ :=
  List.zipWith (fun (n c : ℕ) => (n : ℝ) / ((s.prios.sum : ℕ) : ℝ) * (1 / ((c : ℝ) + 1) ^ alpha)) s.prios s.visits

/-- `self._prios`, `coverage_based_strategy.py` 50-51. -/
noncomputable def weights (alpha : ℝ) (s : Coverage) : List ℝ :=
  (s.combined alpha).map fun w => w / (s.combined alpha).sum

end Coverage

/-- The probability with which `np.random.choice(ids, p=weights)` returns `id`. -/
noncomputable def choiceProb (ids : List Int) (weights : List ℝ) (id : Int) : ℝ :=
  (((ids.zip weights).filter fun p => p.1 = id).map Prod.snd).sum

/-- `int(x)` of a float: truncation towards zero. -/
noncomputable def pyInt (x : ℝ) : Int := if 0 ≤ x then ⌊x⌋ else ⌈x⌉

/-- The probability that `int(random.random() * n)` is `k`, `uniform_strategy.py` 70. -/
noncomputable def offsetProb (n k : Int) : ℝ :=
  (volume {r : ℝ | r ∈ Set.Ico (0 : ℝ) 1 ∧ pyInt (r * n) = k}).toReal

/-- The probability that one draw of `UniformSampleStrategy.sample`, `uniform_strategy.py` 63-71, is the
window of `tc` transitions of sequence `id` that starts at `k`. -/
noncomputable def Uniform.windowProb (s : Uniform) (tc : Int) (id k : Int) : ℝ :=
  choiceProb s.ids s.weights id *
    (match s.idents.get? id with
     | none => 0
     | some len => offsetProb ((len : Int) - (tc - 1)) k)

end Verif
