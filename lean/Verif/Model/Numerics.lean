import Mathlib.Analysis.SpecialFunctions.Log.Basic
import Mathlib.MeasureTheory.Integral.IntervalIntegral.Basic
import Mathlib.Analysis.SpecialFunctions.Gaussian.GaussianIntegral

/-!
# Target networks, temperature, HL-Gauss

`soft_update_from_to` and the temperature of `emote/algorithms/sac.py`, `emote/algorithms/hlgauss.py`. Numbers are exact.
-/

namespace Verif

namespace Numerics

section

variable {K : Type u} [Field K]

/-- A network as its parameters, each as the list of its elements. -/
abbrev Net (K : Type u) := List (List K)

/-- `soft_update_from_to`, `sac.py` 21-23: `zip` ends with the shorter list, so that further parameters of the target
stay. The two parameters of a pair have the same shape (others would raise or be broadcast; not modelled). Returns the
target; the source is not written. -/
def softUpdate (source : Net K) (target : Net K) (tau : K) : Net K :=
  match source, target with
  | s :: source, t :: target => List.zipWith (fun t s => t * (1 - tau) + s * tau) t s :: softUpdate source target tau
  | _, target => target

/-- `QTarget` of `sac.py`, its networks and `tau`, 106-135 -/
structure SacNets (K : Type u) where
  q1 : Net K
  q2 : Net K
  q1t : Net K
  q2t : Net K
  tau : K

/-- `QTarget.end_batch`, `sac.py` 173-176 -/
def SacNets.endBatch (n : SacNets K) : SacNets K :=
  { n with q1t := softUpdate n.q1 n.q1t n.tau, q2t := softUpdate n.q2 n.q2t n.tau }

/-- `QTarget` of `dqn.py` -/
structure DqnNets (K : Type u) where
  q : Net K
  target : Net K
  tau : K

/-- `QTarget.end_batch`, `dqn.py` 67-69 -/
def DqnNets.endBatch (n : DqnNets K) : DqnNets K := { n with target := softUpdate n.q n.target n.tau }

end

/-- `AlphaLoss`, `sac.py` 281-317: the logarithm of the temperature, its limit, what has been logged for
"training/alpha_value" (newest last) -/
structure Alpha where
  lnAlpha : ℝ
  maxLnAlpha : ℝ
  logged : List ℝ

/-- 281-317: `max_alpha` is positive -/
noncomputable def Alpha.new (lnAlpha maxAlpha : ℝ) : Alpha := ⟨lnAlpha, Real.log maxAlpha, []⟩

/-- `backward`, `loss.py` 57-62: the optimiser does anything to the parameter -/
def Alpha.backward (a : Alpha) (opt : ℝ → ℝ) : Alpha := { a with lnAlpha := opt a.lnAlpha }

/-- `end_batch`, 328-335 (the entropy schedule is C57-C60) -/
noncomputable def Alpha.endBatch (a : Alpha) : Alpha :=
  let l := min a.lnAlpha a.maxLnAlpha
  { a with lnAlpha := l, logged := a.logged ++ [Real.exp l] }

/-- Batches, each with what the optimiser does. -/
noncomputable def Alpha.run (a : Alpha) (opts : List (ℝ → ℝ)) : Alpha :=
  opts.foldl (fun a opt => (a.backward opt).endBatch) a

/-! ## HL-Gauss -/

/-- `torch.linspace(lo, hi, n + 1)`: ends and all between at equal distances -/
noncomputable def linspace (lo hi : ℝ) (n : Nat) : List ℝ :=
  (List.range (n + 1)).map fun i : Nat => lo + i * ((hi - lo) / n)

/-- `f(x[:-1], x[1:])` -/
def neighbours (f : ℝ → ℝ → ℝ) (xs : List ℝ) : List ℝ := List.zipWith f xs.dropLast xs.tail

/-- `QNet.__init__`, `hlgauss.py` 23-36 -/
noncomputable def centers (lo hi : ℝ) (n : Nat) : List ℝ := neighbours (fun a b => (a + b) / 2) (linspace lo hi n)

/-- `torch.softmax` of a row -/
noncomputable def softmax (logits : List ℝ) : List ℝ :=
  logits.map fun x => Real.exp x / (logits.map Real.exp).sum

/-- `QNet.q_from_logit` for a row, 43-47 -/
noncomputable def qFromLogit (centers logits : List ℝ) : ℝ := (List.zipWith (· * ·) (softmax logits) centers).sum

/-- `torch.special.erf` -/
noncomputable def erf (x : ℝ) : ℝ := 2 / √Real.pi * ∫ t in (0 : ℝ)..x, Real.exp (-t ^ 2)

/-- `HLGaussLoss.transform_to_probs` for a row, 80-87 -/
noncomputable def toProbs (support : List ℝ) (sigma target : ℝ) : Option (List ℝ) :=
  let cdf := support.map fun s => erf ((s - target) / (√2 * sigma))
  match cdf.getLast?, cdf.head? with
  | some last, some first => some ((neighbours (fun a b => b - a) cdf).map fun p => p / (last - first))
  | _, _ => none

/-- `QLoss.__init__`, 140: the width -/
noncomputable def sigma (ratio lo hi : ℝ) (n : Nat) : ℝ := ratio * (hi - lo) / n

/-- `torch.clamp` -/
noncomputable def clamp (x lo hi : ℝ) : ℝ := min (max x lo) hi

/-- The target distribution in `QLoss.loss`, 148-149, 75-76 -/
noncomputable def lossTarget (ratio lo hi : ℝ) (n : Nat) (qTarget : ℝ) : Option (List ℝ) :=
  toProbs (linspace lo hi n) (sigma ratio lo hi n) (clamp qTarget lo hi)

/-- `F.cross_entropy(logits, probs)` for a row -/
noncomputable def crossEntropy (logits probs : List ℝ) : ℝ :=
  -(List.zipWith (fun l p => p * Real.log l) (softmax logits) probs).sum

end Numerics

end Verif
