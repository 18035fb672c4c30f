import Verif.Model.Policy

/-!
# The losses of soft actor-critic

`QLoss.loss` and `PolicyLoss.loss`, `emote/algorithms/sac.py` 75-78 and 241-256, with the policy head of `Model/Policy.lean`. Numbers are exact.
Logging is left out.
-/

namespace Verif

namespace SacPolicy

/-- `QLoss.loss`, 75-78: `nn.MSELoss` of the critic's values and the targets of the rows -/
noncomputable def qLoss (values targets : List ℝ) : ℝ := (List.zipWith (fun q t => (q - t) ^ 2) values targets).sum / values.length

/-- `torch.min(self.q1(…), self.q2(…))`, or the first one alone, 243-247 -/
noncomputable def qMin (q1 : ℝ) : Option ℝ → ℝ
  | some q2 => min q1 q2
  | none => q1

/-- `PolicyLoss.loss`, 249-251 and 255, from the outputs of the networks for `b` rows: log-probabilities, values of the
first and of the second critic, if there is one -/
noncomputable def loss {b : Nat} (lnAlpha : ℝ) (logp q1 : Fin b → ℝ) (q2 : Option (Fin b → ℝ)) : ℝ :=
  (∑ r, (Real.exp lnAlpha * logp r - qMin (q1 r) (q2.map (· r)))) / b

/-- 242-247 with the policy head: `m`, `s` are the outputs of its linear layers, `ε` the noise, the critics are functions
of the row (its observation) and the action -/
noncomputable def policyLoss {b n : Nat} (lnAlpha : ℝ) (m s : Fin b → Fin n → ℝ) (q1 : Fin b → (Fin n → ℝ) → ℝ)
    (q2 : Option (Fin b → (Fin n → ℝ) → ℝ)) (ε : Fin b → Fin n → ℝ) : ℝ :=
  let out := fun r => Policy.trainForward (m r) (s r) (ε r)
  loss lnAlpha (fun r => (out r).2) (fun r => q1 r (out r).1) (q2.map fun q2 r => q2 r (out r).1)

end SacPolicy

end Verif
