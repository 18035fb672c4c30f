import Mathlib.Analysis.SpecialFunctions.Pow.Real
import Verif.Base.Dict

/-!
# One step of a loss

`LossCallback.backward`, `emote/callbacks/loss.py` 57-71, with the parts of torch it calls: `zero_grad`, `backward`,
`clip_grad_norm_` and `step`. Several losses share the same parameters and their gradients. A parameter is one number.
The optimizer may be any function of its own state, the learning rate and the values and gradients of its own
parameters. Numbers are exact; the logs of single parameters (73-94) are left out.
-/

namespace Verif

namespace LossStep

variable {P S B : Type} [DecidableEq P]

/-- What all losses share: the values of the parameters and their `.grad`, which may be `None`. -/
structure World (P : Type) where
  value : P → ℝ
  grad : P → Option ℝ

/-- A loss, 20-55. `loss b` is the loss of batch `b` as function of the parameters; `deriv b w p` is the derivative after
parameter `p`, `none` if the loss does not depend on it. `step` is the update rule of the optimizer, `rate k` what the
schedule gives after `k` steps. -/
structure Cfg (P S B : Type) where
  name : String
  own : List P
  maxNorm : ℝ
  loss : B → (P → ℝ) → ℝ
  deriv : B → (P → ℝ) → P → Option ℝ
  step : S → ℝ → List (ℝ × Option ℝ) → S × List ℝ
  rate : Nat → ℝ

/-- What changes in a loss: the state of the optimizer, the number of steps of the schedule, the logged numbers. -/
structure State (S : Type) where
  opt : S
  steps : Nat
  logs : Dict String ℝ

/-- `optimizer.zero_grad()`, 58 -/
def zeroGrad (own : List P) (g : P → Option ℝ) : P → Option ℝ := fun p => if p ∈ own then none else g p

/-- `loss.backward()`, 60: gradients are added to what is there -/
def accumulate (d g : P → Option ℝ) : P → Option ℝ := fun p => match d p, g p with
  | none, old => old
  | some x, none => some x
  | some x, some y => some (y + x)

/-- The gradients that are there -/
def present (own : List P) (g : P → Option ℝ) : List ℝ := own.filterMap g

/-- The norm that `clip_grad_norm_` computes and returns; 0 if there are no gradients -/
noncomputable def norm (xs : List ℝ) : ℝ := √((xs.map fun x => x ^ 2).sum)

/-- The factor of `clip_grad_norm_` -/
noncomputable def factor (maxNorm n : ℝ) : ℝ := min 1 (maxNorm / (n + 1 / 10 ^ 6))

/-- `clip_grad_norm_(self.parameters, self._max_grad_norm)`, 61 -/
noncomputable def clip (own : List P) (maxNorm : ℝ) (g : P → Option ℝ) : P → Option ℝ := fun p =>
  if p ∈ own then (g p).map (· * factor maxNorm (norm (present own g))) else g p

/-- Writes the new values of the own parameters. -/
def assign : List P → List ℝ → (P → ℝ) → P → ℝ
  | p :: ps, x :: xs, v => assign ps xs (Function.update v p x)
  | _, _, v => v

/-- `backward`, 57-67 -/
noncomputable def backward (c : Cfg P S B) (b : B) (s : State S) (w : World P) : State S × World P :=
  let g := zeroGrad c.own w.grad
  let g := accumulate (c.deriv b w.value) g
  let n := norm (present c.own g)
  let l := c.loss b w.value
  let g := clip c.own c.maxNorm g
  let (opt, xs) := c.step s.opt (c.rate s.steps) (c.own.map fun p => (w.value p, g p))
  let steps := s.steps + 1
  let logs := s.logs.set ("loss/" ++ c.name ++ "_lr") (c.rate steps)
  let logs := logs.set ("loss/" ++ c.name ++ "_loss") l
  let logs := logs.set ("loss/" ++ c.name ++ "_gradient_norm") n
  (⟨opt, steps, logs⟩, ⟨assign c.own xs w.value, g⟩)

/-- Several losses and what they share. -/
structure System (P S : Type) where
  losses : Nat → State S
  world : World P

/-- Loss `x.1` makes a step with batch `x.2`. -/
noncomputable def System.step (cs : Nat → Cfg P S B) (x : Nat × B) (y : System P S) : System P S :=
  let r := backward (cs x.1) x.2 (y.losses x.1) y.world
  ⟨Function.update y.losses x.1 r.1, r.2⟩

/-- Any number of steps of any losses in any order. -/
noncomputable def System.run (cs : Nat → Cfg P S B) (xs : List (Nat × B)) (y : System P S) : System P S :=
  xs.foldl (fun y x => y.step cs x) y

end LossStep

end Verif
