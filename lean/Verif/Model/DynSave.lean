import Verif.Model.Dynamics

/-!
# Saving a dynamics model

`save` and `load` of `DynamicModel` (`emote/models/model.py` 175-189) and `EnsembleOfGaussian` (`emote/models/ensemble.py`
180-188), and `state_dict` and `load_state_dict` of the loss that trains it (`emote/callbacks/loss.py` 93-112, which is
what a checkpoint holds). The parameters of the wrapped model are a value of a type `Θ`, those of `obs_process_fn` a
value of a type `Φ`. The normalisers are no modules and have no buffers, so they are in neither.
-/

namespace Verif

namespace DynSave

open Dyn

variable {d : Nat} {α ο : Type} {learned : Bool} {Θ Φ : Type}

/-- What the networks compute with given parameters. -/
structure Nets (d : Nat) (α ο : Type) (learned : Bool) (Θ Φ : Type) where
  net : Θ → Row (ο ⊕ α) Num → Row (Target d learned) Num
  process : Φ → Row (Fin d) ℝ → Row ο ℝ

/-- A `DynamicModel` with its parameters, `model.py` 33-49 -/
structure Wrapped (d : Nat) (α ο : Type) (learned : Bool) (Θ Φ : Type) where
  noDelta : List Int
  weights : Θ
  front : Φ
  input : Normalizer (ο ⊕ α)
  target : Normalizer (Target d learned)

/-- `DynamicModel.__init__`, 33-49, with networks that are initialised in any way -/
noncomputable def Wrapped.new (noDelta : List Int) (weights : Θ) (front : Φ) : Wrapped d α ο learned Θ Φ :=
  ⟨noDelta, weights, front, Normalizer.new, Normalizer.new⟩

/-- The model without its networks -/
def Wrapped.model (N : Nets d α ο learned Θ Φ) (w : Wrapped d α ο learned Θ Φ) : Model d α ο learned :=
  ⟨w.noDelta, N.process w.front, w.input, w.target⟩

/-- `sample`, 81-117 -/
noncomputable def Wrapped.sample (N : Nets d α ο learned Θ Φ) (w : Wrapped d α ο learned Θ Φ) (action : Row α ℝ)
    (obs : Row (Fin d) ℝ) : Except Err (Row (Fin d) Num × Row (Fin learned.toNat) Num) :=
  (w.model N).sample (N.net w.weights) action obs

/-- A step of `ModelLoss` (`callbacks.py` 55-62): `process_batch` updates the normalisers; what the optimizer makes of the
parameters is an argument. -/
noncomputable def Wrapped.train (N : Nets d α ο learned Θ Φ) (w : Wrapped d α ο learned Θ Φ)
    (x : List (Transition d α) × Θ × Φ) : Except Err (Wrapped d α ο learned Θ Φ) :=
  match (w.model N).processBatch x.1 with
  | .error e => .error e
  | .ok (m, _, _) => .ok ⟨w.noDelta, x.2.1, x.2.2, m.input, m.target⟩

/-- Some steps -/
noncomputable def Wrapped.trainAll (N : Nets d α ο learned Θ Φ) (w : Wrapped d α ο learned Θ Φ) :
    List (List (Transition d α) × Θ × Φ) → Except Err (Wrapped d α ο learned Θ Φ)
  | [] => .ok w
  | x :: xs => match w.train N x with
    | .error e => .error e
    | .ok w => w.trainAll N xs

/-- `save`, `model.py` 175-181: `self.model.save`, that is `ensemble.py` 180-183, writes the parameters of the wrapped model. -/
def Wrapped.save (w : Wrapped d α ο learned Θ Φ) : Θ := w.weights

/-- `load`, `model.py` 183-189, `ensemble.py` 185-188 -/
def Wrapped.load (w : Wrapped d α ο learned Θ Φ) (file : Θ) : Wrapped d α ο learned Θ Φ := { w with weights := file }

/-- `network_state_dict` of the loss, `loss.py` 95: the parameters of all submodules -/
def Wrapped.stateDict (w : Wrapped d α ο learned Θ Φ) : Θ × Φ := (w.weights, w.front)

/-- `load_state_dict`, `loss.py` 98-112, as far as the network goes -/
def Wrapped.loadStateDict (w : Wrapped d α ο learned Θ Φ) (s : Θ × Φ) : Wrapped d α ο learned Θ Φ :=
  { w with weights := s.1, front := s.2 }

end DynSave

end Verif
