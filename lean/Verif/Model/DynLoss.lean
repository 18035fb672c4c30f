import Verif.Model.Dynamics

/-!
# The loss of a dynamics model

`DynamicModel.loss` of `emote/models/model.py` with a wrapped `DeterministicModel`. The wrapped network is a function of a row: that is
what a `DeterministicModel` in evaluation mode is, see `C121_partial`; in training mode its batch normalisation mixes the rows of a batch.
-/

namespace Verif

namespace Dyn

/-- The sum of the entries of a tensor. -/
noncomputable def Num.sum (xs : List Num) : Num := xs.foldr Num.add (some 0)

/-- The columns of a target, in their order. -/
def Target.columns (d : Nat) (learned : Bool) : List (Target d learned) :=
  (List.finRange d).map Sum.inl ++ (List.finRange learned.toNat).map Sum.inr

/-- The squared differences that `F.mse_loss` averages, `model.py` 232 -/
noncomputable def squares (predictions targets : List (Row (Target d learned) Num)) : List Num :=
  (List.zipWith (fun p y => (Target.columns d learned).map fun j => Num.mul (Num.sub (p j) (y j)) (Num.sub (p j) (y j)))
    predictions targets).flatten

/-- `F.mse_loss(prediction, target)`, `model.py` 232: nan if there is no entry, or one that is nan -/
noncomputable def mse (predictions targets : List (Row (Target d learned) Num)) : Num :=
  Num.div (Num.sum (squares predictions targets)) (some (squares predictions targets).length)

/-- `DynamicModel.loss`, `model.py` 58-79, with `DeterministicModel.loss`, 226-233: the model with its normalisers updated, and the loss -/
noncomputable def Model.loss (m : Model d α ο learned) (net : Row (ο ⊕ α) Num → Row (Target d learned) Num)
    (batch : List (Transition d α)) : Except Err (Model d α ο learned × Num) :=
  match m.processBatch batch with
  | .error e => .error e
  | .ok (m', xs, ys) => .ok (m', mse (xs.map net) ys)

end Dyn

end Verif
