import Mathlib.Analysis.SpecialFunctions.Log.Basic
import Mathlib.Algebra.BigOperators.Group.Finset.Basic
import Mathlib.Algebra.Order.Floor.Ring
import Verif.Base.Res

/-!
# CURL

`emote/nn/curl.py`. Numbers are real. The networks are not modelled: what they compute, and how an optimiser changes
their weights, are arguments. So are random numbers.
-/

namespace Verif

namespace Curl

/-! ## The loss -/

section

variable {B Z : Type} [Fintype B] [Fintype Z] [DecidableEq B]

/-- `z_a @ (self._W @ z_pos.T)`, 269-272 -/
def logits (za zpos : B → Z → ℝ) (W : Z → Z → ℝ) (i j : B) : ℝ := ∑ k, za i k * ∑ l, W k l * zpos j l

/-- `F.log_softmax(logits, dim=-1)`, 286 -/
noncomputable def logSoftmax (x : B → B → ℝ) (i j : B) : ℝ := x i j - Real.log (∑ k, Real.exp (x i k))

/-- 285-287: `labels` is the identity matrix -/
noncomputable def crossEntropy (x : B → B → ℝ) : ℝ :=
  (∑ i, ∑ j, -(if i = j then 1 else 0) * logSoftmax x i j) / Fintype.card B

/-- `torch.amax(logits, dim=1)`, 281: one number for each row -/
noncomputable def amax [Nonempty B] (x : B → B → ℝ) (i : B) : ℝ := Finset.univ.sup' Finset.univ_nonempty (x i)

/-- `_loss`, 260-287, from the encoded images; `temperature` is there if `use_temperature_variant` is set. A vector that is
subtracted from a matrix is broadcast along its last dimension: its entry `j` is subtracted from column `j`, 281. -/
noncomputable def loss [Nonempty B] (za zpos : B → Z → ℝ) (W : Z → Z → ℝ) (temperature : Option ℝ) : ℝ :=
  let x := logits za zpos W
  match temperature with
  | some t => crossEntropy fun i j => x i j / t
  | none => crossEntropy fun i j => x i j - amax x j

end

/-! ## The target encoder -/

/-- `soft_update_from_to`, 13-15, for generators: `zip` takes from the target first. What is left of them is returned.
`w` maps a parameter to its value (one number stands for a tensor). -/
def softUpdate (tau : ℝ) : List Nat → List Nat → (Nat → ℝ) → (List Nat × List Nat) × (Nat → ℝ)
  | source, [], w => ((source, []), w)
  | [], _ :: target, w => (([], target), w)
  | s :: source, t :: target, w =>
    softUpdate tau source target (Function.update w t (w t * (1 - tau) + w s * tau))

/-- The weights, and what is left of the generators `_proj_layer_source_vars` and `_proj_layer_target_vars`, 180-186 -/
structure Loss where
  weights : Nat → ℝ
  source : List Nat
  target : List Nat

/-- `__init__`, 174-193; `source` and `target` are the parameters of the projection layers -/
def Loss.new (useProjection : Bool) (source target : List Nat) (w : Nat → ℝ) : Loss :=
  if useProjection then
    let x := softUpdate 1 source target w
    ⟨x.2, x.1.1, x.1.2⟩
  else ⟨w, [], []⟩

/-- `end_batch`, 289-295 -/
def Loss.endBatch (useProjection : Bool) (tau : ℝ) (l : Loss) : Loss :=
  if useProjection then
    let x := softUpdate tau l.source l.target l.weights
    ⟨x.2, x.1.1, x.1.2⟩
  else l

/-! ## Cutting out -/

/-- `_get_mask_indices`, 55-67, for one of the two dimensions: the size of the mask, from the relative size. `int` rounds
towards zero; the sizes are not negative. -/
noncomputable def maskSize (im : Nat) (size : ℝ) : Nat := ⌊im * size⌋₊

/-- `size = rand_uniform(...)`, 18-21 and 61; `rnd` is in `[0, 1)` -/
def relativeSize (min max rnd : ℝ) : ℝ := (max - min) * rnd + min

/-- `torch.randint(low=0, high=high, ...)`: it raises if there is no number to choose; otherwise `draw` is taken as the
number, if it is one. -/
def randint (high : Int) (draw : Nat) : Except Err Nat :=
  if high ≤ 0 then .error .runtimeError else .ok (draw % high.toNat)

/-- `_get_mask_indices`, 55-67: begin and end in both dimensions -/
noncomputable def maskIndices (min max : ℝ) (imX imY : Nat) (rnd : ℝ) (drawI drawJ : Nat) :
    Except Err ((Nat × Nat) × (Nat × Nat)) :=
  let size := relativeSize min max rnd
  let mx := maskSize imX size
  let my := maskSize imY size
  match randint ((imX : Int) - mx) drawI with
  | .error e => .error e
  | .ok i => match randint ((imY : Int) - my) drawJ with
    | .error e => .error e
    | .ok j => .ok ((i, i + mx), (j, j + my))

/-- `images[b, start_i:end_i, start_j:end_j, :] = 0`, 84, 93 and 99, for one image -/
def cut {γ : Type} (r : (Nat × Nat) × (Nat × Nat)) (image : Nat → Nat → γ → ℝ) : Nat → Nat → γ → ℝ := fun x y c =>
  if r.1.1 ≤ x ∧ x < r.1.2 ∧ r.2.1 ≤ y ∧ y < r.2.2 then 0 else image x y c

/-- `use_fast_augment` and `use_per_image_mask_size`, 46-52: everything is drawn once, or the positions for each image, or
everything for each image -/
inductive Mode where
  | fast | perBatch | perImage

/-- What is drawn for image `i` in each mode, 78-100 -/
def drawsFor (mode : Mode) (rnd : Nat → ℝ) (a b : Nat → Nat) (i : Nat) : ℝ × Nat × Nat :=
  match mode with
  | .fast => (rnd 0, a 0, b 0)
  | .perBatch => (rnd 0, a i, b i)
  | .perImage => (rnd i, a i, b i)

/-- The loops 82-84 and 92-93, and 99, over the images -/
noncomputable def cutout {γ : Type} (min max : ℝ) (imX imY : Nat) (draws : Nat → ℝ × Nat × Nat) :
    Nat → List (Nat → Nat → γ → ℝ) → Except Err (List (Nat → Nat → γ → ℝ))
  | _, [] => .ok []
  | i, im :: ims => match maskIndices min max imX imY (draws i).1 (draws i).2.1 (draws i).2.2 with
    | .error e => .error e
    | .ok r => match cutout min max imX imY draws (i + 1) ims with
      | .error e => .error e
      | .ok rest => .ok (cut r im :: rest)

end Curl

end Verif
