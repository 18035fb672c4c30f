import Verif.Model.Curl
import Verif.Model.LossStep
import Verif.Model.Checkpoint

/-!
# A batch of CURL

`emote/nn/curl.py` 42-53, 69-100, 174-202, 224-257 with `emote/callbacks/loss.py` 90-111. Tensors live in a store, so that
writing in place can be seen by whoever holds the same tensor. Numbers are real; what the encoders compute is an
argument, as are random numbers, derivatives and the optimizer.
-/

namespace Verif

namespace CurlRun

open Curl LossStep

/-- One image; `γ` are the channels. -/
abbrev Image (γ : Type) := Nat → Nat → γ → ℝ

/-- The tensors of images that exist, by the order of their creation. `data t i` is image `i` of tensor `t`. -/
structure Store (γ : Type) where
  data : Nat → Nat → Image γ
  next : Nat

/-- A new tensor; `clone()`, 238-240, and the sum 73 make one. -/
def Store.alloc {γ : Type} (s : Store γ) (x : Nat → Image γ) : Store γ × Nat :=
  (⟨Function.update s.data s.next x, s.next + 1⟩, s.next)

/-- Writes image `i` of tensor `t` in place. -/
def Store.write {γ : Type} (s : Store γ) (t i : Nat) (x : Image γ) : Store γ :=
  ⟨Function.update s.data t (Function.update (s.data t) i x), s.next⟩

/-- `ImageAugmentor.__init__`, 26-40, and the sizes of the batch and the images -/
structure Augmentor where
  noise : Bool
  mode : Mode
  min : ℝ
  max : ℝ
  batch : Nat
  imX : Nat
  imY : Nat

/-- The random numbers of one call: for the choice to add noise, 70; the noise, 73; for sizes and positions, 61-64 -/
structure Draws (γ : Type) where
  prob : ℝ
  noise : Nat → Image γ
  rnd : Nat → ℝ
  a : Nat → Nat
  b : Nat → Nat

section

variable {γ : Type}

/-- `_maybe_add_noise`, 69-76, with the probability of line 45 -/
noncomputable def maybeAddNoise (d : Draws γ) (t : Nat) (s : Store γ) : Store γ × Nat :=
  if relativeSize 0 1 d.prob < 1 / 4 then s.alloc fun i x y c => s.data t i x y c + d.noise i x y c else (s, t)

/-- The loop of `_cutout_per_image_mask_size`, 82-84, from image `i` on, with `k` images left -/
noncomputable def cutImages (g : Augmentor) (d : Draws γ) (t : Nat) : Nat → Nat → Store γ → Res (Store γ) Unit
  | _, 0, s => (s, .ok ())
  | i, k + 1, s => match maskIndices g.min g.max g.imX g.imY (d.rnd i) (d.a i) (d.b i) with
    | .error e => (s, .error e)
    | .ok r => cutImages g d t (i + 1) k (s.write t i (cut r (s.data t i)))

/-- The loop 92-93: the beginnings have been drawn, 90; the size is the same for all images -/
noncomputable def cutAt (g : Augmentor) (d : Draws γ) (t : Nat) : Nat → Nat → Store γ → Res (Store γ) Unit
  | _, 0, s => (s, .ok ())
  | i, k + 1, s => match maskIndices g.min g.max g.imX g.imY (d.rnd 0) (d.a i) (d.b i) with
    | .error e => (s, .error e)
    | .ok r => cutAt g d t (i + 1) k (s.write t i (cut r (s.data t i)))

/-- `images[:, start_i:end_i, start_j:end_j, :] = 0`, 99 -/
def cutAll (r : (Nat × Nat) × (Nat × Nat)) (t : Nat) : Nat → Nat → Store γ → Store γ
  | _, 0, s => s
  | i, k + 1, s => cutAll r t (i + 1) k (s.write t i (cut r (s.data t i)))

/-- The three ways to cut out, 78-100. `randint` raises before anything is written if there is no beginning to draw, 90
and 98. -/
noncomputable def cutoutInPlace (g : Augmentor) (d : Draws γ) (t : Nat) (s : Store γ) : Res (Store γ) Unit :=
  match g.mode with
  | .fast => match maskIndices g.min g.max g.imX g.imY (d.rnd 0) (d.a 0) (d.b 0) with
    | .error e => (s, .error e)
    | .ok r => (cutAll r t 0 g.batch s, .ok ())
  | .perBatch => match maskIndices g.min g.max g.imX g.imY (d.rnd 0) (d.a 0) (d.b 0) with
    | .error e => (s, .error e)
    | .ok _ => cutAt g d t 0 g.batch s
  | .perImage => cutImages g d t 0 g.batch s

/-- `__call__`, 42-53: the tensor that is returned -/
noncomputable def augment (g : Augmentor) (d : Draws γ) (t : Nat) (s : Store γ) : Res (Store γ) Nat :=
  let (s, t) := if g.noise then maybeAddNoise d t s else (s, t)
  match cutoutInPlace g d t s with
  | (s, .error e) => (s, .error e)
  | (s, .ok ()) => (s, .ok t)

end

/-! ## The sizes -/

/-- `self._zdim`, 178 and 193: how many numbers the encoders return for an image -/
def zdim (useProjection : Bool) (encoderSize desired : Nat) : Nat := if useProjection then desired else encoderSize

/-- The size of `self._W`, 198-202 -/
def wdim (desired : Nat) : Nat := desired

/-! ## The loss -/

/-- What `CurlLoss` is built of. `encode w x` and `target w x` are what the encoders, with their projection, compute with
weights `w` for image `x`; `bilinear w` is `_W`. `own` are the parameters of line 234. -/
structure Cfg (γ P S : Type) where
  augmentor : Augmentor
  augmentBoth : Bool
  logImages : Bool
  useProjection : Bool
  encoderSize : Nat
  desired : Nat
  temperature : Option ℝ
  encode : (P → ℝ) → Image γ → Nat → ℝ
  target : (P → ℝ) → Image γ → Nat → ℝ
  bilinear : (P → ℝ) → Nat → Nat → ℝ
  own : List P
  maxNorm : ℝ
  deriv : (Nat → Image γ) × (Nat → Image γ) → (P → ℝ) → P → Option ℝ
  step : S → ℝ → List (ℝ × Option ℝ) → S × List ℝ
  rate : Nat → ℝ

/-- What changes: tensors, parameters, optimizer with schedule and logged numbers, logged images. -/
structure State (γ P S : Type) where
  store : Store γ
  world : World P
  loss : LossStep.State S
  images : Dict String (Image γ)

variable {γ P S : Type} [DecidableEq P]

/-- `_loss`, 260-287: `self._W @ z_pos.T`, 269, and `z_a @ Wz`, 272, raise if the sizes do not fit. The mean over no images
is nan; here it is `none`. -/
noncomputable def lossOf (c : Cfg γ P S) (x y : Nat → Image γ) (w : P → ℝ) : Except Err (Option ℝ) :=
  if zdim c.useProjection c.encoderSize c.desired = wdim c.desired then
    if h : 0 < c.augmentor.batch then
      haveI : Nonempty (Fin c.augmentor.batch) := ⟨⟨0, h⟩⟩
      .ok (some (Curl.loss (B := Fin c.augmentor.batch) (Z := Fin (wdim c.desired)) (fun i k => c.encode w (x i) k)
        (fun i k => c.target w (y i) k) (fun k l => c.bilinear w k l) c.temperature))
    else .ok none
  else .error .runtimeError

/-- `images.clone()`, augmented, 238; `loss.backward`, `step` and so on come later. -/
noncomputable def cloneAugment (c : Cfg γ P S) (d : Draws γ) (t : Nat) (s : Store γ) : Res (Store γ) Nat :=
  let (s, t) := s.alloc (s.data t)
  augment c.augmentor d t s

/-- `image_aug2`, 239-241 -/
noncomputable def second (c : Cfg γ P S) (d : Draws γ) (t : Nat) (s : Store γ) : Res (Store γ) Nat :=
  if c.augmentBoth then cloneAugment c d t s else
    let (s, t) := s.alloc (s.data t)
    (s, .ok t)

/-- 246-252: clip, step, schedule, logged numbers; `g` are the gradients after `loss.backward()` -/
noncomputable def optimise (c : Cfg γ P S) (g : P → Option ℝ) (l : ℝ) (s : LossStep.State S) (w : World P) :
    LossStep.State S × World P :=
  let n := norm (present c.own g)
  let g := clip c.own c.maxNorm g
  let (opt, xs) := c.step s.opt (c.rate s.steps) (c.own.map fun p => (w.value p, g p))
  let steps := s.steps + 1
  let logs := s.logs.set ("loss/" ++ "curl" ++ "_lr") (c.rate steps)
  let logs := logs.set ("loss/" ++ "curl" ++ "_loss") l
  let logs := logs.set ("loss/" ++ "curl" ++ "_gradient_norm") n
  (⟨opt, steps, logs⟩, ⟨assign c.own xs w.value, g⟩)

/-- 254-257; `images[0]` raises if there is no image, but then there is no loss either. -/
def logImages (c : Cfg γ P S) (t t1 t2 : Nat) (s : State γ P S) : State γ P S :=
  if c.logImages then
    let l := s.images.set "augmentations/base_allch" (s.store.data t 0)
    let l := l.set "augmentations/image1_allch" (s.store.data t1 0)
    let l := l.set "augmentations/image2_allch" (s.store.data t2 0)
    { s with images := l }
  else s

/-- `backward`, 236-257; `t` is the tensor `observation["images"]`. A batch without images is not modelled further than to
the loss. -/
noncomputable def backward (c : Cfg γ P S) (d1 d2 : Draws γ) (t : Nat) (s : State γ P S) : Res (State γ P S) Unit :=
  match cloneAugment c d1 t s.store with
  | (st, .error e) => ({ s with store := st }, .error e)
  | (st, .ok t1) => match second c d2 t st with
    | (st, .error e) => ({ s with store := st }, .error e)
    | (st, .ok t2) =>
      let g := zeroGrad c.own s.world.grad
      match lossOf c (st.data t1) (st.data t2) s.world.value with
      | .error e => ({ s with store := st, world := ⟨s.world.value, g⟩ }, .error e)
      | .ok none => ({ s with store := st, world := ⟨s.world.value, g⟩ }, .error .diverges)
      | .ok (some l) =>
        let g := accumulate (c.deriv (st.data t1, st.data t2) s.world.value) g
        let (ls, w) := optimise c g l s.loss s.world
        (logImages c t t1 t2 { s with store := st, world := w, loss := ls }, .ok ())

/-! ## Checkpoints -/

/-- `CurlLoss` for checkpoints: `network=None`, 228; the encoders with their projection layers and `_W` are attributes of
their own, 195-202. `E` are the weights of an encoder that the caller passes, `J` those of a projection layer. -/
structure Cb (E J M O L : Type) where
  base : LossCb Unit O L
  encoder : E
  targetEncoder : E
  proj : Option J
  targetProj : Option J
  matrix : M

/-- `state_dict` is inherited, `loss.py` 90-96. -/
def Cb.stateDict {E J M O L : Type} (c : Cb E J M O L) : LossSaved Unit O := c.base.stateDict

/-- `load_state_dict` is inherited, `loss.py` 98-111. -/
def Cb.loadStateDict {E J M O L : Type} (s : LossSaved Unit O) (flags : LoadFlags) (c : Cb E J M O L) :
    Res (Cb E J M O L) Unit := Res.lift (fun b => { c with base := b }) (c.base.loadStateDict s flags)

end CurlRun

end Verif
