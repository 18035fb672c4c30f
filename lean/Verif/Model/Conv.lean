import Verif.Base.Dict

/-!
# Sizes of the convolutional encoders

`emote/nn/layers.py`: `Conv2dEncoder` (11-92) and `Conv1dEncoder` (95-178). Only the shapes are modelled: the values are torch's.
An image is given by its channels and the sizes of its other dimensions (two for images, one for sequences), so that both
classes share the model. Kernel sizes, strides, paddings and channels are natural numbers; torch's convolution refuses kernel or
stride 0.
-/

namespace Verif

namespace Conv

/-- The constructor's arguments; `shape` is the input shape as given. -/
structure Encoder where
  shape : List Nat
  channels : List Nat
  kernels : List Nat
  strides : List Nat
  padding : List Nat
  channelsLast : Bool
  flatten : Bool

/-- `layers.py` 41-44 and 128-131: the input shape with the channels first. -/
def Encoder.cwh (e : Encoder) : List Nat :=
  if e.channelsLast then
    match e.shape.getLast? with
    | some c => c :: e.shape.dropLast
    | none => []
  else e.shape

/-- One convolution layer: input channels, output channels, kernel, stride, padding. -/
structure Layer where
  cin : Nat
  cout : Nat
  k : Nat
  s : Nat
  p : Nat
  deriving DecidableEq

/-- The loop of `layers.py` 55-66 and 143-153: `kernels[i]`, `strides[i]` and `padding[i]` raise when the lists are shorter than
`channels`. -/
def buildLayers : Nat → List Nat → List Nat → List Nat → List Nat → Except Err (List Layer)
  | _, [], _, _, _ => .ok []
  | cin, c :: cs, k :: ks, s :: ss, p :: ps =>
    match buildLayers c cs ks ss ps with
    | .ok ls => .ok (⟨cin, c, k, s, p⟩ :: ls)
    | .error e => .error e
  | _, _ :: _, _, _, _ => .error .indexError

/-- The constructor. -/
def Encoder.layers (e : Encoder) : Except Err (List Layer) :=
  match e.cwh with
  | c :: _ => buildLayers c e.channels e.kernels e.strides e.padding
  | [] => .error .indexError

/-- The number of windows of a convolution along one dimension: window `i` begins at position `i * s` of the padded input and must
end within it. -/
def windows (l : Layer) (n : Nat) : Nat :=
  ((List.range (n + 2 * l.p + 1)).filter fun i => decide (i * l.s + l.k ≤ n + 2 * l.p)).length

/-- What torch's convolution does with the shape (one example, without the batch dimension): it refuses other channels and inputs
smaller than the kernel. -/
def Layer.apply (l : Layer) : List Nat → Except Err (List Nat)
  | c :: dims =>
    if c = l.cin then
      if dims.all (fun n => decide (l.k ≤ n + 2 * l.p)) then .ok (l.cout :: dims.map (windows l))
      else .error .runtimeError
    else .error .runtimeError
  | [] => .error .runtimeError

/-- The loop of `forward`, `layers.py` 73-79 and 160-166 -/
def applyAll : List Layer → List Nat → Except Err (List Nat)
  | [], x => .ok x
  | l :: ls, x =>
    match l.apply x with
    | .ok y => applyAll ls y
    | .error e => .error e

/-- `forward` on a batch of examples of the shape the encoder was made for: the shape of one result. The permutation of 75/162
turns the given shape into the one with the channels first. -/
def Encoder.forward (e : Encoder) : Except Err (List Nat) :=
  match e.layers with
  | .error err => .error err
  | .ok ls =>
    match applyAll ls e.cwh with
    | .error err => .error err
    | .ok y => .ok (if e.flatten then [y.prod] else y)

/-- The loop of `get_encoder_output_size`, `layers.py` 84-86 and 171-172: along one dimension, Python's integers and floor
division. -/
def sizeLoop : List (Nat × Nat × Nat) → Int → Except Err Int
  | [], n => .ok n
  | (k, s, p) :: l, n => if s = 0 then .error .zeroDivision else sizeLoop l (Int.fdiv (n - k + 2 * p) s + 1)

/-- The `zip` of the loop. -/
def Encoder.zipped (e : Encoder) : List (Nat × Nat × Nat) := e.kernels.zip (e.strides.zip e.padding)

/-- The sizes of all dimensions, or the first error. -/
def sizes (l : List (Nat × Nat × Nat)) : List Nat → Except Err (List Int)
  | [] => .ok []
  | n :: ns =>
    match sizeLoop l n, sizes l ns with
    | .ok m, .ok ms => .ok (m :: ms)
    | .error e, _ => .error e
    | _, .error e => .error e

/-- `get_encoder_output_size`, `layers.py` 81-93 and 168-179. -/
def Encoder.outputSize (e : Encoder) : Except Err (List Int) :=
  match sizes e.zipped e.cwh.tail with
  | .error err => .error err
  | .ok dims =>
    match e.channels.getLast? with
    | none => .error .indexError
    | some c => .ok (if e.flatten then [((c : Int) :: dims).prod] else (c : Int) :: dims)

end Conv

end Verif
