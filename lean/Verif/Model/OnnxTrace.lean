import Verif.Model.Mlp

/-!
# What is in an exported file

`emote/extra/onnx_exporter.py` 85-132, 172-230, beside a training loop in the same thread. The order of exports and their metadata
from several threads are in `Model/Onnx.lean`.

Outside: the network, torch's generator and torch's tracer. The tracer runs the network once on the arguments and raises if that
raises; the graph that it returns is taken to compute what the traced network computes, for each number of rows (`dynamic_axes`).
In evaluation mode a network draws no random numbers.
-/

namespace Verif

namespace Traced

/-- The outside: networks `P`, tensors `T`, the state `G` of torch's generator, results `Y`. -/
structure Lib (P T G Y : Type) where
  /-- `policy.train(mode)` -/
  train : Bool → P → P
  /-- a call of the network -/
  forward : P → List T → Except Err Y
  /-- `torch.randn(*shape)` -/
  randn : List Nat → G → T × G

/-- `OnnxExporter`: `self.inputs` and `self.outputs` -/
structure Exporter where
  inputs : List (String × List Nat)
  outputs : List (String × List Nat)
  deriving DecidableEq, Repr

/-- `[(k, spaces.state.spaces[k].shape) for k in input_names]`, 106 -/
def inputShapes (spaces : Dict String (List Nat)) : List String → Except Err (List (String × List Nat))
  | [] => .ok []
  | k :: ks =>
    match Dict.get? spaces k with
    | none => .error .keyError
    | some shape =>
      match inputShapes spaces ks with
      | .error e => .error e
      | .ok rest => .ok ((k, shape) :: rest)

/-- `OnnxExporter.__init__`, 105-117 and 129-130; `names` are the `input_names` of the agent proxy. -/
def Exporter.new (names : List String) (spaces : Dict String (List Nat)) (actions : List Nat) (requiresEpsilon : Bool) :
    Except Err Exporter :=
  match inputShapes spaces names with
  | .error e => .error e
  | .ok shapes => .ok ⟨if requiresEpsilon then shapes ++ [("epsilon", actions)] else shapes, [("actions", actions)]⟩

/-- A graph: names of its inputs and outputs, and the network as it was traced. -/
structure Graph (P : Type) where
  inputs : List String
  outputs : List String
  net : P

/-- Look up the inputs by their names. -/
def feedAll {T : Type} (feed : Dict String T) : List String → Except Err (List T)
  | [] => .ok []
  | k :: ks =>
    match Dict.get? feed k with
    | none => .error .valueError
    | some x =>
      match feedAll feed ks with
      | .error e => .error e
      | .ok xs => .ok (x :: xs)

variable {P T G Y : Type}

/-- Run a graph on named inputs (in an ONNX runtime). -/
def Graph.run (lib : Lib P T G Y) (g : Graph P) (feed : Dict String T) : Except Err Y :=
  match feedAll feed g.inputs with
  | .error e => .error e
  | .ok args => lib.forward g.net args

/-- The arguments for tracing, 179-186 -/
def randomArgs (lib : Lib P T G Y) : List (String × List Nat) → G → List T × G
  | [], g => ([], g)
  | (_, shape) :: rest, g =>
    let (x, g) := lib.randn (1 :: shape) g
    let (xs, g) := randomArgs lib rest g
    (x :: xs, g)

/-- A saved file, 217-226 -/
structure File (P : Type) where
  version : Nat
  props : Dict String String
  graph : Graph P

/-- The live network, torch's generator, `self.export_counter`, and the files. -/
structure State (P G : Type) where
  policy : P
  gen : G
  counter : Nat
  files : List (File P)

/-- `_trace`, 172-209 -/
def trace (lib : Lib P T G Y) (ex : Exporter) (s : State P G) : Res (State P G) (Graph P) :=
  -- 173-176: `deepcopy`, and `train(False)` on the copy
  let policy := lib.train false s.policy
  let (args, gen) := randomArgs lib ex.inputs s.gen
  let s := { s with gen := gen }
  match lib.forward policy args with
  | .error e => (s, .error e)
  | .ok _ => (s, .ok ⟨ex.inputs.map Prod.fst, ex.outputs.map Prod.fst, policy⟩)

/-- `_export_onnx`, 211-230; `written` is how writing the file ends. -/
def exportOne (lib : Lib P T G Y) (ex : Exporter) (props : Dict String String) (written : Except Err Unit) (s : State P G) :
    Res (State P G) Unit :=
  match trace lib ex s with
  | (s, .error e) => (s, .error e)
  | (s, .ok graph) =>
    let version := s.counter
    let s := { s with counter := s.counter + 1 }
    match written with
    | .error e => (s, .error e)
    | .ok _ => ({ s with files := s.files ++ [⟨version, props, graph⟩] }, .ok ())

/-- What happens in the thread of the training loop: some training, with torch's generator; or an export. -/
inductive Op (P G : Type) where
  | learn (f : P × G → P × G)
  | «export» (props : Dict String String) (written : Except Err Unit)

/-- One of these; what an export raises is caught by somebody. -/
def step (lib : Lib P T G Y) (ex : Exporter) (s : State P G) : Op P G → State P G
  | .learn f => { s with policy := (f (s.policy, s.gen)).1, gen := (f (s.policy, s.gen)).2 }
  | .export props written => (exportOne lib ex props written s).1

def run (lib : Lib P T G Y) (ex : Exporter) (s : State P G) (ops : List (Op P G)) : State P G := ops.foldl (step lib ex) s

/-! ### The built-in Gaussian policy -/

noncomputable section

/-- A call of `GaussianMlpPolicy.forward(obs, epsilon=None)`, `gaussian_policy.py` 89-90. `randn` gives some numbers. -/
def gaussLib (noise : Nat → Nat → ℝ) (randn : List Nat → G → Mlp.Batch × G) : Lib Mlp.GaussNet Mlp.Batch G Mlp.Out where
  train b p := { p with training := b }
  forward p
    | [obs] => p.forward noise obs none
    | [obs, epsilon] => p.forward noise obs (some epsilon)
    | _ => .error .typeError
  randn := randn

end

end Traced

end Verif
