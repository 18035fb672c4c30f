import Verif.Model.AgentProxy
import Verif.Model.Policy

/-!
# The built-in networks: the Gaussian policy and the action values

`emote/nn/gaussian_policy.py` 36-90, `emote/nn/action_value_mlp.py` 11-54, `emote/nn/initialization.py` 7-20. Numbers are real
numbers. A tensor with two dimensions is the list of its rows together with their width. Broadcasting of a dimension of size 1
is left out: sizes must be equal. The numbers that torch draws for a batch are an argument, one for each row and column.
-/

namespace Verif

namespace Mlp

noncomputable section

/-- A tensor of shape `(rows.length, width)`. -/
structure Batch where
  width : Nat
  rows : List (List ℝ)

/-- The rows have the width. -/
def Batch.WF (x : Batch) : Prop := ∀ r ∈ x.rows, r.length = x.width

/-- `nn.Linear(ins, outs)`: `weight o i` for `o < outs`, `i < ins`. -/
structure Linear where
  ins : Nat
  outs : Nat
  weight : Nat → Nat → ℝ
  bias : Nat → ℝ

/-- Output `o` for one row. -/
def Linear.out (l : Linear) (row : List ℝ) (o : Nat) : ℝ := (row.mapIdx fun i v => l.weight o i * v).sum + l.bias o

/-- `nn.Linear.forward`: raises unless the width is the number of inputs. -/
def Linear.forward (l : Linear) (x : Batch) : Except Err Batch :=
  if x.width ≠ l.ins then .error .runtimeError
  else .ok ⟨l.outs, x.rows.map fun r => List.ofFn fun o : Fin l.outs => l.out r o⟩

/-- A layer as initialised by `ortho_init_` or `xavier_uniform_init_`, `initialization.py` 7-10 and 17-20: the weights are drawn,
the biases are zero. -/
def Linear.init (ins outs : Nat) (draws : Nat → Nat → ℝ) : Linear := ⟨ins, outs, draws, fun _ => 0⟩

/-- `nn.ReLU` -/
def relu (x : Batch) : Batch := ⟨x.width, x.rows.map fun r => r.map fun v => max v 0⟩

/-- `nn.Sequential` of `nn.Sequential(nn.Linear, nn.ReLU)` -/
def encode : List Linear → Batch → Except Err Batch
  | [], x => .ok x
  | l :: ls, x =>
    match l.forward x with
    | .error e => .error e
    | .ok y => encode ls (relu y)

/-- `for n_in, n_out in zip([first] + hidden, hidden)`, `gaussian_policy.py` 79-82 and `action_value_mlp.py` 16-19; `draws k` is
for layer `k`. -/
def layers (first : Nat) (hidden : List Nat) (draws : Nat → Nat → Nat → ℝ) : List Linear :=
  (List.zip (first :: hidden) hidden).mapIdx fun k io => Linear.init io.1 io.2 (draws k)

/-! ### The policy -/

/-- `GaussianMlpPolicy` with its `GaussianPolicyHead`, `gaussian_policy.py` 36-46 and 75-87 -/
structure GaussNet where
  training : Bool
  encoder : List Linear
  actionDim : Nat
  mean : Linear
  logStd : Linear

/-- `GaussianMlpPolicy.__init__`, `gaussian_policy.py` 76-87. `hidden_dims[-1]` of an empty list raises. -/
def GaussNet.new (obsDim actionDim : Nat) (hidden : List Nat) (draws : Nat → Nat → Nat → ℝ) (headDraws : Bool → Nat → Nat → ℝ) :
    Except Err GaussNet :=
  match hidden.getLast? with
  | none => .error .indexError
  | some h => .ok ⟨true, layers obsDim hidden draws, actionDim, Linear.init h actionDim (headDraws false),
      Linear.init h actionDim (headDraws true)⟩

/-- What `forward` returns: actions with log-probabilities, or actions. -/
inductive Out where
  | pair (sample logp : Batch)
  | single (actions : Batch)

/-- `GaussianPolicyHead.forward`, `gaussian_policy.py` 48-72, from the values before clamping. `noise` are the numbers that `rsample`
draws. -/
def head (p : GaussNet) (noise : Nat → Nat → ℝ) (epsilon : Option Batch) (x : Batch) : Except Err Out :=
  match p.mean.forward x, p.logStd.forward x with
  | .error e, _ => .error e
  | _, .error e => .error e
  | .ok m, .ok s =>
    if p.training then
      let res := x.rows.mapIdx fun i r => Policy.trainForward (n := p.mean.outs) (fun o => p.mean.out r o)
        (fun o => p.logStd.out r o) (fun o => noise i o)
      let sample : Batch := ⟨m.width, res.map fun a => List.ofFn a.1⟩
      let logp : Batch := ⟨1, res.map fun a => [a.2]⟩
      if s.width ≠ m.width then .error .runtimeError
      else if sample.width ≠ p.actionDim then .error .assertionError
      else .ok (.pair sample logp)
    else
      match epsilon with
      | none => .error .typeError
      | some e =>
        if s.width ≠ m.width ∨ e.width ≠ m.width ∨ e.rows.length ≠ x.rows.length then .error .runtimeError
        else .ok (.single ⟨m.width, List.zipWith (fun r er => (er.mapIdx fun o v =>
          Real.tanh (Policy.mean (p.mean.out r o) + Policy.std (p.logStd.out r o) * v))) x.rows e.rows⟩)

/-- `GaussianMlpPolicy.forward`, `gaussian_policy.py` 89-90 -/
def GaussNet.forward (p : GaussNet) (noise : Nat → Nat → ℝ) (obs : Batch) (epsilon : Option Batch) : Except Err Out :=
  match encode p.encoder obs with
  | .error e => .error e
  | .ok x => head p noise epsilon x

/-! ### Action values -/

/-- `ActionValueMlp`, `action_value_mlp.py` 11-25 -/
structure QNet where
  obsDim : Nat
  actionDim : Nat
  encoder : List Linear
  final : Linear

/-- `ActionValueMlp.__init__`, `action_value_mlp.py` 12-25 -/
def QNet.new (obsDim actionDim : Nat) (hidden : List Nat) (draws : Nat → Nat → Nat → ℝ) (finalDraws : Nat → Nat → ℝ) :
    Except Err QNet :=
  match hidden.getLast? with
  | none => .error .indexError
  | some h => .ok ⟨obsDim, actionDim, layers (obsDim + actionDim) hidden draws, Linear.init h 1 finalDraws⟩

/-- `ActionValueMlp.forward`, `action_value_mlp.py` 27-36 -/
def QNet.forward (q : QNet) (action obs : Batch) : Except Err Batch :=
  if obs.rows.length ≠ action.rows.length then .error .assertionError
  else if obs.width ≠ q.obsDim then .error .assertionError
  else if action.width ≠ q.actionDim then .error .assertionError
  else
    match encode q.encoder ⟨obs.width + action.width, List.zipWith (· ++ ·) obs.rows action.rows⟩ with
    | .error e => .error e
    | .ok x =>
      match q.final.forward x with
      | .error e => .error e
      | .ok out => if out.width ≠ 1 then .error .assertionError else .ok out

/-- `SharedEncoderActionValueNet.forward`, `action_value_mlp.py` 51-54; `enc` is the shared encoder. -/
def sharedForward (enc : Batch → Except Err Batch) (q : QNet) (action obs : Batch) : Except Err Batch :=
  match enc obs with
  | .error e => .error e
  | .ok x => q.forward action x

/-! ### The policy behind `FeatureAgentProxy` -/

/-- `torch.tensor(np.array(rows))`, `proxies.py` 106-116, for one flat array per agent: without agents the array has one dimension
only, rows of different widths make no array. -/
def stack : List (List ℝ) → Except Err Batch
  | [] => .error .runtimeError
  | r :: rs => if rs.all (fun x => x.length == r.length) then .ok ⟨r.length, r :: rs⟩ else .error .valueError

/-- `FeatureAgentProxy`, `sac.py` 382-403, with a Gaussian policy in training mode: the policy is called with the stacked
observations and returns actions and log-probabilities. With no agents `nn.Linear` raises. -/
def agentOf (p : GaussNet) (noise : Nat → Nat → ℝ) (inputKey : String) : Agent.Agent (List ℝ) (List ℝ) where
  inputKeys := [inputKey]
  outputKeys := ["actions"]
  policy := .logprobs fun ins =>
    match ins with
    | [some rows] =>
      match stack rows with
      | .error e => .error e
      | .ok x =>
        match p.forward noise x none with
        | .error e => .error e
        | .ok (.pair sample logp) => .ok [sample.rows, logp.rows]
        | .ok (.single _) => .error .typeError
    | _ => .error .typeError

end

end Mlp

end Verif
