import Verif.Model.Proxy

/-!
# From observations to actions: `GenericAgentProxy`

`emote/proxies.py` 58-139. `V` is a row of an input (an array of an observation), `R` a row of an output of the policy. A
batch is the list of its rows: arrays of different shapes under one key, the reshaping to the declared spaces (111-114),
devices and dtypes are not modelled.
-/

namespace Verif

namespace Agent

/-- The policy, called with one batch (or `None`) per input key. With log probabilities it returns a tuple of batches,
otherwise one batch. That the flag `uses_logprobs` fits the policy is built in. -/
inductive Policy (V R : Type) where
  | logprobs (f : List (Option (List V)) → Except Err (List (List R)))
  | plain (f : List (Option (List V)) → Except Err (List R))

/-- Constructor arguments, `proxies.py` 67-91. -/
structure Agent (V R : Type) where
  inputKeys : List String
  outputKeys : List String
  policy : Policy V R

variable {V R M : Type}

/-- `obs.episode_state not in self._end_states`, `proxies.py` 85 and 98-102. -/
def isActive (o : Obs V M) : Bool :=
  match o.state with
  | .terminal => false
  | .interrupted => false
  | _ => true

/-- `active_agents`, `proxies.py` 98-102. -/
def active (observations : Dict Int (Obs V M)) : List Int :=
  Dict.keys (observations.filter fun p => isActive p.2)

/-- `[observations[agent_id].array_data[input_key] for agent_id in active_agents]`, `proxies.py` 106-108. -/
def gather (observations : Dict Int (Obs V M)) (key : String) : List Int → Except Err (List V)
  | [] => .ok []
  | a :: as =>
    match Dict.get? observations a with
    | none => .error .keyError
    | some o =>
      match Dict.get? o.arrays key with
      | none => .error .keyError
      | some v =>
        match gather observations key as with
        | .error e => .error e
        | .ok vs => .ok (v :: vs)

/-- The loop over the input keys, `proxies.py` 105-118; `keys` is `self.input_keys`, the last argument
`tensor_obs_list`. -/
def inputs (observations : Dict Int (Obs V M)) (act : List Int) (keys : List String) :
    List String → List (Option (List V)) → Except Err (List (Option (List V)))
  | [], acc => .ok acc
  | k :: ks, acc =>
    match gather observations k act with
    | .error e => .error e
    | .ok col => inputs observations act keys ks (acc.set (keys.idxOf k) (some col))

/-- `outputs[i] … for i, key in enumerate(self.output_keys)`, `proxies.py` 124-126, from index `i` on. -/
def pick (outs : List (List R)) : Nat → List String → Except Err (List (String × List R))
  | _, [] => .ok []
  | i, k :: ks =>
    match outs[i]? with
    | none => .error .indexError
    | some o =>
      match pick outs (i + 1) ks with
      | .error e => .error e
      | .ok l => .ok ((k, o) :: l)

/-- The call of the policy, `proxies.py` 120-129. -/
def Agent.outputs (ag : Agent V R) (ins : List (Option (List V))) : Except Err (Dict String (List R)) :=
  match ag.policy with
  | .logprobs f =>
    match f ins with
    | .error e => .error e
    | .ok outs =>
      match pick (outs.take 1 ++ outs.drop 2) 0 ag.outputKeys with
      | .error e => .error e
      | .ok l => .ok (Dict.ofPairs l)
  | .plain f =>
    match f ins with
    | .error e => .error e
    | .ok out => .ok (Dict.ofPairs (ag.outputKeys.map fun k => (k, out)))

/-- `response.list_data[k] = data[i]` for all outputs, `proxies.py` 136-137. -/
def fill (i : Nat) : Dict String (List R) → Dict String R → Except Err (Dict String R)
  | [], d => .ok d
  | (k, data) :: outs, d =>
    match data[i]? with
    | none => .error .indexError
    | some r => fill i outs (d.set k r)

/-- The loop over the agents, `proxies.py` 131-137. -/
def respond (outs : Dict String (List R)) : Nat → List Int → Except Err (List (Int × Response R))
  | _, [] => .ok []
  | i, a :: as =>
    match fill i outs [] with
    | .error e => .error e
    | .ok d =>
      match respond outs (i + 1) as with
      | .error e => .error e
      | .ok l => .ok ((a, ⟨d, []⟩) :: l)

/-- `GenericAgentProxy.__call__`, `proxies.py` 93-139. -/
def Agent.call (ag : Agent V R) (observations : Dict Int (Obs V M)) : Except Err (Dict Int (Response R)) :=
  if observations.length = 0 then .error .assertionError else
  match inputs observations (active observations) ag.inputKeys ag.inputKeys (List.replicate ag.inputKeys.length none) with
  | .error e => .error e
  | .ok ins =>
    match ag.outputs ins with
    | .error e => .error e
    | .ok outs =>
      match respond outs 0 (active observations) with
      | .error e => .error e
      | .ok l => .ok (Dict.ofPairs l)

/-- `AgentProxyWrapper.__call__`, `algorithms/sac.py` 366-367: the proxy inside is called, its answer is not returned. `none` is
Python's `None`; `inner` is the call of the proxy inside, which may be wrapped itself. -/
def wrapperCall {α β : Type} (inner : α → Except Err (Option β)) (observations : α) : Except Err (Option β) :=
  match inner observations with
  | .error e => .error e
  | .ok _ => .ok none

/-- What code that has an agent proxy sees of it: `AgentProxy`, `proxies.py` 18-41. -/
structure Face (α β : Type) where
  call : α → Except Err (Option β)
  inputNames : List String
  outputNames : List String

/-- `GenericAgentProxy` as an agent proxy, `proxies.py` 93-147 -/
def Agent.face (ag : Agent V R) : Face (Dict Int (Obs V M)) (Dict Int (Response R)) where
  call o := match ag.call o with
    | .error e => .error e
    | .ok r => .ok (some r)
  inputNames := ag.inputKeys
  outputNames := ag.outputKeys

/-- `AgentProxyWrapper`, `algorithms/sac.py` 361-379 -/
def Face.wrap {α β : Type} (inner : Face α β) : Face α β := ⟨wrapperCall inner.call, inner.inputNames, inner.outputNames⟩

end Agent

end Verif
