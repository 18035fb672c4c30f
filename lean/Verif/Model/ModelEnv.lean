import Verif.Model.Proxy

/-!
# Model environment

`emote/models/model_env.py`. Observations, actions and rewards are values of any types, one for each row of the tensors.
-/

namespace Verif

namespace MEnv

/-- `DictObservation` with its one array and its one reward, which is `None` for initial observations -/
structure Obs (ω ρ : Type) where
  state : EpState
  data : ω
  reward : Option ρ
  deriving DecidableEq

/-- `ModelEnv`, 37-62: `nextAgent` is the counter -/
structure Env (ω : Type) where
  numEnvs : Nat
  current : Option (List ω)
  init : Option (List ω)
  timestep : Nat
  lenRollout : Nat
  nextAgent : Nat
  ids : List Nat
  deriving DecidableEq

/-- `n` numbers from the counter -/
def fresh (next n : Nat) : List Nat := List.range' next n

/-- 37-62 -/
def Env.new (numEnvs : Nat) : Env ω := ⟨numEnvs, none, none, 0, 0, numEnvs, fresh 0 numEnvs⟩

/-- The wrapped model, the reward function and the termination function during one step: the next observation and the
reward of a row, by its number, observation and action; whether the new observation ends the episode. They are an
argument of each step, so that anything may depend on chance or on the other rows. -/
structure World (ω α ρ : Type) where
  sample : Nat → ω → α → ω × ρ
  done : Nat → ω → Bool

/-- rows for `dict_step`: agent, next observation, reward, done, initial observation -/
structure Line (ω ρ : Type) where
  agent : Nat
  next : ω
  reward : ρ
  done : Bool
  init : ω

/-- What the loop of `dict_step` builds. -/
structure Acc (ω ρ : Type) where
  results : Dict Nat (Obs ω ρ)
  ids : List Nat
  newAgents : List Nat
  nextAgent : Nat

/-- the loop, 139-155 -/
def loop (timedOut : Bool) (a : Acc ω ρ) : List (Line ω ρ) → Acc ω ρ
  | [] => a
  | l :: ls =>
    if l.done || timedOut then
      let r := a.results.set l.agent ⟨if l.done then .terminal else .interrupted, l.next, some l.reward⟩
      let r := r.set a.nextAgent ⟨.initial, l.init, none⟩
      loop timedOut ⟨r, a.ids ++ [a.nextAgent], a.newAgents ++ [a.nextAgent], a.nextAgent + 1⟩ ls
    else loop timedOut { a with ids := a.ids ++ [l.agent] } ls

/-- the second dict, 156-166 -/
def running (newAgents : List Nat) : List Nat → List (Line ω ρ) → List (Nat × Obs ω ρ)
  | id :: ids, l :: ls =>
    if id ∈ newAgents then running newAgents ids ls
    else (id, ⟨.running, l.next, some l.reward⟩) :: running newAgents ids ls
  | _, _ => []

/-- the actions of the agents in the order of the environments; a missing one raises, 130-132 -/
def collect (actions : Dict Nat α) : List Nat → Except Err (List α)
  | [] => .ok []
  | id :: ids => match Dict.get? actions id with
    | none => .error .keyError
    | some a => match collect actions ids with
      | .ok as => .ok (a :: as)
      | .error e => .error e

/-- rows of a step, `i` is the number of the first one -/
def sampleRows (w : World ω α ρ) : Nat → List ω → List α → List (ω × ρ × Bool)
  | i, o :: os, a :: as =>
    let (n, r) := w.sample i o a
    (n, r, w.done i n) :: sampleRows w (i + 1) os as
  | _, _, _ => []

/-- puts the rows together -/
def lines : List Nat → List (ω × ρ × Bool) → List ω → List (Line ω ρ)
  | id :: ids, (n, r, d) :: rows, i :: is => ⟨id, n, r, d, i⟩ :: lines ids rows is
  | _, _, _ => []

/-- `dict_step`, 118-168, with `step`, 84-116. Stacking no actions raises; a batch of another size than the actions
raises in the model. -/
def Env.dictStep (e : Env ω) (w : World ω α ρ) (actions : Dict Nat α) : Env ω × Except Err (Dict Nat (Obs ω ρ)) :=
  match collect actions e.ids with
  | .error err => (e, .error err)
  | .ok as =>
    if as.length = 0 then (e, .error .valueError)
    else match e.current, e.init with
      | some current, some init =>
        if current.length = as.length then
          let rows := sampleRows w 0 current as
          let timestep := e.timestep + 1
          let ls := lines e.ids rows init
          let acc := loop (decide (e.lenRollout ≤ timestep)) ⟨[], [], [], e.nextAgent⟩ ls
          let results := acc.results.update (running acc.newAgents acc.ids ls)
          ({ e with current := some (rows.map fun r => r.1), timestep := timestep, nextAgent := acc.nextAgent, ids := acc.ids },
            .ok results)
        else (e, .error .runtimeError)
      | _, _ => (e, .error .typeError)

/-- the dict of `dict_reset`, 185-195: a row that is missing raises -/
def initials : List Nat → List ω → Except Err (List (Nat × Obs ω ρ))
  | [], _ => .ok []
  | _ :: _, [] => .error .indexError
  | id :: ids, o :: os => match initials ids os with
    | .ok r => .ok ((id, ⟨.initial, o, none⟩) :: r)
    | .error e => .error e

/-- `dict_reset`, 170-195, with `reset`, 64-82 -/
def Env.dictReset (e : Env ω) (obs : List ω) (lenRollout : Nat) : Env ω × Except Err (Dict Nat (Obs ω ρ)) :=
  let e := { e with timestep := 0, lenRollout := lenRollout, current := some obs, init := some obs,
                    ids := fresh e.nextAgent e.numEnvs, nextAgent := e.nextAgent + e.numEnvs }
  match initials e.ids obs with
  | .ok r => (e, .ok (Dict.ofPairs r))
  | .error err => (e, .error err)

/-- What a user calls. -/
inductive Call (ω α ρ : Type) where
  | reset (obs : List ω) (lenRollout : Nat)
  | step (w : World ω α ρ) (actions : Dict Nat α)

def Env.call (e : Env ω) : Call ω α ρ → Env ω × Except Err (Dict Nat (Obs ω ρ))
  | .reset obs n => e.dictReset obs n
  | .step w actions => e.dictStep w actions

/-- A history: the environment in the end and what the calls returned, in order. -/
def Env.run (e : Env ω) : List (Call ω α ρ) → Env ω × List (Except Err (Dict Nat (Obs ω ρ)))
  | [] => (e, [])
  | c :: cs =>
    let (e, r) := e.call c
    let (e, rs) := e.run cs
    (e, r :: rs)

end MEnv

end Verif
