import Verif.Model.Loader
import Verif.Model.Schedules

/-!
# Choosing between real and synthetic data

`BatchSampler`, `emote/models/callbacks.py` 123-192. The number `torch.rand` gives is an argument. `begin_batch` takes
`**kwargs`, so it is given the whole state of the trainer (see `Callback.lean`).
-/

namespace Verif

namespace Sampler

variable {K : Type u} [Field K] [LinearOrder K] {D : Type v}

/-- What `__init__` is given, 140-163. `logs` says whether the class has a `log_scalar`; `BatchSampler` itself, a
`BatchCallback` without `LoggingMixin`, has none. -/
structure Config (K : Type u) where
  loader : Loader
  sched : Sched.BPStep K
  group : String
  rlGroup : String
  logs : Bool

/-- The fields that change, 156-161 -/
structure State (K : Type u) where
  iter : GenState
  prob : K
  counter : Nat

/-- `__init__`, 140-161 -/
def State.new (cfg : Config K) : State K := ⟨.fresh, cfg.sched.min, 0⟩

/-- `sample_model_batch`, 175-186. The table is looked at once, or once more if the iterator is exhausted. -/
def sampleModelBatch (cfg : Config K) (v v' : TableView D) (s : State K) :
    Res (State K) (Dict String (Entry D)) :=
  match cfg.loader.next v s.iter with
  | (_, .error .stopIteration) =>
    let x := cfg.loader.next v' .fresh
    ({ s with iter := x.1 }, x.2)
  | (i, r) => ({ s with iter := i }, r)

/-- `use_model_batch`, 188-196 -/
def useModelBatch (cfg : Config K) (rnd : K) (s : State K) : State K × Bool :=
  let s := { s with counter := s.counter + 1 }
  let s := { s with prob := cfg.sched.evaluateAt s.counter }
  (s, decide (rnd < s.prob))

/-- `begin_batch`, 163-173; `state` is the state of the trainer. -/
def beginBatch (cfg : Config K) (rnd : K) (v v' : TableView D) (state : Dict String (Entry D)) (s : State K) :
    Res (State K) (Dict String (Entry D)) :=
  if cfg.logs = false then (s, .error .attributeError)
  else
    let (s, useModel) := useModelBatch cfg rnd s
    if useModel then sampleModelBatch cfg v v' s
    else match state.get? cfg.group with
      | none => (s, .error .keyError)
      | some d => (s, .ok [(cfg.rlGroup, d)])

end Sampler

end Verif
