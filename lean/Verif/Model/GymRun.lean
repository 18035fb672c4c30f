import Verif.Model.Proxy
import Mathlib.Data.Rat.Defs
import Mathlib.Algebra.Order.Ring.Rat
import Mathlib.Algebra.BigOperators.Group.List.Basic

/-!
# Collecting from gym environments: `DictGymWrapper` and `GymCollector`

`tests/gym/dict_gym_wrapper.py` and `tests/gym/collector.py`, with which the tests and all scripts under
`experiments/gym` feed a memory. `V` is a row (an observation, an action or a reward); rewards are exact numbers.
Rendering, spaces, dtypes and gymnasium itself are not modelled: the vector environment is any pair of functions of
what happened to it so far. What is in the wrapper and the collector after an exception is not modelled.
-/

namespace Verif.GymRun

open Verif

/-- What `step_wait` returns (`dict_gym_wrapper.py` 41); `final` is `info["final_observation"]`, which is there if an
episode ended. Gymnasium has then already reset that slot, and `next` shows the new episode. -/
structure Out (V : Type) where
  next : List V
  rewards : List ℚ
  terminated : List Bool
  truncated : List Bool
  final : Option (List V)
  deriving DecidableEq

/-- What happened to the vector environment: it was reset and showed observations, or was given actions and answered. -/
inductive Entry (V : Type) where
  | reset (obs : List V)
  | step (actions : List V) (out : Out V)
  deriving DecidableEq

/-- A vector environment: any functions of the past. -/
structure VecEnv (V : Type) where
  reset : List (Entry V) → Except Err (List V)
  step : List (Entry V) → List V → Except Err (Out V)

/-- A reward, and `None`, as rows. -/
structure Codec (V : Type) where
  reward : ℚ → V
  none : V

/-- The state of `DictGymWrapper`; `log` is what happened to its environment. -/
structure Wrapper (V : Type) where
  next : Nat
  ids : List Int
  rewards : List ℚ
  log : List (Entry V)
  deriving DecidableEq

variable {V M : Type}

/-- `DictGymWrapper.__init__`, `dict_gym_wrapper.py` 14-18. -/
def Wrapper.new (n : Nat) : Wrapper V := ⟨n, (List.range n).map Int.ofNat, List.replicate n 0, []⟩

/-- `dict_gym_wrapper.py` 58-62 and 91-95. -/
def initialObs (k : Codec V) (v : V) : Obs V M := ⟨[("reward", k.none)], .initial, [("obs", v)], none⟩

/-- `dict_gym_wrapper.py` 52-56. -/
def terminalObs (k : Codec V) (r : ℚ) (v : V) : Obs V M := ⟨[("reward", k.reward r)], .terminal, [("obs", v)], none⟩

/-- `dict_gym_wrapper.py` 70-74. -/
def runningObs (k : Codec V) (r : ℚ) (v : V) : Obs V M := ⟨[("reward", k.reward r)], .running, [("obs", v)], none⟩

/-- The comprehension of `dict_reset`, `dict_gym_wrapper.py` 90-97, from index `i` on. -/
def firstObs (k : Codec V) (obs : List V) : Nat → List Int → Except Err (List (Int × Obs V M))
  | _, [] => .ok []
  | i, a :: as =>
    match obs[i]? with
    | none => .error .indexError
    | some v =>
      match firstObs k obs (i + 1) as with
      | .error e => .error e
      | .ok l => .ok ((a, initialObs k v) :: l)

/-- `dict_reset`, `dict_gym_wrapper.py` 86-97, with `n` slots. -/
def dictReset (k : Codec V) (env : VecEnv V) (n : Nat) (w : Wrapper V) : Except Err (Wrapper V × Dict Int (Obs V M)) :=
  let ids := (List.range n).map fun i => ((w.next + i : Nat) : Int)
  match env.reset w.log with
  | .error e => .error e
  | .ok obs =>
    match firstObs k obs 0 ids with
    | .error e => .error e
    | .ok l => .ok ({ w with next := w.next + n, ids := ids, log := w.log ++ [.reset obs] }, Dict.ofPairs l)

/-- The actions of the slots, `dict_gym_wrapper.py` 37-39. -/
def gatherActions (actions : Dict Int (Response V)) : List Int → Except Err (List V)
  | [] => .ok []
  | a :: as =>
    match actions.get? a with
    | none => .error .keyError
    | some r =>
      match r.listData.get? "actions" with
      | none => .error .keyError
      | some v =>
        match gatherActions actions as with
        | .error e => .error e
        | .ok vs => .ok (v :: vs)

/-- `self._episode_rewards[env_id] += reward`, `dict_gym_wrapper.py` 47-48. -/
def accrue : List ℚ → List ℚ → Except Err (List ℚ)
  | es, [] => .ok es
  | [], _ :: _ => .error .indexError
  | e :: es, r :: rs =>
    match accrue es rs with
    | .error x => .error x
    | .ok l => .ok ((e + r) :: l)

/-- The variables of the loop over the slots, `dict_gym_wrapper.py` 43-66: the wrapper, `results`, `new_agents` and
`completed_episode_rewards`. -/
structure Acc (V M : Type) where
  w : Wrapper V
  results : Dict Int (Obs V M)
  fresh : List Int
  completed : List ℚ

/-- The body of that loop for a slot `i` whose episode is over, `dict_gym_wrapper.py` 52-66. -/
def finishOne (k : Codec V) (out : Out V) (i : Nat) (s : Acc V M) : Except Err (Acc V M) :=
  match out.final with
  | none => .error .keyError
  | some fs =>
    match s.w.ids[i]?, fs[i]?, out.rewards[i]?, out.next[i]?, s.w.rewards[i]? with
    | some a, some f, some r, some v, some total =>
      .ok ⟨{ s.w with next := s.w.next + 1, ids := s.w.ids.set i s.w.next, rewards := s.w.rewards.set i 0 },
        (s.results.set a (terminalObs k r f)).set s.w.next (initialObs k v), s.fresh ++ [(s.w.next : Int)],
        s.completed ++ [total]⟩
    | _, _, _, _, _ => .error .indexError

/-- The loop over the slots, `dict_gym_wrapper.py` 50-66, from index `i` on. -/
def finish (k : Codec V) (out : Out V) : Nat → List Bool → Acc V M → Except Err (Acc V M)
  | _, [], s => .ok s
  | i, false :: ds, s => finish k out (i + 1) ds s
  | i, true :: ds, s =>
    match finishOne k out i s with
    | .error e => .error e
    | .ok s => finish k out (i + 1) ds s

/-- The comprehension of `dict_step`, `dict_gym_wrapper.py` 69-77, from index `i` on. -/
def stillRunning (k : Codec V) (out : Out V) (fresh : List Int) : Nat → List Int → Except Err (List (Int × Obs V M))
  | _, [] => .ok []
  | i, a :: as =>
    if a ∈ fresh then stillRunning k out fresh (i + 1) as else
    match out.next[i]?, out.rewards[i]? with
    | some v, some r =>
      match stillRunning k out fresh (i + 1) as with
      | .error e => .error e
      | .ok l => .ok ((a, runningObs k r v) :: l)
    | _, _ => .error .indexError

/-- `dones`, `dict_gym_wrapper.py` 42. -/
def Out.dones (out : Out V) : List Bool := List.zipWith (· || ·) out.terminated out.truncated

/-- `ep_info.get("reward")`, `dict_gym_wrapper.py` 80-82. -/
def meanReward (completed : List ℚ) : Option ℚ :=
  if 0 < completed.length then some (completed.sum / completed.length) else none

/-- `dict_step`, `dict_gym_wrapper.py` 36-84. -/
def dictStep (k : Codec V) (env : VecEnv V) (actions : Dict Int (Response V)) (w : Wrapper V) :
    Except Err (Wrapper V × Dict Int (Obs V M) × Option ℚ) :=
  match gatherActions actions w.ids with
  | .error e => .error e
  | .ok batch =>
    match env.step w.log batch with
    | .error e => .error e
    | .ok out =>
      match accrue w.rewards out.rewards with
      | .error e => .error e
      | .ok rewards =>
        match finish k out 0 out.dones ⟨{ w with rewards := rewards, log := w.log ++ [.step batch out] }, [], [], []⟩ with
        | .error e => .error e
        | .ok s =>
          match stillRunning k out s.fresh 0 s.w.ids with
          | .error e => .error e
          | .ok l => .ok (s.w, s.results.update l, meanReward s.completed)

/-- The state of `GymCollector` (`collector.py` 17-32) and of its wrapper and memory proxy; `obs` is missing before
`begin_training`, and `logged` are the values logged as "episode/reward". -/
structure Collector (V M : Type) (T : Type) where
  wrapper : Wrapper V
  obs : Option (Dict Int (Obs V M))
  proxy : Proxy V T
  logged : List ℚ

/-- `log_scalar`, `collector.py` 44-45. -/
def addLogged (logged : List ℚ) : Option ℚ → List ℚ
  | none => logged
  | some r => logged ++ [r]

/-- `collect_data`, `collector.py` 34-45. `agent` is what the agent proxy answers in this call, `mem` what
`add_sequence` does. -/
def collectData {T : Type} (cfg : ProxyCfg V) (k : Codec V) (env : VecEnv V)
    (agent : Dict Int (Obs V M) → Except Err (Dict Int (Response V)))
    (mem : Int → Episode V → T → Res T Unit) (c : Collector V M T) : Except Err (Collector V M T) :=
  match c.obs with
  | none => .error .attributeError
  | some obs =>
    match agent obs with
    | .error e => .error e
    | .ok actions =>
      match dictStep k env actions c.wrapper with
      | .error e => .error e
      | .ok (w, next, info) =>
        match Proxy.add cfg mem obs actions c.proxy with
        | (_, .error e) => .error e
        | (p, .ok ()) => .ok ⟨w, some next, p, addLogged c.logged info⟩

/-- The check at the start of `begin_training`, `collector.py` 57-61. -/
def tryOut {T : Type} (k : Codec V) (env : VecEnv V) (n : Nat)
    (agent : Dict Int (Obs V M) → Except Err (Dict Int (Response V)))
    (c : Collector V M T) : Except Err (Collector V M T) :=
  match dictReset (M := M) k env n c.wrapper with
  | .error e => .error e
  | .ok (w, obs) =>
    match agent obs with
    | .error e => .error e
    | .ok actions =>
      match dictStep (M := M) k env actions w with
      | .error e => .error e
      | .ok (w, _, _) =>
        match dictReset (M := M) k env n w with
        | .error e => .error e
        | .ok (w, obs) => .ok { c with wrapper := w, obs := some obs }

/-- `collect_multiple`, `collector.py` 47-53; `agent j` is what the agent proxy answers in round `j`. -/
def collectMultiple {T : Type} (cfg : ProxyCfg V) (k : Codec V) (env : VecEnv V)
    (agent : Nat → Dict Int (Obs V M) → Except Err (Dict Int (Response V)))
    (mem : Nat → Int → Episode V → T → Res T Unit) : Nat → Nat → Collector V M T → Except Err (Collector V M T)
  | _, 0, c => .ok c
  | j, m + 1, c =>
    match collectData cfg k env (agent j) (mem j) c with
    | .error e => .error e
    | .ok c => collectMultiple cfg k env agent mem (j + 1) m c

/-- `begin_training`, `collector.py` 55-65. -/
def beginTraining {T : Type} (cfg : ProxyCfg V) (k : Codec V) (env : VecEnv V) (n warmup : Nat)
    (agent : Nat → Dict Int (Obs V M) → Except Err (Dict Int (Response V)))
    (mem : Nat → Int → Episode V → T → Res T Unit) (c : Collector V M T) : Except Err (Collector V M T) :=
  match tryOut k env n (agent 0) c with
  | .error e => .error e
  | .ok c => collectMultiple cfg k env agent mem 1 warmup c

/-- `begin_training` of `SimpleGymCollector`, `collector.py` 128-130, with the `inf_step` it returns. -/
def simpleBegin {T : Type} (cfg : ProxyCfg V) (k : Codec V) (env : VecEnv V) (n warmup : Nat)
    (agent : Nat → Dict Int (Obs V M) → Except Err (Dict Int (Response V)))
    (mem : Nat → Int → Episode V → T → Res T Unit) (c : Collector V M T) : Except Err (Collector V M T × Nat) :=
  match beginTraining cfg k env n warmup agent mem c with
  | .error e => .error e
  | .ok c => .ok (c, warmup)

/-- `begin_batch` of `SimpleGymCollector`, `collector.py` 132-135, with the `inf_step` it returns; `collect` is
`collect_data`. `%` by zero raises. -/
def beginBatch {σ : Type} (collect : σ → Except Err σ) (every : Nat) (numEnvs infStep bpStep : Nat) (c : σ) :
    Except Err (σ × Nat) :=
  if every = 0 then .error .zeroDivision else
  if bpStep % every = 0 then
    match collect c with
    | .error e => .error e
    | .ok c => .ok (c, infStep + numEnvs)
  else .ok (c, infStep + numEnvs)

end Verif.GymRun
