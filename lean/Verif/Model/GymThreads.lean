import Verif.Model.GymRun
import Verif.Model.Table

/-!
# `ThreadedGymCollector`: collecting in a thread of its own

`tests/gym/collector.py` 68-112. What the collector does is a machine with one step per access to the memory table, so that
other threads may use the table in between: a round of `collect_data` first asks the agent, steps the environment and sorts
the observations into the episodes of the proxy, none of which anyone else touches, and then adds the episodes that ended
to the table one at a time, each under the lock of the table (see C122). What is in the collector after an exception is not
modelled, and closing the environment (`collector.py` 110-112) is not either.
-/

namespace Verif.GymThreads

open Verif Verif.GymRun

variable {V M : Type}

/-- Where the collector is between two rounds: in `begin_training` with so many rounds of warm-up to go (`collector.py`
65), or in its thread, at the test of `_stop` (`collector.py` 95). -/
inductive Between where
  | warm (left : Nat)
  | loop
  deriving DecidableEq

/-- Where the collector is: there is no thread (before `begin_training` and after `end_training`); between two rounds; in
`self._memory.add` of a round, with the episodes that are still to be added to the table; or its thread has ended. -/
inductive Loc (V M : Type) where
  | idle
  | at (b : Between)
  | adding (b : Between) (next : Dict Int (Obs V M)) (info : Option ℚ) (todo : List (Int × Episode V))
  | over

/-- The collector, its proxy and its table, and `_stop`. -/
structure State (V M : Type) where
  wrapper : Wrapper V
  obs : Option (Dict Int (Obs V M))
  proxy : Proxy V (Table V)
  logged : List ℚ
  loc : Loc V M
  stop : Bool

/-- `ThreadedGymCollector.__init__`, `collector.py` 69-80, for a new environment and memory. -/
def State.new (n : Nat) (t0 : Table V) : State V M := ⟨Wrapper.new n, none, Proxy.new t0, [], .idle, false⟩

/-- The state as a `GymCollector`. -/
def State.collector (s : State V M) : Collector V M (Table V) := ⟨s.wrapper, s.obs, s.proxy, s.logged⟩

/-- The start of `begin_training`, `collector.py` 57-64 by way of 99. -/
def begin_ (k : Codec V) (env : VecEnv V) (n warmup : Nat)
    (agent : Dict Int (Obs V M) → Except Err (Dict Int (Response V))) (s : State V M) : Except Err (State V M) :=
  match tryOut k env n agent s.collector with
  | .error e => .error e
  | .ok c => .ok { s with wrapper := c.wrapper, obs := c.obs, loc := .at (.warm warmup) }

/-- The first half of `collect_data`, `collector.py` 38-41, up to the loop of `add` over the episodes that are complete
(`memory.py` 169). -/
def act (cfg : ProxyCfg V) (k : Codec V) (env : VecEnv V) (agent : Dict Int (Obs V M) → Except Err (Dict Int (Response V)))
    (back : Between) (s : State V M) : Except Err (State V M) :=
  match s.obs with
  | none => .error .attributeError
  | some obs =>
    match agent obs with
    | .error e => .error e
    | .ok actions =>
      match dictStep k env actions s.wrapper with
      | .error e => .error e
      | .ok (w, next, info) =>
        match Res.forEach obs (Proxy.observe cfg actions) (s.proxy, []) with
        | (_, .error e) => .error e
        | ((p, done), .ok ()) => .ok { s with wrapper := w, proxy := p, loc := .adding back next info done }

/-- One step of the machine when it is its turn:

* between two rounds of warm-up or in the thread: a round, with what the agent answers in it, unless the warm-up is over
  (then the thread is started, `collector.py` 100-101) or `_stop` is set (then it ends, `collector.py` 95);
* in `add`: the next episode goes to the table (`memory.py` 170), with the ejector's draws;
* after the last of them: `self._obs` and the log (`collector.py` 42-45). -/
def turn (cfg : ProxyCfg V) (k : Codec V) (env : VecEnv V) (agent : Dict Int (Obs V M) → Except Err (Dict Int (Response V)))
    (draws : List Nat) (s : State V M) : Except Err (State V M) :=
  match s.loc with
  | .idle => .ok s
  | .over => .ok s
  | .at (.warm 0) => .ok { s with loc := .at .loop }
  | .at (.warm (m + 1)) => act cfg k env agent (.warm m) s
  | .at .loop => if s.stop then .ok { s with loc := .over } else act cfg k env agent .loop s
  | .adding b next info [] => .ok { s with obs := some next, logged := addLogged s.logged info, loc := .at b }
  | .adding b next info ((a, ep) :: todo) =>
    match Table.addSequence draws a ep s.proxy.table with
    | (_, .error e) => .error e
    | (t, .ok ()) => .ok { s with proxy := { s.proxy with table := t }, loc := .adding b next info todo }

/-- `end_training` up to the `join`, `collector.py` 104. -/
def askToStop (s : State V M) : State V M := { s with stop := true }

/-- After the `join`, `collector.py` 106-108. -/
def joined (s : State V M) : State V M := { s with loc := .idle }

end Verif.GymThreads
