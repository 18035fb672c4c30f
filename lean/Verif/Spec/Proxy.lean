import Verif.Model.Proxy

/-!
# Specification of episode assembly

Only the data types of the model are used: a stream of steps, and what each agent did since its last
ended episode.
-/

namespace Verif.Spec

open Verif

variable {V : Type u} {M : Type v}

/-- One agent's observation and the response it got (if any). -/
structure Step (V : Type u) (M : Type v) where
  agent : Int
  obs : Obs V M
  resp : Option (Response V)

/-- One call of `add`. -/
structure Call (V : Type u) (M : Type v) where
  observations : Dict Int (Obs V M)
  responses : Dict Int (Response V)

/-- The steps of a call, in the order of the observations. -/
def Call.steps (c : Call V M) : List (Step V M) :=
  c.observations.map fun ao => ⟨ao.1, ao.2, c.responses.get? ao.1⟩

/-- Does the step end the episode? -/
def Step.ends (s : Step V M) : Bool := s.obs.state = .terminal || s.obs.state = .interrupted

/-- The steps of agent `a` since its last ended episode. -/
def ongoing (a : Int) (h : List (Step V M)) : List (Step V M) :=
  ((h.filter (fun s => s.agent = a)).reverse.takeWhile (fun s => !s.ends)).reverse

/-- What a step contributes to column `k`. Where several parts of it have the same name, scalar outputs go
before list outputs, before the reward, before the features. -/
def contributes (useTerminal : Bool) (float : Bool → V) (k : String) (s : Step V M) : Option V :=
  if s.ends then
    if useTerminal && k = "terminal" then some (float (s.obs.state = .interrupted))
    else if k = "rewards" then s.obs.rewards.get? "reward" else s.obs.arrays.get? k
  else
    match s.resp with
    | none => none
    | some r => match r.scalarData.get? k with
      | some v => some v
      | none => match r.listData.get? k with
        | some v => some v
        | none =>
          if k = "rewards" && s.obs.state = .running then s.obs.rewards.get? "reward" else s.obs.arrays.get? k

/-- Column `k` of an episode. -/
def column (useTerminal : Bool) (float : Bool → V) (k : String) (ss : List (Step V M)) : List V :=
  ss.filterMap (contributes useTerminal float k)

/-- Is the episode long enough for the memory? -/
def longEnough (cfg : ProxyCfg V) (ss : List (Step V M)) : Bool :=
  match cfg.minLength with
  | none => true
  | some m => decide (m ≤ ((column cfg.useTerminal cfg.float cfg.lengthKey ss).length : Int))

/-- The episodes that end in the second list of steps, after the first one. -/
def delivered (cfg : ProxyCfg V) : List (Step V M) → List (Step V M) → List (Int × List (Step V M))
  | _, [] => []
  | past, s :: rest =>
    (if s.ends && !(ongoing s.agent past).isEmpty && longEnough cfg (ongoing s.agent past ++ [s])
      then [(s.agent, ongoing s.agent past ++ [s])] else []) ++ delivered cfg (past ++ [s]) rest

end Verif.Spec
