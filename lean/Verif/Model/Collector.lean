import Verif.Model.ModelEnv
import Verif.Model.Table

/-!
# Model rollouts: `ModelBasedCollector`

`emote/models/callbacks.py` 195-271, with the model environment of `Model/ModelEnv` and a `MemoryTableProxy` in front of a
table. The agent is one that answers every observation whose episode goes on (`Model/AgentProxy`, C68) with one action,
which may depend on anything. Log calls are left out. The scheduler is a function from the number of the batch to the
rollout length; negative lengths are not modelled.
-/

namespace Verif

namespace Coll

open MEnv

variable {ω α ρ V : Type}

/-- How observations, rewards (`None` for initial observations) and actions look as values of the memory. -/
structure Codec (ω α ρ V : Type) where
  data : ω → V
  reward : Option ρ → V
  action : α → V

/-- Is the episode going on? (`proxies.py` 98-102) -/
def goesOn (o : MEnv.Obs ω ρ) : Bool :=
  match o.state with
  | .terminal => false
  | .interrupted => false
  | _ => true

/-- The actions of the agent for its observations, `callbacks.py` 253. -/
def answers (act : Nat → ω → α) (obs : Dict Nat (MEnv.Obs ω ρ)) : Dict Nat α :=
  (obs.filter fun p => goesOn p.2).map fun p => (p.1, act p.1 p.2.data)

/-- The observations as the memory gets them, `model_env.py` 141-164 and 187-195. -/
def observations (x : Codec ω α ρ V) (key : String) (obs : Dict Nat (MEnv.Obs ω ρ)) : Dict Int (Verif.Obs V Unit) :=
  obs.map fun p => ((p.1 : Int), ⟨[("reward", x.reward p.2.reward)], p.2.state, [(key, x.data p.2.data)], none⟩)

/-- The responses as the memory gets them. -/
def responses (x : Codec ω α ρ V) (actions : Dict Nat α) : Dict Int (Response V) :=
  actions.map fun p => ((p.1 : Int), ⟨[("actions", x.action p.2)], []⟩)

/-- The fields of `ModelBasedCollector`, 211-240, with what they refer to. -/
structure Collector (ω ρ V : Type) where
  env : Env ω
  proxy : Proxy V (Table V)
  obs : Dict Nat (MEnv.Obs ω ρ)
  lenRollout : Nat
  counter : Nat

/-- Constructor arguments: `sched k` is `int(rollout_scheduler.evaluate_at(k))`, `retain` is
`num_bp_to_retain_buffer`. -/
structure Config (ω α ρ V : Type) where
  codec : Codec ω α ρ V
  key : String
  proxy : ProxyCfg V
  sched : Nat → Nat
  retain : Int

/-- What chance and the outer world contribute to one sample: the model, the policy, the draws of the ejector. -/
structure Draw (ω α ρ : Type) where
  world : World ω α ρ
  act : Nat → ω → α
  draws : Int → List Nat

/-- 211-240; `first` is `int(rollout_scheduler.value_min)` -/
def Collector.new (n : Nat) (t0 : Table V) (first : Nat) : Collector ω ρ V := ⟨Env.new n, Proxy.new t0, [], first, 0⟩

/-- `collect_sample`, 251-262 -/
def collectSample (cfg : Config ω α ρ V) (d : Draw ω α ρ) (c : Collector ω ρ V) : Res (Collector ω ρ V) Unit :=
  let actions := answers d.act c.obs
  match c.env.dictStep d.world actions with
  | (env, .error e) => ({ c with env := env }, .error e)
  | (env, .ok next) =>
    match Proxy.add cfg.proxy (fun a ep t => Table.addSequence (d.draws a) a ep t) (observations cfg.codec cfg.key c.obs)
        (responses cfg.codec actions) c.proxy with
    | (p, .error e) => ({ c with env := env, proxy := p }, .error e)
    | (p, .ok ()) => ({ c with env := env, proxy := p, obs := next }, .ok ())

/-- `update_rollout_size`, 264-271 -/
def updateRolloutSize (cfg : Config ω α ρ V) (c : Collector ω ρ V) : Res (Collector ω ρ V) Unit :=
  let c := { c with counter := c.counter + 1 }
  let len := cfg.sched c.counter
  if c.lenRollout ≠ len then
    let c := { c with lenRollout := len }
    Res.lift (fun t => { c with proxy := { c.proxy with table := t } })
      (Table.resize c.proxy.table ((len : Int) * c.env.numEnvs * cfg.retain))
  else (c, .ok ())

/-- `begin_batch`, 242-249, with the observations `rows` of the batch. -/
def beginBatch (cfg : Config ω α ρ V) (rows : List ω) (ds : Nat → Draw ω α ρ) (c : Collector ω ρ V) :
    Res (Collector ω ρ V) Unit :=
  Res.andThen (updateRolloutSize cfg c) fun c _ =>
    match c.env.dictReset rows c.lenRollout with
    | (env, .error e) => ({ c with env := env }, .error e)
    | (env, .ok obs) => Res.forEach ((List.range (c.lenRollout + 1)).map ds) (collectSample cfg) { c with env := env, obs := obs }

end Coll

end Verif
