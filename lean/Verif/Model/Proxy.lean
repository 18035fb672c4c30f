import Verif.Base.Res

/-!
# Assembling episodes: `MemoryTableProxy`

`emote/memory/memory.py` 40-170 and `emote/typing.py`. The memory behind the proxy is any function
`mem : Int → Episode V → T → Res T Unit` for `add_sequence`. Log messages are not modelled.
-/

namespace Verif

/-- `EpisodeState`, `typing.py` 44-59. -/
inductive EpState where
  | running | interrupted | terminal | initial
  deriving DecidableEq, Repr

/-- `DictObservation`, `typing.py` 71-76. `M` is the type of the metadata. -/
structure Obs (V : Type u) (M : Type v) where
  rewards : Dict String V
  state : EpState
  arrays : Dict String V
  metadata : Option M := none
  deriving DecidableEq, Repr

/-- `DictResponse`, `typing.py` 79-82. -/
structure Response (V : Type u) where
  listData : Dict String V
  scalarData : Dict String V
  deriving DecidableEq, Repr

/-- `Episode.data`, `memory.py` 40-44: a `defaultdict(list)`. -/
abbrev Episode (V : Type u) := Dict String (List V)

namespace Episode

variable {V : Type u}

/-- `self.data[k].append(v)`: a missing key of the `defaultdict` starts with the empty list. -/
def push (ep : Episode V) (kv : String × V) : Episode V :=
  ep.set kv.1 ((match ep.get? kv.1 with
    | some l => l
    | none => []) ++ [kv.2])

/-- `Episode.append`, `memory.py` 46-48. `complete` (50-52) and `from_initial` (54-58) are `append` on
the old and on the empty episode. -/
def append (ep : Episode V) (obs : Dict String V) : Episode V := obs.foldl push ep

/-- `ep[key]` on the `defaultdict`: a missing key is inserted with the empty list. -/
def touch (ep : Episode V) (key : String) : Episode V × List V :=
  match ep.get? key with
  | some l => (ep, l)
  | none => (ep.set key [], [])

end Episode

/-- Constructor arguments of `MemoryTableProxy`, `memory.py` 71-90, with the length key of its table;
`float b` is the number that Python's `float` makes of a bool. -/
structure ProxyCfg (V : Type u) where
  minLength : Option Int
  lengthKey : String
  useTerminal : Bool
  float : Bool → V

/-- The mutable state of `MemoryTableProxy`. -/
structure Proxy (V : Type u) (T : Type w) where
  store : Dict Int (Episode V)
  completed : List Int
  table : T
  deriving DecidableEq, Repr

namespace Proxy

variable {V : Type u} {M : Type v} {T : Type w}

/-- `memory.py` 79-90. -/
def new (t : T) : Proxy V T := ⟨[], [], t⟩

/-- `_min_length_filter`, `memory.py` 81-85, with its effect on the `defaultdict`. -/
def minLengthFilter (cfg : ProxyCfg V) (ep : Episode V) : Episode V × Bool :=
  match cfg.minLength with
  | none => (ep, true)
  | some m => ((ep.touch cfg.lengthKey).1, decide (m ≤ (ep.touch cfg.lengthKey).2.length))

/-- `is_initial`, `memory.py` 105-111. -/
def isInitial (p : Proxy V T) (a : Int) : Bool := !p.store.contains a

/-- `episode_state in self._term_states`, `memory.py` 88 and 129. -/
def isTerm : EpState → Bool
  | .terminal => true
  | .interrupted => true
  | _ => false

/-- `memory.py` 120-127: the data of the observation, with the reward. -/
def obsData (p : Proxy V T) (a : Int) (o : Obs V M) : Except Err (Dict String V) :=
  if o.state ≠ .initial then
    match o.rewards.get? "reward" with
    | none => .error .keyError
    | some r => .ok (o.arrays.set "rewards" r)
  else if p.store.contains a then .error .assertionError
  else .ok o.arrays

/-- The body of the loop over the observations, `memory.py` 119-167. The second part of the state is the
local dict `completed_episodes`. -/
def observe (cfg : ProxyCfg V) (responses : Dict Int (Response V)) (ao : Int × Obs V M)
    (s : Proxy V T × Dict Int (Episode V)) : Res (Proxy V T × Dict Int (Episode V)) Unit :=
  let (p, done) := s
  match obsData p ao.1 ao.2 with
  | .error e => (s, .error e)
  | .ok data =>
    if isTerm ao.2.state then
      let data := if cfg.useTerminal then data.set "terminal" (cfg.float (ao.2.state = .interrupted)) else data
      let p := { p with completed := if ao.1 ∈ p.completed then p.completed else p.completed ++ [ao.1] }
      match p.store.get? ao.1 with
      | none => ((p, done), .ok ())
      | some ep =>
        let p := { p with store := p.store.erase ao.1 }
        let f := minLengthFilter cfg (ep.append data)
        ((p, if f.2 then done.set ao.1 f.1 else done), .ok ())
    else
      match responses.get? ao.1 with
      | none => (s, .error .assertionError)
      | some resp =>
        let data := (data.update resp.listData).update resp.scalarData
        let ep := match p.store.get? ao.1 with
          | none => Episode.append [] data
          | some ep => ep.append data
        (({ p with store := p.store.set ao.1 ep }, done), .ok ())

/-- `memory.py` 169-170. -/
def flush (mem : Int → Episode V → T → Res T Unit) (done : Dict Int (Episode V)) (p : Proxy V T) :
    Res (Proxy V T) Unit :=
  Res.forEach done (fun ae p => Res.lift (fun t => { p with table := t }) (mem ae.1 ae.2 p.table)) p

/-- `MemoryTableProxy.add`, `memory.py` 113-170. -/
def add (cfg : ProxyCfg V) (mem : Int → Episode V → T → Res T Unit) (observations : Dict Int (Obs V M))
    (responses : Dict Int (Response V)) (p : Proxy V T) : Res (Proxy V T) Unit :=
  match Res.forEach observations (observe cfg responses) (p, []) with
  | ((p, _), .error e) => (p, .error e)
  | ((p, done), .ok ()) => flush mem done p

end Proxy

end Verif
