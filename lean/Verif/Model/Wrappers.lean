import Verif.Model.Proxy
import Verif.Model.Logging

/-!
# Wrappers around the memory proxy

`emote/memory/memory.py` 180-469: `LoggingProxyWrapper` and `MemoryExporterProxyWrapper`. The wrapped proxy is
any state with any `add` and `store`. Clock readings are arguments. The summary writer is the list of what was
written; it never raises. Locks, images, videos, the attribute forwarding of `MemoryProxyWrapper` (187-230) and
messages are not modelled.
-/

namespace Verif

/-- `MetaData`, `typing.py` 62-68. -/
structure MetaData where
  info : Dict String Rat
  infoLists : Dict String (List Rat)
  deriving DecidableEq, Repr

/-- A call of the summary writer. -/
inductive Written where
  | scalar (tag : String) (value : Rat) (step : Int)
  | histogram (tag : String) (values : List Rat) (step : Int)
  | flush
  deriving DecidableEq, Repr

/-- `LoggingProxyWrapper`, `memory.py` 238-257. -/
structure LogWrap (T : Type u) where
  logs : Logs
  inferences : Int
  episodes : Int
  counter : Nat
  interval : Nat
  cycleStartInfs : Int
  infsAtStart : Int
  written : List Written
  inner : T
  deriving DecidableEq, Repr

/-- What `_end_cycle` reads from outside: the time since the cycle began and since the start, the name of the
memory and the statistics of its timers (mean and variance by name). -/
structure CycleEnv where
  cycleTime : Rat
  sinceStart : Rat
  name : String
  timers : List (String × Rat × Rat)
  deriving DecidableEq, Repr

namespace LogWrap

variable {T : Type u} {V : Type v}

/-- `memory.py` 239-257 -/
def new (interval : Nat) (inner : T) : LogWrap T :=
  ⟨Logs.new 1000, 0, 0, 0, interval, 0, 0, [], inner⟩

/-- `memory.py` 259-263: what `state_dict` saves. -/
def stateDict (w : LogWrap T) : Int × Int := (w.inferences, w.episodes)

/-- `load_state_dict` with `load_hparams`, of what `state_dict` saved, `memory.py` 265-277 -/
def loadStateDict (s : Int × Int) (w : LogWrap T) : LogWrap T :=
  { w with inferences := s.1, episodes := s.2, infsAtStart := s.1 }

/-- The body of the two loops in `report`, `memory.py` 306-316: for `histogram:` keys the rest of the key is
the name of a histogram. -/
def reportOne (key : String) (v : LogVal) (w : LogWrap T) : Res (LogWrap T) Unit :=
  if "histogram:".toList.isPrefixOf key.toList then
    ({ w with logs := w.logs.logHistogram (String.ofList (key.toList.drop 10)) v }, .ok ())
  else Res.lift (fun l => { w with logs := l }) (w.logs.logWindowed key v)

/-- `report`, `memory.py` 301-316 -/
def report (m : MetaData) (w : LogWrap T) : Res (LogWrap T) Unit :=
  Res.andThen (Res.forEach m.info (fun kv => reportOne kv.1 (.one kv.2)) w) fun w _ =>
    Res.forEach m.infoLists (fun kv => reportOne kv.1 (.many kv.2)) w

/-- The body of the loop in `memory.py` 289-293. -/
def reportObs (o : Obs V MetaData) (w : LogWrap T) : Res (LogWrap T) Unit :=
  match o.metadata with
  | none => (w, .ok ())
  | some m => report m w

/-- `w.writer.add_…` -/
def write (e : Written) (w : LogWrap T) : LogWrap T := { w with written := w.written ++ [e] }

/-- `k.split(":")[1] if k.startswith("windowed[") else k`, `memory.py` 370 and 375 -/
def tagOf (key : String) : Except Err String :=
  if "windowed[".toList.isPrefixOf key.toList then
    match splitChar ':' key.toList with
    | _ :: q :: _ => .ok (String.ofList q)
    | _ => .error .indexError
  else .ok key

/-- `memory.py` 351-364 -/
def writeReward (w : LogWrap T) : Res (LogWrap T) Unit :=
  match w.logs.windowed.get? "episode/reward" with
  | none => (w, .ok ())
  | some win => match win.mean with
    | .error e => (w, .error e)
    | .ok avg =>
      (((w.write (.scalar "env_vs_episode/reward" avg w.episodes)).write
        (.histogram "episode/reward_distribution" win.vals w.inferences)).write
        (.histogram "env_vs_episode/reward_distribution" win.vals w.episodes), .ok ())

/-- The body of the loop in `memory.py` 369-372 -/
def writeWindow (kv : String × Window) (w : LogWrap T) : Res (LogWrap T) Unit :=
  match tagOf kv.1 with
  | .error e => (w, .error e)
  | .ok k => match kv.2.mean with
    | .error e => (w, .error e)
    | .ok avg => (w.write (.scalar k avg w.inferences), .ok ())

/-- The body of the loop in `memory.py` 374-377 -/
def writeCumulative (kv : String × Rat) (w : LogWrap T) : Res (LogWrap T) Unit :=
  match tagOf kv.1 with
  | .error e => (w, .error e)
  | .ok k => (w.write (.scalar (k ++ "/cumulative") kv.2 w.inferences), .ok ())

/-- The numbers in a histogram. -/
def histValues : HistLog → List Rat
  | .deque w => w.vals
  | .given xs => xs

/-- `_end_cycle` up to the first write, `memory.py` 340-349 -/
def logCycle (env : CycleEnv) (w : LogWrap T) : LogWrap T :=
  let l := w.logs.logScalar "training/inf_per_sec" ((w.inferences - w.cycleStartInfs : Int) / env.cycleTime)
  let l := l.logScalar "episode/completed" w.episodes
  { w with
    logs := env.timers.foldl (fun l t =>
      (l.logScalar ("memory/" ++ env.name ++ "/" ++ t.1 ++ "/timing/mean") t.2.1).logScalar
        ("memory/" ++ env.name ++ "/" ++ t.1 ++ "/timing/var") t.2.2) l }

/-- `_end_cycle`, `memory.py` 339-402 -/
def endCycle (env : CycleEnv) (w : LogWrap T) : Res (LogWrap T) Unit :=
  if env.cycleTime = 0 then (w, .error .zeroDivision)
  else
    Res.andThen (writeReward (logCycle env w)) fun w _ =>
    Res.andThen (Res.forEach w.logs.scalar (fun kv w => (w.write (.scalar kv.1 kv.2 w.inferences), .ok ())) w) fun w _ =>
    Res.andThen (Res.forEach w.logs.windowed writeWindow w) fun w _ =>
    Res.andThen (Res.forEach w.logs.cumulative writeCumulative w) fun w _ =>
    Res.andThen (Res.forEach w.logs.hist
      (fun kv w => (w.write (.histogram kv.1 (histValues kv.2) w.inferences), .ok ())) w) fun w _ =>
    if env.sinceStart = 0 then (w, .error .zeroDivision)
    else
      let w := (w.write (.scalar "performance/inf_steps_per_sec"
        ((w.inferences - w.infsAtStart : Int) / env.sinceStart) w.inferences)).write .flush
      ({ w with cycleStartInfs := w.inferences }, .ok ())

/-- `add` without the call of the wrapped proxy, `memory.py` 284-297. `x % 0` raises. -/
def addLogs (env : CycleEnv) (obs : Dict Int (Obs V MetaData)) (resp : Dict Int (Response V)) (w : LogWrap T) :
    Res (LogWrap T) Unit :=
  let w := { w with
    counter := w.counter + 1
    inferences := w.inferences + obs.length
    episodes := w.episodes + (obs.length - resp.length) }
  Res.andThen (Res.forEach obs.values reportObs w) fun w _ =>
  if w.interval = 0 then (w, .error .zeroDivision)
  else if w.counter % w.interval = 0 then
    Res.andThen (endCycle env w) fun w _ => ({ w with counter := 0 }, .ok ())
  else (w, .ok ())

/-- `add`, `memory.py` 279-299. `innerAdd` is the `add` of the wrapped proxy. -/
def add (innerAdd : Dict Int (Obs V MetaData) → Dict Int (Response V) → T → Res T Unit) (env : CycleEnv)
    (obs : Dict Int (Obs V MetaData)) (resp : Dict Int (Response V)) (w : LogWrap T) : Res (LogWrap T) Unit :=
  Res.andThen (addLogs env obs resp w) fun w _ =>
    Res.lift (fun t => { w with inner := t }) (innerAdd obs resp w.inner)

/-- `get_report` for one key (it goes over the set of the keys), `memory.py` 318-337: the scalars and the lists
that are added to the answer. -/
def getReport (key : String) (w : LogWrap T) : Except Err (List (String × Rat) × List (String × List Rat)) :=
  let rest : Except Err (List (String × Rat) × List (String × List Rat)) :=
    match w.logs.windowed.get? key with
    | some win => match win.mean with
      | .error e => .error e
      | .ok avg => match w.logs.cumulative.get? key with
        | none => .error .keyError
        | some c => .ok ([(key, avg), (key ++ "/cumulative", c)], [(key, win.vals)])
    | none => if key = "inf_step" then .ok ([(key, w.inferences)], []) else .ok ([], [])
  if "histogram:".toList.isPrefixOf key.toList then
    match w.logs.hist.get? (String.ofList (key.toList.drop 10)) with
    | some h =>
      if (histValues h).length = 0 then .error .zeroDivision
      else .ok ([(key, (histValues h).sum / (histValues h).length)], [])
    | none => rest
  else rest

end LogWrap

/-- `MemoryExporterProxyWrapper`, `memory.py` 405-436. -/
structure Exporter (T : Type u) where
  infStep : Int
  /-- `_inf_steps_per_memory_export` -/
  every : Int
  minTime : Rat
  nextExport : Int
  nextTime : Rat
  path : String
  inner : T
  deriving DecidableEq, Repr

namespace Exporter

variable {T : Type u}

/-- `memory.py` 408-436, at time `now`; `path` is what lines 458-460 put together. -/
def new (every : Int) (minTime now : Rat) (path : String) (inner : T) : Exporter T :=
  ⟨0, every, minTime, every, now + minTime, path, inner⟩

/-- `add` after the batch was added, `memory.py` 446-462 (the timing logs of 464-469 left out). -/
def maybeExport (innerStore : String → T → Res T Unit) (now : Rat) (e : Exporter T) : Res (Exporter T) Unit :=
  let enoughData := decide (e.infStep > e.nextExport)
  let enoughTime := decide (now > e.nextTime)
  let e := { e with infStep := e.infStep + 1 }
  if enoughData && enoughTime then
    let e := { e with nextExport := e.infStep + e.every, nextTime := now + e.minTime }
    Res.lift (fun t => { e with inner := t }) (innerStore e.path e.inner)
  else (e, .ok ())

/-- `add`, `memory.py` 438-469 -/
def add {C : Type v} (innerAdd : C → T → Res T Unit) (innerStore : String → T → Res T Unit) (now : Rat) (c : C)
    (e : Exporter T) : Res (Exporter T) Unit :=
  Res.andThen (Res.lift (fun t => { e with inner := t }) (innerAdd c e.inner)) fun e _ =>
    maybeExport innerStore now e

end Exporter

end Verif
