import Verif.Model.Logging

/-!
# Reports of logged metrics

`TensorboardLogger` (`emote/callbacks/logging.py` 14-88), `WBLogger` (`emote/callbacks/wb_logger.py` 16-97) and `TerminalLogger`
(`emote/callbacks/logging.py` 91-120). A loggable
callback is its `Logs`. Numbers are exact. The time since the start is an argument. Images and videos, and what the
libraries do with what they are given, are not modelled.
-/

namespace Verif

namespace Report

/-- `c.join(parts)` -/
def joinChar (c : Char) : List (List Char) → List Char
  | [] => []
  | [p] => p
  | p :: q :: ps => p ++ c :: joinChar c (q :: ps)

/-- `k_split = k.split("/")` and so on, `logging.py` 40-42, `wb_logger.py` 49-51 -/
def rename (k : String) : String :=
  match splitChar '/' k.toList with
  | [] => k
  | p :: ps => String.ofList (joinChar '/' ((p ++ "_bp_step".toList) :: ps))

/-- The loop over `windowed_scalar`, `logging.py` 46-51, `wb_logger.py` 55-60 -/
def means : Dict String Window → Except Err (List (String × Rat))
  | [] => .ok []
  | (k, w) :: rest => match w.mean with
    | .error e => .error e
    | .ok m => match means rest with
      | .error e => .error e
      | .ok ms => .ok ((rename k, m) :: ms)

/-- What is reported of one callback, `logging.py` 39-58, `wb_logger.py` 48-67 -/
def ofLogs (l : Logs) : Except Err (List (String × Rat)) :=
  match means l.windowed with
  | .error e => .error e
  | .ok ms => .ok (l.scalar.map (fun kv => (rename kv.1, kv.2)) ++ ms ++
      l.cumulative.map (fun kv => (rename kv.1 ++ "/cumulative", kv.2)))

/-- The loop over the callbacks, `logging.py` 38, `wb_logger.py` 47 -/
def ofAll : List Logs → Except Err (List (String × Rat))
  | [] => .ok []
  | l :: ls => match ofLogs l with
    | .error e => .error e
    | .ok es => match ofAll ls with
      | .error e => .error e
      | .ok rest => .ok (es ++ rest)

/-- The numbers of `end_cycle` besides the logs: the steps and samples now and at the start, and the seconds between. -/
structure Clock where
  step : Rat
  samples : Rat
  step0 : Rat
  samples0 : Rat
  elapsed : Rat

/-- `TensorboardLogger.end_cycle`, `logging.py` 35-88: the tags, values and steps that are written. If it raises, what was
written before is lost here. -/
def tensorboard (cbs : List Logs) (c : Clock) : Except Err (List (String × Rat × Rat)) :=
  match ofAll cbs with
  | .error e => .error e
  | .ok es =>
    if c.elapsed = 0 then .error .zeroDivision
    else .ok ((es ++ [("performance/bp_samples_per_sec", (c.samples - c.samples0) / c.elapsed),
      ("performance/bp_steps_per_sec", (c.step - c.step0) / c.elapsed)]).map fun kv => (kv.1, kv.2, c.step))

/-- `WBLogger.end_cycle`, `wb_logger.py` 43-93: the dict that is given to `wandb.log` -/
def wandb (cbs : List Logs) (c : Clock) : Except Err (Dict String Rat) :=
  match ofAll cbs with
  | .error e => .error e
  | .ok es =>
    if c.elapsed = 0 then .error .zeroDivision
    else .ok (((((Dict.ofPairs es).set "performance/bp_samples_per_sec" ((c.samples - c.samples0) / c.elapsed)).set
      "performance/bp_steps_per_sec" ((c.step - c.step0) / c.elapsed))).set "log/bp_step" c.step)

/-- `TerminalLogger.log_scalars`, `logging.py` 104-117: the lines, each with the name, the step and the number (which is
printed with four digits) -/
def terminal (cbs : List Logs) (step : Rat) (suffix : Bool) : List (String × Rat × Rat) :=
  cbs.flatMap fun l => l.scalar.map fun kv => (if suffix then rename kv.1 else kv.1, step, kv.2)

/-- `TerminalLogger.end_cycle`, `logging.py` 119-120 -/
def terminalCycle (cbs : List Logs) (step : Rat) : List (String × Rat × Rat) := terminal cbs step false

end Report

end Verif
