import Verif.Model.Loader

/-!
# Waiting for data

`MemoryWarmup`, `emote/memory/memory.py` 560-592. The data comes from other threads, so what the callback sees of the
world is an argument: one `Round` for each turn of its loop. Sleeping is not modelled.
-/

namespace Verif

namespace Warmup

/-- One turn of the loop: the size of the table when it looks, how processing the exports ends, what the shutdown
signal says. The last two are only asked if there is not enough data. -/
structure Round where
  size : Int
  exports : Except Err Unit
  stop : Except Err Bool

/-- How `begin_training` ends; `waiting` if it is still in the loop after the given rounds. -/
inductive Outcome where
  | returned
  | shutdown
  | raised (e : Err)
  | waiting
  deriving DecidableEq

/-- `exporter` and `shutdown_signal` may be `None`, 571-582 -/
structure Config where
  loader : Loader
  exporter : Bool
  signal : Bool

/-- `if self._exporter: …`, 588-589 -/
def exportsOf (cfg : Config) (r : Round) : Except Err Unit := if cfg.exporter then r.exports else .ok ()

/-- `self._shutdown_signal()`, 582 and 591 -/
def stopOf (cfg : Config) (r : Round) : Except Err Bool := if cfg.signal then r.stop else .ok false

/-- `begin_training`, 584-592, with the number of times the exports were processed -/
def beginTraining (cfg : Config) : List Round → Outcome × Nat
  | [] => (.waiting, 0)
  | r :: rs =>
    if cfg.loader.isReady (D := Unit) ⟨r.size, fun _ _ => .ok []⟩ then (.returned, 0)
    else
      let n := if cfg.exporter then 1 else 0
      match exportsOf cfg r with
      | .error e => (.raised e, n)
      | .ok () => match stopOf cfg r with
        | .error e => (.raised e, n)
        | .ok true => (.shutdown, n)
        | .ok false =>
          let x := beginTraining cfg rs
          (x.1, n + x.2)

end Warmup

end Verif
