import Mathlib.Data.Rat.Defs
import Mathlib.Algebra.Order.Field.Rat
import Mathlib.Tactic.NormNum
import Verif.Base.Dict

/-!
# The system logger

`emote/extra/system_logger.py` 12-33. What the operating system says (resident bytes, load) is an argument. `log_scalar` sets a
scalar of the logging mixin (`Model/Logging.lean`). Numbers are exact.
-/

namespace Verif

namespace SysLog

/-- `SystemLogger`: `_previous_memory`, `_previous_bp_step`, and the scalars of the mixin -/
structure Logger where
  previousMemory : ℚ
  previousStep : Nat
  scalars : Dict String ℚ

/-- `memory_info().rss / (1024 * 1024)` -/
def mb (rss : Nat) : ℚ := rss / (1024 * 1024)

/-- `__init__`, 13-17 -/
def Logger.new (rss : Nat) : Logger := ⟨mb rss, 0, []⟩

/-- What a report finds. -/
structure Reading where
  step : Nat
  rss : Nat
  cpu : ℚ

/-- `end_cycle`, 19-33 -/
def Logger.endCycle (l : Logger) (r : Reading) : Logger :=
  let now := mb r.rss
  let scalars := Dict.set l.scalars "system/ram_usage_mb" now
  let memoryDelta := now - l.previousMemory
  let stepDelta : Int := (r.step : Int) - l.previousStep
  let scalars := if stepDelta > 0 then Dict.set scalars "system/ram_usage_growth_mb_step" (memoryDelta / stepDelta) else scalars
  ⟨now, r.step, Dict.set scalars "system/cpu_load" r.cpu⟩

def Logger.run (l : Logger) (rs : List Reading) : Logger := rs.foldl Logger.endCycle l

end SysLog

end Verif
