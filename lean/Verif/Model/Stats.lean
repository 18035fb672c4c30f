import Mathlib.Algebra.Field.Basic
import Mathlib.Algebra.BigOperators.Group.List.Basic
import Verif.Base.Res

/-!
# Running statistics

`emote/utils/timed_call.py`. Numbers are elements of a field; `nan` is `none`.
-/

namespace Verif

namespace Stats

section

variable {K : Type u} [Field K]

/-- A `StatisticsAccumulator`, 28-45: how it begins, `add`, `current` -/
structure Tracker (σ : Type v) (K : Type u) where
  init : σ
  add : σ → K → σ
  current : σ → Option (K × K)

/-- `WelfordAccumulator`, 48-55 -/
structure Welford (K : Type u) where
  count : Nat
  mean : K
  differences : K
  deriving DecidableEq

/-- 57-66 -/
def Welford.add (w : Welford K) (value : K) : Welford K :=
  let count := w.count + 1
  let delta := value - w.mean
  let mean := w.mean + delta / count
  let delta2 := value - mean
  ⟨count, mean, w.differences + delta * delta2⟩

/-- 68-76 -/
def Welford.current (w : Welford K) : Option (K × K) :=
  if w.count = 0 then none else some (w.mean, w.differences / w.count)

def welford : Tracker (Welford K) K := ⟨⟨0, 0, 0⟩, Welford.add, Welford.current⟩

/-- `deque(maxlen).append`: the oldest goes when it is full -/
def append (maxlen : Nat) (values : List K) (value : K) : List K :=
  let values := values ++ [value]
  if maxlen < values.length then values.drop 1 else values

/-- `np.mean` -/
def npMean (values : List K) : K := values.sum / values.length

/-- `np.var` -/
def npVar (values : List K) : K := (values.map fun v => (v - npMean values) * (v - npMean values)).sum / values.length

/-- `MovingWindowAccumulator`, 79-99 -/
def window : Tracker (List K) K where
  init := []
  add := append 100
  current := fun values => if values.length = 0 then none else some (npMean values, npVar values)

/-- `TimedBlock`, 102-115 -/
structure Block (σ : Type v) (K : Type u) where
  tracker : σ
  start : Option K
  deriving DecidableEq

/-- `__enter__`, 117-118: `now` is `time.perf_counter()` -/
def Block.enter (b : Block σ K) (now : K) : Block σ K := { b with start := some now }

/-- `__exit__`, 120-121: the start is kept; `now - None` raises -/
def Block.exit (t : Tracker σ K) (b : Block σ K) (now : K) : Except Err (Block σ K) :=
  match b.start with
  | none => .error .typeError
  | some s => .ok { b with tracker := t.add b.tracker (now - s) }

/-- What a program does with `BlockTimers`: enter and leave `with timers.scope(name)` -/
inductive Event (K : Type u) where
  | enter (name : String) (now : K)
  | exit (name : String) (now : K)
  deriving DecidableEq

/-- `BlockTimers.scope`, 136-140: a `defaultdict` -/
def scope (t : Tracker σ K) (d : Dict String (Block σ K)) (name : String) : Block σ K :=
  match d.get? name with
  | some b => b
  | none => ⟨t.init, none⟩

/-- one event: the block is entered or left in place -/
def event (t : Tracker σ K) (d : Dict String (Block σ K)) : Event K → Except Err (Dict String (Block σ K))
  | .enter name now => .ok (d.set name ((scope t d name).enter now))
  | .exit name now => match (scope t d name).exit t now with
    | .ok b => .ok (d.set name b)
    | .error e => .error e

def run (t : Tracker σ K) : Dict String (Block σ K) → List (Event K) → Except Err (Dict String (Block σ K))
  | d, [] => .ok d
  | d, e :: es => match event t d e with
    | .ok d => run t d es
    | .error e => .error e

/-- `BlockTimers.stats`, 142-143 -/
def stats (t : Tracker σ K) (d : Dict String (Block σ K)) : Dict String (Option (K × K)) :=
  d.map fun p => (p.1, t.current p.2.tracker)

end

end Stats

end Verif
