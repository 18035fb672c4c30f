import Mathlib.Algebra.Order.Floor.Ring
import Mathlib.Algebra.Order.Field.Basic
import Mathlib.Analysis.SpecialFunctions.Trigonometric.Basic
import Verif.Base.Res

/-!
# Schedules

`emote/extra/schedules.py` and `truncated_linear` of `emote/utils/math.py`. Numbers are elements of an ordered field with
a floor (the cosine ones: real numbers): rounding is left out. Division by zero raises, and so does a power of 2 that is
too large for a Python float.
-/

namespace Verif

namespace Sched

section

variable {K : Type u} [Field K] [LinearOrder K]

/-- `truncated_linear`, `math.py` 7-28 -/
def truncatedLinear (minX maxX minY maxY x : K) : K :=
  if maxX - minX < 1 / 10 ^ 10 then maxY
  else if x ≤ minX then minY
  else
    let dx := (x - minX) / (maxX - minX)
    let dx := min dx 1
    dx * (maxY - minY) + minY

/-- `BPStepScheduler`, `schedules.py` 8-18 -/
structure BPStep (K : Type u) where
  begin_ : K
  end_ : K
  min : K
  max : K

def BPStep.evaluateAt (s : BPStep K) (bp : K) : K := truncatedLinear s.begin_ s.end_ s.min s.max bp

/-- The fields of a `Schedule`, 21-35: `steps` is the number of steps (half a period for the cyclic one) -/
structure Schedule (K : Type u) where
  initial : K
  final : K
  steps : Int
  count : Int
  value : K
  deriving DecidableEq

/-- 22-28 -/
def Schedule.new (initial final : K) (steps : Int) : Schedule K := ⟨initial, final, steps, 0, initial⟩

/-- Several steps. -/
def steps (step : Schedule K → Except Err (Schedule K)) : Nat → Schedule K → Except Err (Schedule K)
  | 0, s => .ok s
  | n + 1, s => match step s with
    | .ok s => steps step n s
    | .error e => .error e

variable [FloorRing K]

/-- `LinearSchedule.step`, 76-85; `stairs` is `staircase_steps` if `use_staircase` is set -/
def linearStep (stairs : Option Int) (s : Schedule K) : Except Err (Schedule K) :=
  if s.steps = 0 then .error .zeroDivision
  else
    let fraction : K := s.count / s.steps
    match stairs with
    | none => .ok { s with value := s.initial + min fraction 1 * (s.final - s.initial), count := s.count + 1 }
    | some ss =>
      if ss = 0 then .error .zeroDivision
      else
        let fraction : K := ⌊fraction * ss⌋ / ss
        .ok { s with value := s.initial + min fraction 1 * (s.final - s.initial), count := s.count + 1 }

/-- The scale functions of `CyclicSchedule`, 115-125. A mode that does not exist leaves the attribute unset; `2.0 ** n`
raises for `n` above 1023. -/
def cyclicScale (mode : String) (cycle : Int) : Except Err K :=
  if mode = "triangular" then .ok 1
  else if mode = "triangular2" then
    if cycle - 1 ≥ 1024 then .error .overflowError else .ok (1 / 2 ^ (cycle - 1))
  else .error .attributeError

/-- `CyclicSchedule.step`, 127-135 -/
def cyclicStep (mode : String) (s : Schedule K) : Except Err (Schedule K) :=
  if s.steps = 0 then .error .zeroDivision
  else
    let cycle : Int := ⌊1 + (s.count : K) / (2 * s.steps)⌋
    let x : K := |(s.count : K) / s.steps - 2 * cycle + 1|
    match cyclicScale mode cycle with
    | .error e => .error e
    | .ok scale =>
      .ok { s with value := s.initial + (s.final - s.initial) * max 0 (1 - x) * scale, count := s.count + 1 }

end

open Real

/-- `CosineAnnealing.step`, 150-161 -/
noncomputable def cosineStep (s : Schedule ℝ) : Except Err (Schedule ℝ) :=
  if s.count > 0 then
    if s.steps = 0 then .error .zeroDivision
    else if (s.count - 1 - s.steps).fmod (2 * s.steps) = 0 then
      .ok { s with value := s.value + (s.initial - s.final) * (1 - cos (π / s.steps)) / 2, count := s.count + 1 }
    else if 1 + cos (π * (s.count - 1) / s.steps) = 0 then .error .zeroDivision
    else
      .ok { s with
        value := (1 + cos (π * s.count / s.steps)) / (1 + cos (π * (s.count - 1) / s.steps)) * (s.value - s.final) + s.final
        count := s.count + 1 }
  else .ok { s with count := s.count + 1 }

/-- `CosineAnnealingWarmRestarts.step`, 176-187 -/
noncomputable def restartStep (s : Schedule ℝ) : Except Err (Schedule ℝ) :=
  if s.count ≥ s.steps ∧ s.steps = 0 then .error .zeroDivision
  else
    let count := if s.count ≥ s.steps then s.count.fmod s.steps else s.count
    if s.steps = 0 then .error .zeroDivision
    else
      .ok { s with
        value := s.final + (s.initial - s.final) * (1 + cos (π * count / s.steps)) / 2
        count := count + 1 }

end Sched

end Verif
