import Verif.Model.CoverageRun
import Verif.Model.RealDraws

/-!
# A uniform sampler over a history

As `Verif/Model/CoverageRun.lean`, for `UniformSampleStrategy`. Sequences come and go between the batches.
-/

namespace Verif

namespace UniformDraws

open Verif.CoverageRun (Event)

/-- A history of calls of the sampler; the result is what the batches were, or the first error. `track` and `forget` are
`uniform_strategy.py` 28-34 (called in `table.py` 261 and 277), a batch is `uniform_strategy.py` 59-73 (called in `table.py` 206). -/
noncomputable def run (tc : Int) (u v : Nat → ℝ) : List Event → Uniform → Nat → Except Err (List (List SamplePoint))
  | [], _, _ => .ok []
  | .track id len :: es, s, i =>
    match s.track id len with
    | (_, .error e) => .error e
    | (s, .ok _) => run tc u v es s i
  | .forget id :: es, s, i =>
    match s.forget id with
    | (_, .error e) => .error e
    | (s, .ok _) => run tc u v es s i
  | .batch count :: es, s, i =>
    match RealDraws.sample s count tc u v i with
    | (_, .error e) => .error e
    | (s, .ok pts) =>
      match run tc u v es s (i + count) with
      | .error e => .error e
      | .ok rest => .ok (pts :: rest)

end UniformDraws

end Verif
