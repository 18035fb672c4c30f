import Verif.Model.RealDraws

/-!
# The coverage-based sampler with the numbers that the generators give, over a whole history

As `Verif/Model/RealDraws.lean`; here the visits are counted too, and sequences come and go between the batches.
-/

namespace Verif

namespace CoverageRun

open RealDraws

/-- The loop over the chosen sequences, `coverage_based_strategy.py` 68-71: the visit is counted first, then the length is looked up. -/
noncomputable def points (idents : Dict Int Nat) (tc : Int) (v : Nat → ℝ) :
    List Int → Nat → Dict Int Nat → Res (Dict Int Nat) (List SamplePoint)
  | [], _, counts => (counts, .ok [])
  | id :: ids, i, counts =>
    match counts.get? id with
    | none => (counts, .error .keyError)
    | some n =>
      match idents.get? id with
      | none => (counts.set id (n + 1), .error .keyError)
      | some len =>
        let offset := pyInt (v i * (((len : Int) - (tc - 1) : Int) : ℝ))
        (points idents tc v ids (i + 1) (counts.set id (n + 1))).andThen fun counts rest =>
          (counts, .ok ((id, offset, offset + tc) :: rest))

/-- `CoverageBasedSampleStrategy.sample`, `coverage_based_strategy.py` 58-73 -/
noncomputable def sample (alpha : ℝ) (s : Coverage) (count : Nat) (tc : Int) (u v : Nat → ℝ) (i : Nat) :
    Res Coverage (List SamplePoint) :=
  s.refresh.andThen fun s _ =>
    match choices s.ids (s.weights alpha) u count i with
    | .error e => (s, .error e)
    | .ok chosen => Res.lift (fun counts => { s with counts := counts }) (points s.idents tc v chosen i s.counts)

/-- What the table does with its sampler: `track` after a sequence was added (`table.py` 261), `forget` when it is ejected
(`table.py` 277), and `sample` for a batch (`table.py` 206). -/
inductive Event where
  | track (id : Int) (len : Nat)
  | forget (id : Int)
  | batch (count : Nat)
  deriving DecidableEq, Repr

/-- A history of such calls; the result is what the batches were, or the first error. -/
noncomputable def run (alpha : ℝ) (tc : Int) (u v : Nat → ℝ) : List Event → Coverage → Nat → Except Err (List (List SamplePoint))
  | [], _, _ => .ok []
  | .track id len :: es, s, i =>
    match s.track id len with
    | (_, .error e) => .error e
    | (s, .ok _) => run alpha tc u v es s i
  | .forget id :: es, s, i =>
    match s.forget id with
    | (_, .error e) => .error e
    | (s, .ok _) => run alpha tc u v es s i
  | .batch count :: es, s, i =>
    match sample alpha s count tc u v i with
    | (_, .error e) => .error e
    | (s, .ok pts) =>
      match run alpha tc u v es s (i + count) with
      | .error e => .error e
      | .ok rest => .ok (pts :: rest)

end CoverageRun

end Verif
