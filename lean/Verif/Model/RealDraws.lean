import Verif.Model.Prios
import Verif.Model.Table

/-!
# Sampling with the numbers that the generators give

`Verif/Model/Strategy.lean` leaves open how outcomes depend on the numbers that the random generators give. Here they are
computed from these: `u` for those that `np.random.choice` reads, `v` for `random.random()`, all in `[0, 1)`; `i` is how many
of either were used before. Numbers are exact.
-/

namespace Verif

namespace RealDraws

/-- `p.cumsum()` in `np.random.choice`, `acc` being the sum of what is before -/
noncomputable def cumsum : ℝ → List ℝ → List ℝ
  | _, [] => []
  | acc, w :: ws => (acc + w) :: cumsum (acc + w) ws

open Classical in
/-- `cdf.searchsorted(u, side="right")`, for a `cdf` that increases -/
noncomputable def searchRight (cdf : List ℝ) (u : ℝ) : Nat := (cdf.filter (· ≤ u)).length

open Classical in
/-- One draw of `np.random.choice(ids, p=weights)`, `uniform_strategy.py` 63. All failures are `ValueError`. -/
noncomputable def npChoice (ids : List Int) (weights : List ℝ) (u : ℝ) : Except Err Int :=
  if ids.length ≠ weights.length then .error .valueError
  else if (∃ w ∈ weights, w < 0) ∨ weights.sum ≠ 1 then .error .valueError
  else match ids[searchRight (cumsum 0 weights) u]? with
    | none => .error .indexError
    | some id => .ok id

/-- `np.random.choice(ids, size=n, p=weights)`, `uniform_strategy.py` 63 -/
noncomputable def choices (ids : List Int) (weights : List ℝ) (u : Nat → ℝ) : Nat → Nat → Except Err (List Int)
  | 0, _ => .ok []
  | n + 1, i =>
    match npChoice ids weights (u i) with
    | .error e => .error e
    | .ok id =>
      match choices ids weights u n (i + 1) with
      | .error e => .error e
      | .ok rest => .ok (id :: rest)

/-- The windows in the chosen sequences, `uniform_strategy.py` 69-71 -/
noncomputable def points (idents : Dict Int Nat) (tc : Int) (v : Nat → ℝ) : List Int → Nat → Except Err (List SamplePoint)
  | [], _ => .ok []
  | id :: ids, i =>
    match idents.get? id with
    | none => .error .keyError
    | some len =>
      match points idents tc v ids (i + 1) with
      | .error e => .error e
      | .ok rest =>
        let offset := pyInt (v i * (((len : Int) - (tc - 1) : Int) : ℝ))
        .ok ((id, offset, offset + tc) :: rest)

/-- `UniformSampleStrategy.sample`, `uniform_strategy.py` 59-73 -/
noncomputable def sample (s : Uniform) (count : Nat) (tc : Int) (u v : Nat → ℝ) (i : Nat) : Res Uniform (List SamplePoint) :=
  s.refresh.andThen fun s _ =>
    (s, match choices s.ids s.weights u count i with
      | .error e => .error e
      | .ok chosen => points s.idents tc v chosen i)

/-- Some calls in a row, for `count` windows each, with nothing added or ejected in between -/
noncomputable def samples (count : Nat) (tc : Int) (u v : Nat → ℝ) : Nat → Uniform → Nat → Except Err (List (List SamplePoint))
  | 0, _, _ => .ok []
  | m + 1, s, i =>
    match sample s count tc u v i with
    | (_, .error e) => .error e
    | (s, .ok pts) =>
      match samples count tc u v m s (i + count) with
      | .error e => .error e
      | .ok rest => .ok (pts :: rest)

/-- The loop of ejection, `uniform_strategy.py` 84-93 and `coverage_based_strategy.py` 81-90, with the numbers that `np.random.choice`
reads; `acc` is the set of identities in order of insertion. -/
noncomputable def ejectLoop (ids : List Int) (weights : List ℝ) (idents : Dict Int Nat) :
    List ℝ → Int → List Int → Except Err (List Int)
  | us, count, acc =>
    if count ≤ 0 then .ok acc else
    match us with
    | [] => .error .diverges
    | u :: us =>
      match npChoice ids weights u with
      | .error e => .error e
      | .ok id =>
        if id ∈ acc then ejectLoop ids weights idents us count acc
        else match idents.get? id with
          | none => .error .keyError
          | some len => ejectLoop ids weights idents us (count - len) (acc ++ [id])

/-- `UniformEjectionStrategy.sample`, `uniform_strategy.py` 80-95 -/
noncomputable def ejectUniform (s : Uniform) (count : Int) (us : List ℝ) : Res Uniform (List Int) :=
  s.refresh.andThen fun s _ => (s, ejectLoop s.ids s.weights s.idents us count [])

/-- `CoverageBasedEjectionStrategy.sample`, `coverage_based_strategy.py` 77-92 -/
noncomputable def ejectCoverage (alpha : ℝ) (s : Coverage) (count : Int) (us : List ℝ) : Res Coverage (List Int) :=
  s.refresh.andThen fun s _ => (s, ejectLoop s.ids (s.weights alpha) s.idents us count [])

/-! ### A table with the uniform sampler -/

/-- `ArrayTable.sample`, `table.py` 196-208, as `Table.sample`. Other samplers are left out here (an error). -/
noncomputable def tableSample {V : Type u} (count n : Nat) (u v : Nat → ℝ) (i : Nat) (junk : String → Nat → Cell V) (t : Table V) :
    Res (Table V) (Dict String (List (Cell V))) :=
  match t.sampler with
  | .uniform s =>
    (Res.lift (fun s => { t with sampler := .uniform s }) (sample s count n u v i)).andThen fun t pts =>
      Table.gather count n pts junk t.data t
  | _ => (t, .error .typeError)

/-- Some batches in a row, with nothing added or ejected in between; `junk` is what new buffers contain, for each batch. -/
noncomputable def tableSamples {V : Type u} (count n : Nat) (u v : Nat → ℝ) (junk : Nat → String → Nat → Cell V) :
    Nat → Table V → Nat → Except Err (List (Dict String (List (Cell V))))
  | 0, _, _ => .ok []
  | m + 1, t, i =>
    match tableSample count n u v i (junk i) t with
    | (_, .error e) => .error e
    | (t, .ok out) =>
      match tableSamples count n u v junk m t (i + count) with
      | .error e => .error e
      | .ok rest => .ok (out :: rest)

end RealDraws

end Verif
