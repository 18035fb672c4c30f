import Verif.Base.Res

/-!
# Sampling and ejection strategies

`emote/memory/strategy.py`, `fifo_strategy.py`, `uniform_strategy.py`,
`coverage_based_strategy.py`.

Sequence lengths are natural numbers, identities integers. All random numbers are arguments:

* `np.random.choice(ids, p)` is a natural number `d` which selects the entry number
  `d mod n` among the `n` entries with positive probability (so the possible outcomes are exactly
  those of positive probability; the probabilities themselves are in `Verif/Model/Prios.lean`);
* `int(random.random() * n)` is a natural number `d` reduced to the range of possible values
  (`truncDraw`), and `random.randint(0, b)` likewise.
-/

namespace Verif

/-- `(identity, start, end)`: `emote/memory/core_types.py` `SamplePoint`. -/
abbrev SamplePoint := Int × Int × Int

/-- All values `int(random.random() * n)` can take: `0 .. n-1` for positive `n`, and, since `int`
truncates towards zero, `n+1 .. 0` for negative `n`, and `0` for `n = 0`.
(`uniform_strategy.py` line 70. `random.random()` is `k/2^53` with `k < 2^53`; the product rounded to
a float is still below `n`, so rounding cannot produce `n` itself.) -/
def truncDraw (d : Nat) (n : Int) : Int :=
  if 0 < n then (d : Int) % n else if n < 0 then -((d : Int) % (-n)) else 0

/-- `random.randint(0, b)` (Python standard library): `ValueError` for an empty range. -/
def randint0 (d : Nat) (b : Int) : Except Err Int :=
  if b < 0 then .error .valueError else .ok ((d : Int) % (b + 1))

/-- `np.random.choice(ids, p=prios/sum)` for one draw. `prios` are the unnormalised weights; with
total weight zero numpy sees NaN probabilities. All failures are `ValueError`. -/
def choice (ids : List Int) (prios : List Nat) (d : Nat) : Except Err Int :=
  let support := ((ids.zip prios).filter (fun p => 0 < p.2)).map Prod.fst
  if ids.length ≠ prios.length then .error .valueError
  else match support[d % support.length]? with
    | none => .error .valueError
    | some id => .ok id

/-- `np.array(keys, dtype=np.int64)` fits. -/
def fitsInt64 (k : Int) : Bool := -2^63 ≤ k && k < 2^63

/-! ## FIFO: `fifo_strategy.py` -/

/-- `FifoStrategyBase` / `FifoSampleStrategy` / `FifoEjectionStrategy`, `fifo_strategy.py` 20-24 and
67-78: the deque of identities, the lengths, the import flag (`strategy.py` 13-14) and the two
sampling options (irrelevant for ejection). -/
structure Fifo where
  ids : List Int := []
  lens : Dict Int Nat := []
  inImport : Bool := false
  perEpisode : Bool := true
  randomOffset : Bool := true
  deriving Repr, DecidableEq

namespace Fifo

/-- `fifo_strategy.py` 26-35. -/
def track (s : Fifo) (id : Int) (len : Nat) : Res Fifo Unit :=
  if s.inImport then (s, .ok ())
  else if s.lens.contains id then (s, .error .assertionError)
  else ({ s with ids := s.ids ++ [id], lens := s.lens.set id len }, .ok ())

/-- `fifo_strategy.py` 37-39. `deque.remove` raises `ValueError` if the value is missing. -/
def forget (s : Fifo) (id : Int) : Res Fifo Unit :=
  if id ∈ s.ids then
    let s := { s with ids := s.ids.erase id }
    match s.lens.del? id with
    | some l => ({ s with lens := l }, .ok ())
    | none => (s, .error .keyError)
  else (s, .error .valueError)

/-- The ejection loop, `fifo_strategy.py` 122-132: `ids` is what is left of the deque from
`current_episode_offset` on. -/
def ejectLoop (lens : Dict Int Nat) : List Int → Int → Except Err (List Int)
  | ids, count =>
    if count ≤ 0 then .ok [] else
    match ids with
    | [] => .error .indexError
    | id :: rest =>
      match lens.get? id with
      | none => .error .keyError
      | some len => (ejectLoop lens rest (count - len)).map (id :: ·)

/-- `FifoEjectionStrategy.sample`, `fifo_strategy.py` 119-132. -/
def eject (s : Fifo) (count : Int) : Except Err (List Int) := ejectLoop s.lens s.ids count

/-- one step of sampling: the episode number `k` modulo the number of episodes
(`fifo_strategy.py` 86 and 97), with its length. -/
def episodeAt (s : Fifo) (k : Nat) : Except Err (Int × Nat) :=
  if s.ids.length = 0 then .error .zeroDivision
  else match s.ids[k % s.ids.length]? with
    | none => .error .indexError
    | some id => match s.lens.get? id with
      | none => .error .keyError
      | some len => .ok (id, len)

/-- `per_episode` branch, `fifo_strategy.py` 84-90: `left` more points, the next one for episode
number `k`. `r k` is the draw for the `k`-th point. -/
def samplePerEpisode (s : Fifo) (tc : Int) (r : Nat → Nat) : Nat → Nat → Except Err (List SamplePoint)
  | 0, _ => .ok []
  | left + 1, k => do
    let (id, len) ← s.episodeAt k
    let offset ← randint0 (r k) ((len : Int) - tc)
    let rest ← samplePerEpisode s tc r left (k + 1)
    .ok ((id, offset, offset + tc) :: rest)

/-- `fifo_strategy.py` 98-103. -/
def seqOffset (s : Fifo) (tc : Int) (d : Nat) (len : Nat) (off : Int) : Except Err Int :=
  if s.randomOffset then randint0 d ((len : Int) - tc) else .ok off

/-- `fifo_strategy.py` 106-110: the next `current_episode_offset` and `current_offset`. -/
def seqNext (tc : Int) (len ep : Nat) (off : Int) : Nat × Int :=
  let off' := off + tc
  if off' + tc > len then (ep + 1, 0) else (ep, off')

/-- other branch, `fifo_strategy.py` 92-110; `ep` is `current_episode_offset`, `off` is
`current_offset`, `k` the number of points so far (it only numbers the draws). The look-up of the
length in line 108 comes after the append in 105, which makes no difference: the partial list is
lost when it raises. In the non-random case the length is looked up in line 108 only. -/
def sampleSeq (s : Fifo) (tc : Int) (r : Nat → Nat) :
    Nat → Nat → Nat → Int → Except Err (List SamplePoint)
  | 0, _, _, _ => .ok []
  | left + 1, k, ep, off => do
    let (id, len) ← s.episodeAt ep
    let offset ← s.seqOffset tc (r k) len off
    let next := seqNext tc len ep off
    let rest ← sampleSeq s tc r left (k + 1) next.1 next.2
    .ok ((id, offset, offset + tc) :: rest)

/-- `FifoSampleStrategy.sample`, `fifo_strategy.py` 80-112 (`count` is a natural number: a
non-positive count gives no points in Python too). -/
def sample (s : Fifo) (count : Nat) (tc : Int) (r : Nat → Nat) : Except Err (List SamplePoint) :=
  if s.perEpisode then samplePerEpisode s tc r count 0 else sampleSeq s tc r count 0 0 0

end Fifo

/-! ## Uniform: `uniform_strategy.py` -/

/-- `UniformStrategyBase`, `uniform_strategy.py` 21-26. `ids`/`prios` are the snapshot taken by
`_rebalance`; the priorities are kept unnormalised. -/
structure Uniform where
  idents : Dict Int Nat := []
  ids : List Int := []
  prios : List Nat := []
  dirty : Bool := false
  inImport : Bool := false
  deriving Repr, DecidableEq

namespace Uniform

/-- `uniform_strategy.py` 28-30. -/
def track (s : Uniform) (id : Int) (len : Nat) : Res Uniform Unit :=
  ({ s with dirty := true, idents := s.idents.set id len }, .ok ())

/-- `uniform_strategy.py` 32-34. -/
def forget (s : Uniform) (id : Int) : Res Uniform Unit :=
  let s := { s with dirty := true }
  match s.idents.del? id with
  | some l => ({ s with idents := l }, .ok ())
  | none => (s, .error .keyError)

/-- `uniform_strategy.py` 36-39: the flag and the priorities are set before the conversion of the
identities to int64, which may overflow. -/
def rebalance (s : Uniform) : Res Uniform Unit :=
  let s := { s with dirty := false, prios := s.idents.values }
  if s.idents.keys.all fitsInt64 then ({ s with ids := s.idents.keys }, .ok ())
  else (s, .error .overflowError)

/-- `uniform_strategy.py` 60-61 and 81-82. -/
def refresh (s : Uniform) : Res Uniform Unit :=
  if s.dirty then s.rebalance else (s, .ok ())

/-- points for the chosen identities, `uniform_strategy.py` 69-71; `k` numbers the draws. -/
def points (idents : Dict Int Nat) (tc : Int) (r : Nat → Nat) :
    List Int → Nat → Except Err (List SamplePoint)
  | [], _ => .ok []
  | id :: rest, k =>
    match idents.get? id with
    | none => .error .keyError
    | some len => do
      let offset := truncDraw (r k) ((len : Int) - (tc - 1))
      let rest ← points idents tc r rest (k + 1)
      .ok ((id, offset, offset + tc) :: rest)

/-- `count` draws with `np.random.choice(..., size=count)`, `uniform_strategy.py` 63: the draws for
points `k, k+1, …`. -/
def choices (ids : List Int) (prios : List Nat) (c : Nat → Nat) : Nat → Nat → Except Err (List Int)
  | 0, _ => .ok []
  | left + 1, k => do
    let id ← choice ids prios (c k)
    let rest ← choices ids prios c left (k + 1)
    .ok (id :: rest)

/-- `UniformSampleStrategy.sample`, `uniform_strategy.py` 59-73. `c` are the identity draws, `r` the
offset draws. -/
def sample (s : Uniform) (count : Nat) (tc : Int) (c r : Nat → Nat) :
    Res Uniform (List SamplePoint) :=
  s.refresh.andThen fun s _ =>
    (s, do
      let chosen ← choices s.ids s.prios c count 0
      points s.idents tc r chosen 0)

/-- The rejection loop, `uniform_strategy.py` 84-93: `acc` is the set `identities` (in order of
insertion; Python's set order is arbitrary, which only affects the order of the deletions). -/
def ejectLoop (ids : List Int) (prios : List Nat) (idents : Dict Int Nat) :
    List Nat → Int → List Int → Except Err (List Int)
  | draws, count, acc =>
    if count ≤ 0 then .ok acc else
    match draws with
    | [] => .error .diverges
    | d :: ds =>
      match choice ids prios d with
      | .error e => .error e
      | .ok id =>
        if id ∈ acc then ejectLoop ids prios idents ds count acc
        else match idents.get? id with
          | none => .error .keyError
          | some len => ejectLoop ids prios idents ds (count - len) (acc ++ [id])

/-- `UniformEjectionStrategy.sample`, `uniform_strategy.py` 80-95. -/
def eject (s : Uniform) (count : Int) (draws : List Nat) : Res Uniform (List Int) :=
  s.refresh.andThen fun s _ => (s, ejectLoop s.ids s.prios s.idents draws count [])

end Uniform

/-! ## Coverage based: `coverage_based_strategy.py` -/

/-- `CoverageBasedStrategy`, `coverage_based_strategy.py` 21-28. The priorities are kept as what they are
computed from: `prios` are the lengths and `visits` the visit counts at the time of the last `_rebalance`.
The actual priorities (`Verif/Model/Prios.lean`) are the lengths times a positive factor depending on the
visit count, so the outcomes of positive probability are the same. -/
structure Coverage where
  idents : Dict Int Nat := []
  counts : Dict Int Nat := []
  ids : List Int := []
  prios : List Nat := []
  visits : List Nat := []
  dirty : Bool := false
  inImport : Bool := false
  deriving Repr, DecidableEq

namespace Coverage

/-- `coverage_based_strategy.py` 30-33. -/
def track (s : Coverage) (id : Int) (len : Nat) : Res Coverage Unit :=
  ({ s with dirty := true, idents := s.idents.set id len,
            counts := s.counts.set id (match s.counts.get? id with | some c => c | none => 0) },
    .ok ())

/-- `coverage_based_strategy.py` 35-38. -/
def forget (s : Coverage) (id : Int) : Res Coverage Unit :=
  let s := { s with dirty := true }
  match s.idents.del? id with
  | none => (s, .error .keyError)
  | some l =>
    let s := { s with idents := l }
    match s.counts.del? id with
    | none => (s, .error .keyError)
    | some c => ({ s with counts := c }, .ok ())

/-- `coverage_based_strategy.py` 40-51: the flag is set first, the identities are converted (and may
overflow) before the priorities are stored; a missing visit count is a `KeyError`. -/
def rebalance (s : Coverage) : Res Coverage Unit :=
  let s := { s with dirty := false }
  if s.idents.keys.all fitsInt64 then
    let s := { s with ids := s.idents.keys }
    if s.idents.keys.all s.counts.contains then
      ({ s with prios := s.idents.values, visits := s.idents.keys.filterMap s.counts.get? }, .ok ())
    else (s, .error .keyError)
  else (s, .error .overflowError)

/-- `coverage_based_strategy.py` 59-60 and 78-79. -/
def refresh (s : Coverage) : Res Coverage Unit :=
  if s.dirty then s.rebalance else (s, .ok ())

/-- the sampling loop, `coverage_based_strategy.py` 68-71: counts first, then the length. -/
def points (idents : Dict Int Nat) (tc : Int) (r : Nat → Nat) :
    List Int → Nat → Dict Int Nat → Res (Dict Int Nat) (List SamplePoint)
  | [], _, counts => (counts, .ok [])
  | id :: rest, k, counts =>
    match counts.get? id with
    | none => (counts, .error .keyError)
    | some n =>
      let counts := counts.set id (n + 1)
      match idents.get? id with
      | none => (counts, .error .keyError)
      | some len =>
        let offset := truncDraw (r k) ((len : Int) - (tc - 1))
        (points idents tc r rest (k + 1) counts).andThen fun counts rest =>
          (counts, .ok ((id, offset, offset + tc) :: rest))

/-- `CoverageBasedSampleStrategy.sample`, `coverage_based_strategy.py` 58-73. -/
def sample (s : Coverage) (count : Nat) (tc : Int) (c r : Nat → Nat) :
    Res Coverage (List SamplePoint) :=
  s.refresh.andThen fun s _ =>
    match Uniform.choices s.ids s.prios c count 0 with
    | .error e => (s, .error e)
    | .ok chosen =>
      Res.lift (fun counts => { s with counts := counts }) (points s.idents tc r chosen 0 s.counts)

/-- `CoverageBasedEjectionStrategy.sample`, `coverage_based_strategy.py` 77-92: the same loop as the
uniform one. -/
def eject (s : Coverage) (count : Int) (draws : List Nat) : Res Coverage (List Int) :=
  s.refresh.andThen fun s _ => (s, Uniform.ejectLoop s.ids s.prios s.idents draws count [])

end Coverage

/-! ## Any of the three -/

/-- A strategy object handed to the table. -/
inductive Strategy where
  | fifo (s : Fifo)
  | uniform (s : Uniform)
  | coverage (s : Coverage)
  deriving Repr, DecidableEq

namespace Strategy

/-- `track` of the concrete class. -/
def track (s : Strategy) (id : Int) (len : Nat) : Res Strategy Unit :=
  match s with
  | fifo s => Res.lift fifo (s.track id len)
  | uniform s => Res.lift uniform (s.track id len)
  | coverage s => Res.lift coverage (s.track id len)

/-- `forget` of the concrete class. -/
def forget (s : Strategy) (id : Int) : Res Strategy Unit :=
  match s with
  | fifo s => Res.lift fifo (s.forget id)
  | uniform s => Res.lift uniform (s.forget id)
  | coverage s => Res.lift coverage (s.forget id)

/-- `EjectionStrategy.sample` of the concrete class. -/
def eject (s : Strategy) (count : Int) (draws : List Nat) : Res Strategy (List Int) :=
  match s with
  | fifo s => (fifo s, s.eject count)
  | uniform s => Res.lift uniform (s.eject count draws)
  | coverage s => Res.lift coverage (s.eject count draws)

/-- `SampleStrategy.sample` of the concrete class. -/
def sample (s : Strategy) (count : Nat) (tc : Int) (c r : Nat → Nat) :
    Res Strategy (List SamplePoint) :=
  match s with
  | fifo s => (fifo s, s.sample count tc r)
  | uniform s => Res.lift uniform (s.sample count tc c r)
  | coverage s => Res.lift coverage (s.sample count tc c r)

/-- `begin_simple_import` / `end_simple_import`, `strategy.py` 62-69. -/
def setImport (s : Strategy) (b : Bool) : Strategy :=
  match s with
  | fifo s => fifo { s with inImport := b }
  | uniform s => uniform { s with inImport := b }
  | coverage s => coverage { s with inImport := b }

/-- A strategy as its constructor leaves it. -/
inductive Fresh : Strategy → Prop where
  | fifo (p r : Bool) : Fresh (fifo { perEpisode := p, randomOffset := r })
  | uniform : Fresh (uniform {})
  | coverage : Fresh (coverage {})

end Strategy

end Verif
