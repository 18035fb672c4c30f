import Verif.Model.RealDraws

/-!
# A memory that samples and ejects at random, with the numbers that the generators give

`emote/memory/table.py` with `UniformSampleStrategy` and `UniformEjectionStrategy`, over a whole history of added sequences and
batches. Both strategies read the same generator of numpy, and how much an ejection reads depends on what it reads, so that a
generator is here what it has still to give. What the columns show for the windows of a batch needs no random numbers and is left
out (see `RealDraws.tableSample`). Numbers are exact.
-/

namespace Verif

namespace UniformRun

open RealDraws (npChoice)

/-- The numbers, in `[0, 1)`, that a generator has still to give -/
abbrev Gen := Nat → ℝ

/-- After the next one -/
def rest (g : Gen) : Gen := fun n => g (n + 1)

/-- `np.random.choice(ids, size=n, p=weights)`, `uniform_strategy.py` 63 -/
noncomputable def choices (ids : List Int) (weights : List ℝ) : Nat → Gen → Except Err (List Int × Gen)
  | 0, u => .ok ([], u)
  | n + 1, u =>
    match npChoice ids weights (u 0) with
    | .error e => .error e
    | .ok id =>
      match choices ids weights n (rest u) with
      | .error e => .error e
      | .ok (chosen, u) => .ok (id :: chosen, u)

/-- The windows in the chosen sequences, with `random.random()`, `uniform_strategy.py` 69-71 -/
noncomputable def points (idents : Dict Int Nat) (tc : Int) : List Int → Gen → Except Err (List SamplePoint × Gen)
  | [], v => .ok ([], v)
  | id :: ids, v =>
    match idents.get? id with
    | none => .error .keyError
    | some len =>
      match points idents tc ids (rest v) with
      | .error e => .error e
      | .ok (pts, v') =>
        let offset := pyInt (v 0 * (((len : Int) - (tc - 1) : Int) : ℝ))
        .ok ((id, offset, offset + tc) :: pts, v')

/-- The loop of ejection, `uniform_strategy.py` 84-93: `acc` is the set of identities in order of insertion, and at most `fuel`
numbers are read. -/
noncomputable def ejectLoop (ids : List Int) (weights : List ℝ) (idents : Dict Int Nat) :
    Nat → Gen → Int → List Int → Except Err (List Int × Gen)
  | 0, u, count, acc => if count ≤ 0 then .ok (acc, u) else .error .diverges
  | fuel + 1, u, count, acc =>
    if count ≤ 0 then .ok (acc, u) else
    match npChoice ids weights (u 0) with
    | .error e => .error e
    | .ok id =>
      if id ∈ acc then ejectLoop ids weights idents fuel (rest u) count acc
      else match idents.get? id with
        | none => .error .keyError
        | some len => ejectLoop ids weights idents fuel (rest u) (count - len) (acc ++ [id])

variable {V : Type u}

/-- `_eject_count`, `table.py` 264-278, with `UniformEjectionStrategy.sample`, `uniform_strategy.py` 80-95. Other strategies are left
out here (an error). -/
noncomputable def eject (fuel : Nat) (count : Int) (t : Table V) (u : Gen) : Except Err (Table V × List Int × Gen) :=
  match t.ejector with
  | .uniform s =>
    match s.refresh with
    | (_, .error e) => .error e
    | (s, .ok _) =>
      match ejectLoop s.ids s.weights s.idents fuel u count [] with
      | .error e => .error e
      | .ok (ids, u) =>
        match Res.forEach ids Table.ejectOne { t with filled := true, ejector := .uniform s } with
        | (_, .error e) => .error e
        | (t, .ok _) => .ok (t, ids, u)
  | _ => .error .typeError

/-- The end of `_add_sequence_internal`, `table.py` 251-262: what comes after there is room -/
def store (id : Int) (len : Nat) (seq : Seqn V) (t : Table V) : Res (Table V) Unit :=
  (Res.forEach seq (Table.writeColumn id) t).andThen fun t _ =>
  let t := { t with total := t.total + len, lengths := t.lengths.set id len }
  (Res.lift (fun s => { t with sampler := s }) (t.sampler.track id len)).andThen fun t _ =>
  Res.lift (fun s => { t with ejector := s }) (t.ejector.track id len)

/-- `_add_sequence_internal`, `table.py` 239-262; the result has what was ejected. -/
noncomputable def add (fuel : Nat) (id : Int) (seq : Seqn V) (t : Table V) (u : Gen) : Except Err (Table V × List Int × Gen) :=
  match seq.get? t.lengthKey with
  | none => .error .keyError
  | some rows =>
    match (if t.total + rows.length > t.maxlen then eject fuel (t.total + rows.length - t.maxlen) t u else .ok (t, [], u)) with
    | .error e => .error e
    | .ok (t, ejected, u) =>
      match store (Table.wrapId id) rows.length seq t with
      | (_, .error e) => .error e
      | (t, .ok _) => .ok (t, ejected, u)

/-- `ArrayTable.sample`, `table.py` 196-208, up to the windows: `UniformSampleStrategy.sample`, `uniform_strategy.py` 59-73. Other
strategies are left out here (an error). -/
noncomputable def batch (count : Nat) (tc : Int) (t : Table V) (u v : Gen) : Except Err (Table V × List SamplePoint × Gen × Gen) :=
  match t.sampler with
  | .uniform s =>
    match s.refresh with
    | (_, .error e) => .error e
    | (s, .ok _) =>
      match choices s.ids s.weights count u with
      | .error e => .error e
      | .ok (chosen, u) =>
        match points s.idents tc chosen v with
        | .error e => .error e
        | .ok (pts, v) => .ok ({ t with sampler := .uniform s }, pts, u, v)
  | _ => .error .typeError

/-- What a memory is used for -/
inductive Event (V : Type u) where
  | add (id : Int) (seq : Seqn V)
  | batch (count : Nat)

/-- What happens -/
inductive Outcome where
  | added (ejected : List Int)
  | drawn (windows : List SamplePoint)
  deriving DecidableEq, Repr

/-- A history; `fuel` bounds how often an ejection may draw. -/
noncomputable def run (fuel : Nat) (tc : Int) : List (Event V) → Table V → Gen → Gen → Except Err (List Outcome × Table V)
  | [], t, _, _ => .ok ([], t)
  | .add id seq :: es, t, u, v =>
    match add fuel id seq t u with
    | .error e => .error e
    | .ok (t, ejected, u) =>
      match run fuel tc es t u v with
      | .error e => .error e
      | .ok (out, t) => .ok (.added ejected :: out, t)
  | .batch count :: es, t, u, v =>
    match batch count tc t u v with
    | .error e => .error e
    | .ok (t, pts, u, v) =>
      match run fuel tc es t u v with
      | .error e => .error e
      | .ok (out, t) => .ok (.drawn pts :: out, t)

end UniformRun

end Verif
