import Verif.Model.RealDraws
import Verif.Model.History

/-!
# A memory that is used without end

Sequences are added and batches are drawn, in any order. The sampler is uniform and the ejector needs no random numbers (FIFO).
-/

namespace Verif

namespace MemoryDraws

variable {V : Type u}

/-- A call of the memory: `add_sequence`, `table.py` 233-262, or `sample`, `table.py` 196-208. -/
inductive Call (V : Type u) where
  | add (id : Int) (seq : Seqn V)
  | batch (count : Nat)

/-- After `k` calls: the table, how many numbers each of the two generators has given, and the batches that were returned. The windows
have `n` transitions; `junk` is what new buffers contain, for each call. The first error ends it. -/
noncomputable def run (n : Nat) (u v : Nat → ℝ) (junk : Nat → String → Nat → Cell V) (t0 : Table V) (call : Nat → Call V) :
    Nat → Except Err (Table V × Nat × List (Dict String (List (Cell V))))
  | 0 => .ok (t0, 0, [])
  | k + 1 =>
    match run n u v junk t0 call k with
    | .error e => .error e
    | .ok (t, i, out) =>
      match call k with
      | .add id seq =>
        match Table.addSequence [] id seq t with
        | (_, .error e) => .error e
        | (t, .ok ()) => .ok (t, i, out)
      | .batch count =>
        match RealDraws.tableSample count n u v i (junk k) t with
        | (_, .error e) => .error e
        | (t, .ok batch) => .ok (t, i + count, out ++ [batch])

end MemoryDraws

end Verif
