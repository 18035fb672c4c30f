import Verif.Model.Table
import Verif.Spec.Replay

/-!
# Histories of calls on a table

Not code of `/repo`: how clients use `ArrayMemoryTable`. A history is a list of calls.
-/

namespace Verif

open Spec

variable {V : Type u}

/-- A well formed sequence for the table: names are columns of the table, and all physical columns
are there. -/
structure SeqOk (t : Table V) (seq : Seqn V) : Prop where
  names : seq.keys.Nodup
  known : ∀ n ∈ seq.keys, n ∈ t.columns.keys
  complete : ∀ p ∈ t.columns, (p.2 = .plain ∨ p.2 = .tag) → p.1 ∈ seq.keys

/-- The rows of a column of a sequence. -/
def rowsOf (seq : Seqn V) (name : String) : List V :=
  match seq.get? name with
  | some r => r
  | none => []

/-- The episode described by a sequence. -/
def entryOf (id : Int) (len : Nat) (seq : Seqn V) : Entry V := ⟨id, len, rowsOf seq⟩

/-- A call, with the random numbers used in it. -/
inductive Op (V : Type u) where
  | add (id : Int) (seq : Seqn V) (draws : List Nat)
  | resize (n : Int)
  | sample (count n : Nat) (c r : Nat → Nat) (junk : String → Nat → Cell V)

/-- `Run t0 ops t`: the calls `ops` lead from `t0` to `t`. Adds are well formed, use an identity
that is not stored at that time, and return normally; so do resizes. A sample may return or raise
(except that identities do not fit into int64). -/
inductive Run (t0 : Table V) : List (Op V) → Table V → Prop where
  | nil : Run t0 [] t0
  | add {ops t t' id seq draws} : Run t0 ops t → SeqOk t seq →
      Table.wrapId id ∉ t.lengths.keys →
      Table.addSequence draws id seq t = (t', .ok ()) → Run t0 (ops ++ [.add id seq draws]) t'
  | resize {ops t t' n} : Run t0 ops t → Table.resize t n = (t', .ok ()) →
      Run t0 (ops ++ [.resize n]) t'
  | sample {ops t t' count n c r junk x} : Run t0 ops t →
      Table.sample count n c r junk t = (t', x) → x ≠ .error .overflowError →
      Run t0 (ops ++ [.sample count n c r junk]) t'

/-- A table as built by the constructor, with new strategy objects. -/
structure Created (columns : List Column) (maxlen : Int) (lengthKey : String) (t : Table V) :
    Prop where
  nonneg : 0 ≤ maxlen
  ok : ∃ s e : Strategy, s.Fresh ∧ e.Fresh ∧ Table.new columns maxlen s e lengthKey = (t, .ok ())

/-- Virtual columns are computed from plain columns (true for all tables of `builder.py`). -/
def WellTargeted (columns : List Column) : Prop :=
  ∀ c ∈ columns, ∀ k tgt, c.kind = .virt k tgt →
    (Dict.ofPairs (columns.map fun c => (c.name, c.kind))).get? tgt = some .plain

/-- The effect of a call on the abstract memory. -/
def Op.toAct (lengthKey : String) : Op V → Option (Act V)
  | .add id seq _ => some (.add (entryOf (Table.wrapId id) (rowsOf seq lengthKey).length seq))
  | .resize n => some (.resize n)
  | .sample .. => none

/-- The abstract actions of a history. -/
def acts (lengthKey : String) (ops : List (Op V)) : List (Act V) :=
  ops.filterMap (Op.toAct lengthKey)

end Verif
