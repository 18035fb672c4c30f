import Verif.Base.Dict

/-!
# Tracked sequences and ejection requests
-/

namespace Verif.Spec

/-- Total length of the tracked sequences whose identity is in `ids`. -/
def pickedTotal (l : List (Int × Nat)) (ids : List Int) : Nat :=
  ((l.filter fun p => p.1 ∈ ids).map Prod.snd).sum

/-- Total length of everything tracked. -/
def trackedTotal (l : List (Int × Nat)) : Nat := (l.map Prod.snd).sum

/-- A good answer to "free `count` transitions": distinct tracked identities whose total length is
enough, and it would not be enough without the last one picked. -/
structure Frees (l : List (Int × Nat)) (count : Int) (ids : List Int) : Prop where
  distinct : ids.Nodup
  tracked : ∀ id ∈ ids, ∃ n, (id, n) ∈ l
  enough : count ≤ pickedTotal l ids
  needed : ∀ pre last, ids = pre ++ [last] → (pickedTotal l pre : Int) < count

/-- The adjacent full windows of length `tc` of a sequence, from its start: `(id, start, end)`. -/
def tilesOf (tc : Nat) (p : Int × Nat) : List (Int × Int × Int) :=
  (List.range (p.2 / tc)).map fun (k : Nat) => (p.1, ((k * tc : Nat) : Int), ((k * tc + tc : Nat) : Int))

/-- The windows of all sequences, oldest sequence first. -/
def tiles (tc : Nat) (l : List (Int × Nat)) : List (Int × Int × Int) := l.flatMap (tilesOf tc)

end Verif.Spec
