import Verif.Base.Res
import Mathlib.Algebra.Order.Field.Basic

/-!
# Segment trees

`emote/memory/segment_tree.py`. Numbers are exact.
-/

namespace Verif

/-- `SegmentTree.__init__`, `segment_tree.py` 24-29: the capacity and the list of values. The operation is a
parameter of the methods. -/
structure SegTree (α : Type u) where
  capacity : Nat
  value : List α
  deriving DecidableEq, Repr

namespace SegTree

variable {α : Type u}

/-- `segment_tree.py` 24-29. `capacity & (capacity - 1) == 0`. -/
def new (capacity : Int) (neutral : α) : Except Err (SegTree α) :=
  if 0 < capacity ∧ capacity.toNat &&& (capacity.toNat - 1) = 0 then
    .ok ⟨capacity.toNat, List.replicate (2 * capacity.toNat) neutral⟩
  else .error .assertionError

/-- List indexing in Python: negative indices count from the end. -/
def pyIndex (n : Nat) (i : Int) : Option Nat :=
  if 0 ≤ i ∧ i < n then some i.toNat
  else if i < 0 ∧ -n ≤ i then some (i + n).toNat
  else none

/-- `self._value[i]`. -/
def val (t : SegTree α) (i : Int) : Except Err α :=
  match pyIndex t.value.length i with
  | none => .error .indexError
  | some k => match t.value[k]? with
    | none => .error .indexError
    | some v => .ok v

/-- `_reduce_helper`, `segment_tree.py` 31-44. `fuel` is the number of nested calls that Python allows;
one more is a `RecursionError`, here `diverges`. -/
def reduceHelper (op : α → α → α) (t : SegTree α) : Nat → Int → Int → Int → Int → Int → Except Err α
  | 0, _, _, _, _, _ => .error .diverges
  | fuel + 1, start, stop, node, nodeStart, nodeEnd =>
    if start = nodeStart ∧ stop = nodeEnd then t.val node
    else
      let mid := (nodeStart + nodeEnd) / 2
      if stop ≤ mid then reduceHelper op t fuel start stop (2 * node) nodeStart mid
      else if mid + 1 ≤ start then reduceHelper op t fuel start stop (2 * node + 1) (mid + 1) nodeEnd
      else do
        let l ← reduceHelper op t fuel start mid (2 * node) nodeStart mid
        let r ← reduceHelper op t fuel (mid + 1) stop (2 * node + 1) (mid + 1) nodeEnd
        .ok (op l r)

/-- `reduce`, `segment_tree.py` 46-61. -/
def reduce (op : α → α → α) (fuel : Nat) (start : Int) (stop : Option Int) (t : SegTree α) : Except Err α :=
  let stop : Int := match stop with
    | none => (t.capacity : Int)
    | some e => e
  let stop : Int := if stop < 0 then stop + t.capacity else stop
  reduceHelper op t fuel start (stop - 1) 1 0 ((t.capacity : Int) - 1)

/-- The loop of `__setitem__`, `segment_tree.py` 67-70; the index halves each time, so `idx` rounds are
enough. -/
def fixUp (op : α → α → α) : Nat → Nat → SegTree α → Res (SegTree α) Unit
  | 0, _, t => (t, .ok ())
  | fuel + 1, idx, t =>
    if 1 ≤ idx then
      match t.value[2 * idx]?, t.value[2 * idx + 1]? with
      | some l, some r => fixUp op fuel (idx / 2) { t with value := t.value.set idx (op l r) }
      | _, _ => (t, .error .indexError)
    else (t, .ok ())

/-- `__setitem__`, `segment_tree.py` 63-70. There is no check of the index. -/
def setItem (op : α → α → α) (idx : Int) (v : α) (t : SegTree α) : Res (SegTree α) Unit :=
  let i := idx + t.capacity
  match pyIndex t.value.length i with
  | none => (t, .error .indexError)
  | some k =>
    let t := { t with value := t.value.set k v }
    let up := i / 2
    if 1 ≤ up then fixUp op up.toNat up.toNat t else (t, .ok ())

/-- `__getitem__`, `segment_tree.py` 72-74. -/
def getItem (idx : Int) (t : SegTree α) : Except Err α :=
  if 0 ≤ idx ∧ idx < t.capacity then t.val (t.capacity + idx) else .error .assertionError

section Sum

variable [Field α] [LinearOrder α] [IsStrictOrderedRing α]

/-- The loop of `find_prefixsum_idx`, `segment_tree.py` 105-112; the index at least doubles, so `capacity`
rounds are enough. -/
def findLoop (t : SegTree α) : Nat → Nat → α → Except Err Nat
  | 0, _, _ => .error .diverges
  | fuel + 1, idx, p =>
    if idx < t.capacity then
      match t.value[2 * idx]? with
      | none => .error .indexError
      | some v => if v > p then findLoop t fuel (2 * idx) p else findLoop t fuel (2 * idx + 1) (p - v)
    else .ok (idx - t.capacity)

/-- `find_prefixsum_idx`, `segment_tree.py` 92-112; `eps` is the tolerance 1e-5. -/
def findPrefixSum (eps : α) (fuel : Nat) (p : α) (t : SegTree α) : Except Err Nat :=
  match t.reduce (· + ·) fuel 0 none with
  | .error e => .error e
  | .ok s => if 0 ≤ p ∧ p ≤ s + eps then findLoop t (t.capacity + 1) 1 p else .error .assertionError

end Sum

end SegTree

end Verif
