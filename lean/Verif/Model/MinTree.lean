import Verif.Model.SegmentTree
import Mathlib.Order.WithBot

/-!
# The segment tree for minima

`MinSegmentTree`, `emote/memory/segment_tree.py` 115-128. Numbers are exact; `⊤` is `float("inf")`, and there is no NaN.
-/

namespace Verif.MinTree

variable {α : Type u} [LinearOrder α]

/-- `MinSegmentTree.__init__`, `segment_tree.py` 116-119 -/
def new (capacity : Int) : Except Err (SegTree (WithTop α)) := SegTree.new capacity ⊤

/-- `tree[idx] = val`, `segment_tree.py` 63-70, with the operation `min` -/
def setItem (idx : Int) (v : WithTop α) (t : SegTree (WithTop α)) : Res (SegTree (WithTop α)) Unit :=
  SegTree.setItem Min.min idx v t

/-- `MinSegmentTree.min`, `segment_tree.py` 121-128 -/
def minimum (fuel : Nat) (start : Int) (stop : Option Int) (t : SegTree (WithTop α)) : Except Err (WithTop α) :=
  t.reduce Min.min fuel start stop

end Verif.MinTree
