import Verif.Model.SegmentTree
import Mathlib.Data.Real.Basic

/-!
# Drawing with a segment tree

`emote/memory/segment_tree.py`: `SumSegmentTree`, used as its documentation says ("allows to sample indexes according to the
discrete probability"), with weights that are changed in between. Numbers are exact.
-/

namespace Verif

namespace TreeDraws

/-- `SumSegmentTree.__init__`, `segment_tree.py` 77-81 -/
noncomputable def create (capacity : Int) : Except Err (SegTree ℝ) := SegTree.new capacity 0

/-- `SumSegmentTree.sum`, `segment_tree.py` 83-90; `fuel` is how deep Python may recurse. -/
noncomputable def total (fuel : Nat) (start : Int) (stop : Option Int) (t : SegTree ℝ) : Except Err ℝ :=
  t.reduce (· + ·) fuel start stop

/-- `tree[i] = w` for some pairs (`__setitem__`, `segment_tree.py` 63-70) -/
noncomputable def assign (writes : List (Nat × ℝ)) : SegTree ℝ → Res (SegTree ℝ) Unit :=
  Res.forEach writes fun w => SegTree.setItem (· + ·) w.1 w.2

/-- One draw: `tree.find_prefixsum_idx(x * tree.sum())`, with a number `x` from `[0, 1)` (`segment_tree.py` 83-112) -/
noncomputable def draw (eps : ℝ) (fuel : Nat) (x : ℝ) (t : SegTree ℝ) : Except Err Nat :=
  match total fuel 0 none t with
  | .error e => .error e
  | .ok s => SegTree.findPrefixSum eps fuel (x * s) t

/-- Some draws; before each one, weights are changed, and how may depend on what was drawn so far. -/
noncomputable def draws (eps : ℝ) (fuel : Nat) (writes : List Nat → List (Nat × ℝ)) :
    Nat → List Nat → SegTree ℝ → (Nat → ℝ) → Except Err (List Nat)
  | 0, drawn, _, _ => .ok drawn
  | n + 1, drawn, t, x =>
    match assign (writes drawn) t with
    | (_, .error e) => .error e
    | (t, .ok _) =>
      match draw eps fuel (x 0) t with
      | .error e => .error e
      | .ok i => draws eps fuel writes n (drawn ++ [i]) t (fun k => x (k + 1))

end TreeDraws

end Verif
