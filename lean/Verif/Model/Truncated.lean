import Mathlib.Algebra.Order.Field.Basic

/-!
# Truncated normal numbers

`truncated_normal_` in `emote/utils/math.py` 32-50. The tensor is the list of its entries; numbers are of an ordered field. The
random number generator is `draw round tensor j`, the number at place `j` of the tensor that `torch.normal` returns in a round; it
may depend on the tensor (which is only used to say which entry gets which number). The loop may not end, so it gets a number of
rounds; `none` means that it is still running.
-/

namespace Verif

namespace Trunc

variable {R : Type} [Field R] [LinearOrder R]

/-- `cond` at one entry, 45 -/
def violates (mean std x : R) : Bool := decide (x < mean - 2 * std) || decide (mean + 2 * std < x)

/-- `tensor[cond] = draws`, 49: the entries where the condition holds are replaced, in order -/
def fill (cond : R → Bool) (draws : Nat → R) : Nat → List R → List R
  | _, [] => []
  | j, x :: xs => if cond x then draws j :: fill cond draws (j + 1) xs else x :: fill cond draws j xs

/-- The loop, 44-49 -/
def loop (cond : R → Bool) (draw : Nat → List R → Nat → R) : Nat → Nat → List R → Option (List R)
  | 0, _, _ => none
  | fuel + 1, round, xs =>
    if (xs.filter cond).length = 0 then some xs
    else loop cond draw fuel (round + 1) (fill cond (draw round xs) 0 xs)

/-- `truncated_normal_`, 32-50, for a tensor with `n` entries; 43 is round 0 -/
def truncatedNormal (mean std : R) (n : Nat) (draw : Nat → List R → Nat → R) (fuel : Nat) : Option (List R) :=
  loop (violates mean std) draw fuel 1 ((List.range n).map (draw 0 []))

end Trunc

end Verif
