/-!
# Python / numpy slices

Only slices with step one occur in the modelled code.
-/

namespace Verif

/-- Normalisation of one slice bound for a sequence of length `n`: negative bounds count from the
end, and everything is clamped to `0 .. n`. -/
def clampIdx (n : Nat) (i : Int) : Nat :=
  if i < 0 then (i + n).toNat else min i.toNat n

/-- `l[start:stop]`. -/
def pySlice (l : List α) (start stop : Int) : List α :=
  (l.drop (clampIdx l.length start)).take (clampIdx l.length stop - clampIdx l.length start)

/-- `l[idx:next] = src` for a numpy array `l`: the lengths have to agree, except that a source with
one row is broadcast. `none` is `ValueError`. -/
def sliceAssign (l : List α) (idx next : Nat) (src : List α) : Option (List α) :=
  let s := min idx l.length
  let e := max s (min next l.length)
  if src.length = e - s then some (l.take s ++ src ++ l.drop e)
  else match src with
    | [x] => some (l.take s ++ List.replicate (e - s) x ++ l.drop e)
    | _ => none

end Verif
