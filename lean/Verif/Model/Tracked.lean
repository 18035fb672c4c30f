import Verif.Model.Strategy

/-!
# Histories of calls on a strategy

Not code of `/repo`: how a table uses a strategy object (`table.py` 196-278).
-/

namespace Verif

/-- `Tracked s l`: the strategy `s` is what a new strategy becomes by some history of calls which
leaves the sequences `l` (identity, length; in order of their addition) tracked. -/
inductive Tracked : Strategy → Dict Int Nat → Prop where
  | fresh {s} : s.Fresh → Tracked s []
  | track {s l id len s'} : Tracked s l → id ∉ l.keys → s.track id len = (s', .ok ()) →
      Tracked s' (l ++ [(id, len)])
  | forget {s l id s'} : Tracked s l → id ∈ l.keys → s.forget id = (s', .ok ()) →
      Tracked s' (l.filter fun p => p.1 ≠ id)
  | sample {s l count tc c r s' x} : Tracked s l → s.sample count tc c r = (s', x) →
      x ≠ .error .overflowError → Tracked s' l
  | eject {s l count draws s' x} : Tracked s l → s.eject count draws = (s', x) →
      x ≠ .error .overflowError → Tracked s' l

end Verif
