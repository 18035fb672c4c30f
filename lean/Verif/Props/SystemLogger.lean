import Verif.Model.SystemLogger
import Verif.Lemmas.Dict

/-!
# C127: the system logger reports usage, and growth per step
-/

namespace Verif

namespace SysLog

/-! ## Spec -/

/-- A moment: a step and the resident bytes. -/
structure Spec.Moment where
  step : Nat
  rss : Nat

/-- Growth per step between two moments, in megabytes. -/
def Spec.growth (a b : Spec.Moment) : ℚ := ((b.rss : ℚ) - a.rss) / 1048576 / ((b.step : ℚ) - a.step)

/-- The moment before the last report: the report before, or the one at which the logger was made. -/
def Spec.before (start : Spec.Moment) (earlier : List Reading) : Spec.Moment :=
  match earlier.getLast? with
  | none => start
  | some q => ⟨q.step, q.rss⟩

/-! ## C127 -/

theorem run_snoc (l : Logger) (rs : List Reading) (r : Reading) : l.run (rs ++ [r]) = (l.run rs).endCycle r := by
  rw [Logger.run, List.foldl_append]; rfl

theorem run_previous (rss : Nat) (rs : List Reading) : ((Logger.new rss).run rs).previousMemory = mb (Spec.before ⟨0, rss⟩ rs).rss ∧
    ((Logger.new rss).run rs).previousStep = (Spec.before ⟨0, rss⟩ rs).step := by
  rcases List.eq_nil_or_concat rs with rfl | ⟨as, r, rfl⟩
  · exact ⟨rfl, rfl⟩
  · rw [List.concat_eq_append, run_snoc]
    simp [Logger.endCycle, Spec.before]

/-- **C127** (usage): each report gives the resident megabytes and the load of that moment. -/
theorem C127_usage (rss : Nat) (earlier : List Reading) (r : Reading) :
    Dict.get? ((Logger.new rss).run (earlier ++ [r])).scalars "system/ram_usage_mb" = some ((r.rss : ℚ) / 1048576) ∧
    Dict.get? ((Logger.new rss).run (earlier ++ [r])).scalars "system/cpu_load" = some r.cpu := by
  rw [run_snoc]
  have hmb : mb r.rss = (r.rss : ℚ) / 1048576 := by unfold mb; norm_num
  refine ⟨?_, by simp [Logger.endCycle]⟩
  simp only [Logger.endCycle]
  rw [Dict.get?_set_ne (by decide)]
  split
  · rw [Dict.get?_set_ne (by decide), Dict.get?_set_self, hmb]
  · rw [Dict.get?_set_self, hmb]

/-- **C127**, partial: each report after the first gives the growth since the report before per step since then, and the first one
that since the start, if the steps are counted from 0. A report without a new step leaves the growth as it was. What is missing: the
first report of a resumed run, see `C127_false`. -/
theorem C127_partial (rss : Nat) (earlier : List Reading) (r : Reading) :
    ((Spec.before ⟨0, rss⟩ earlier).step < r.step →
      Dict.get? ((Logger.new rss).run (earlier ++ [r])).scalars "system/ram_usage_growth_mb_step" =
        some (Spec.growth (Spec.before ⟨0, rss⟩ earlier) ⟨r.step, r.rss⟩)) ∧
    (r.step ≤ (Spec.before ⟨0, rss⟩ earlier).step →
      Dict.get? ((Logger.new rss).run (earlier ++ [r])).scalars "system/ram_usage_growth_mb_step" =
        Dict.get? ((Logger.new rss).run earlier).scalars "system/ram_usage_growth_mb_step") := by
  obtain ⟨h1, h2⟩ := run_previous rss earlier
  rw [run_snoc]
  simp only [Logger.endCycle, h1, h2]
  constructor
  · intro h
    rw [Dict.get?_set_ne (by decide), if_pos (by omega), Dict.get?_set_self]
    simp only [Spec.growth, mb]
    push_cast
    rw [← sub_div]
    norm_num
  · intro h
    rw [Dict.get?_set_ne (by decide), if_neg (by omega), Dict.get?_set_ne (by decide)]

/-- C127 as claimed: the first report gives the growth per step since the process began, at whatever step. -/
def C127_claim : Prop :=
  ∀ (start : Spec.Moment) (r : Reading), start.step < r.step →
    Dict.get? ((Logger.new start.rss).run [r]).scalars "system/ram_usage_growth_mb_step" = some (Spec.growth start ⟨r.step, r.rss⟩)

/-- A run that is resumed at step 9000 and has grown by 10 MB after 1000 steps reports a tenth of the growth. -/
theorem C127_false : ¬ C127_claim := by
  intro h
  have := h ⟨9000, 0⟩ ⟨10000, 10485760, 0⟩ (by decide)
  revert this
  decide +kernel

example : Dict.get? ((Logger.new 1048576).run [⟨1000, 3145728, 50⟩, ⟨2000, 2097152, 20⟩]).scalars "system/ram_usage_growth_mb_step" =
    some (-1 / 1000) := by decide +kernel

end SysLog

end Verif
