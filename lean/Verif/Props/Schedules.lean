import Verif.Model.Schedules
import Mathlib.Tactic.Ring
import Mathlib.Tactic.Linarith
import Mathlib.Tactic.FieldSimp
import Mathlib.Algebra.Order.Ring.Rat
import Mathlib.Data.Rat.Floor
import Mathlib.Analysis.SpecialFunctions.Trigonometric.Complex

/-!
# Schedules (C57, C58, C59, C60)

For all parameters and all numbers of steps, in exact arithmetic.
-/

namespace Verif

namespace Sched

section

variable {K : Type u} [Field K] [LinearOrder K] [IsStrictOrderedRing K]

/-! ## C57 -/

theorem range_pos {a b : K} (h : 1 / 10 ^ 10 ≤ b - a) : 0 < b - a := lt_of_lt_of_le (by positivity) h

theorem truncated_low (minX maxX minY maxY x : K) (h : 1 / 10 ^ 10 ≤ maxX - minX) (hx : x ≤ minX) :
    truncatedLinear minX maxX minY maxY x = minY := by
  rw [truncatedLinear, if_neg (not_lt.mpr h), if_pos hx]

theorem truncated_degenerate (minX maxX minY maxY x : K) (h : maxX - minX < 1 / 10 ^ 10) :
    truncatedLinear minX maxX minY maxY x = maxY := by
  rw [truncatedLinear, if_pos h]

/-- C57: from the end on it is the second value. -/
theorem C57_high (minX maxX minY maxY x : K) (hx : maxX ≤ x) : truncatedLinear minX maxX minY maxY x = maxY := by
  unfold truncatedLinear
  split
  · rfl
  · next h =>
    have hp := range_pos (not_lt.mp h)
    rw [if_neg (by intro h'; linarith)]
    have : 1 ≤ (x - minX) / (maxX - minX) := by rw [one_le_div hp]; linarith
    simp [min_eq_right this]

/-- C57: in between it is linear. -/
theorem C57_linear (minX maxX minY maxY x : K) (h : 1 / 10 ^ 10 ≤ maxX - minX) (h1 : minX ≤ x) (h2 : x ≤ maxX) :
    truncatedLinear minX maxX minY maxY x = minY + (x - minX) / (maxX - minX) * (maxY - minY) := by
  have hp := range_pos h
  unfold truncatedLinear
  rw [if_neg (not_lt.mpr h)]
  split
  · next h' =>
    have : x = minX := le_antisymm h' h1
    simp [this]
  · have : (x - minX) / (maxX - minX) ≤ 1 := by rw [div_le_one hp]; linarith
    simp only [min_eq_left this]
    ring

/-- C57: two different values are taken exactly outside of the range, the first one up to the beginning and the second one from the
end on. -/
theorem C57_low (minX maxX minY maxY x : K) (h : 1 / 10 ^ 10 ≤ maxX - minX) (hy : minY ≠ maxY) :
    (truncatedLinear minX maxX minY maxY x = minY ↔ x ≤ minX) ∧ (truncatedLinear minX maxX minY maxY x = maxY ↔ maxX ≤ x) := by
  have hp := range_pos h
  have hd : maxY - minY ≠ 0 := sub_ne_zero.mpr (Ne.symm hy)
  rcases le_total x minX with hx | hx
  · rw [truncated_low _ _ _ _ _ h hx]
    exact ⟨⟨fun _ => hx, fun _ => rfl⟩, ⟨fun h' => absurd h' hy, fun h' => by linarith⟩⟩
  · rcases le_total maxX x with hx' | hx'
    · rw [C57_high _ _ _ _ _ hx']
      exact ⟨⟨fun h' => absurd h'.symm hy, fun h' => by linarith⟩, ⟨fun _ => hx', fun _ => rfl⟩⟩
    · rw [C57_linear _ _ _ _ _ h hx hx']
      constructor
      · rw [add_eq_left, mul_eq_zero, or_iff_left hd, div_eq_zero_iff, or_iff_left hp.ne', sub_eq_zero]
        exact ⟨fun h' => h'.le, fun h' => le_antisymm h' hx⟩
      · rw [← eq_sub_iff_add_eq', mul_eq_right₀ hd, div_eq_one_iff_eq hp.ne', sub_left_inj]
        exact ⟨fun h' => h'.ge, fun h' => le_antisymm hx' h'⟩

/-- C57: the schedule stays the same for all x exactly if the range has no extent, when it is the second value, or the values are the
same. -/
theorem C57_degenerate (minX maxX minY maxY : K) :
    ((∀ x x', truncatedLinear minX maxX minY maxY x = truncatedLinear minX maxX minY maxY x') ↔
      maxX - minX < 1 / 10 ^ 10 ∨ minY = maxY) ∧
    (maxX - minX < 1 / 10 ^ 10 → ∀ x, truncatedLinear minX maxX minY maxY x = maxY) := by
  refine ⟨⟨fun h => ?_, fun h => ?_⟩, fun h x => truncated_degenerate _ _ _ _ _ h⟩
  · rcases lt_or_ge (maxX - minX) (1 / 10 ^ 10) with hx | hx
    · exact .inl hx
    · have := h minX maxX
      rw [truncated_low _ _ _ _ _ hx le_rfl, C57_high _ _ _ _ _ le_rfl] at this
      exact .inr this
  · intro x x'
    rcases h with h | rfl
    · rw [truncated_degenerate _ _ _ _ _ h, truncated_degenerate _ _ _ _ _ h]
    · have : ∀ x, truncatedLinear minX maxX minY minY x = minY := fun x => by
        unfold truncatedLinear
        simp
      rw [this, this]

/-- How far it is: a number between 0 and 1 that grows with `x`. -/
theorem truncated_fraction (minX maxX : K) : ∃ f : K → K, Monotone f ∧ (∀ x, 0 ≤ f x ∧ f x ≤ 1) ∧
    ∀ minY maxY x, truncatedLinear minX maxX minY maxY x = minY + f x * (maxY - minY) := by
  by_cases h : maxX - minX < 1 / 10 ^ 10
  · exact ⟨fun _ => 1, monotone_const, fun _ => ⟨zero_le_one, le_rfl⟩, fun a b x => by
      rw [truncated_degenerate _ _ _ _ _ h]; ring⟩
  · have hp := range_pos (not_lt.mp h)
    refine ⟨fun x => if x ≤ minX then 0 else min ((x - minX) / (maxX - minX)) 1, ?_, ?_, ?_⟩
    · intro x y hxy
      simp only
      split
      · split
        · exact le_rfl
        · next h2 => exact le_min (div_nonneg (by linarith) hp.le) zero_le_one
      · next h1 =>
        rw [if_neg (by linarith)]
        exact min_le_min (div_le_div_of_nonneg_right (by linarith) hp.le) le_rfl
    · intro x
      simp only
      split
      · exact ⟨le_rfl, zero_le_one⟩
      · next h1 => exact ⟨le_min (div_nonneg (by linarith) hp.le) zero_le_one, min_le_right _ _⟩
    · intro minY maxY x
      unfold truncatedLinear
      rw [if_neg h]
      by_cases hx : x ≤ minX
      · simp only [if_pos hx]
        ring
      · simp only [if_neg hx]
        ring

/-- C57: monotone, in the direction of the values. -/
theorem C57_monotone (minX maxX minY maxY : K) :
    (minY ≤ maxY → Monotone (truncatedLinear minX maxX minY maxY)) ∧
    (maxY ≤ minY → Antitone (truncatedLinear minX maxX minY maxY)) := by
  obtain ⟨f, h1, h2, h3⟩ := truncated_fraction minX maxX
  constructor
  · intro h x y hxy
    rw [h3, h3]
    nlinarith [h1 hxy]
  · intro h x y hxy
    rw [h3, h3]
    nlinarith [h1 hxy]

/-- C57: always between the values. -/
theorem C57_between (minX maxX minY maxY x : K) :
    min minY maxY ≤ truncatedLinear minX maxX minY maxY x ∧ truncatedLinear minX maxX minY maxY x ≤ max minY maxY := by
  obtain ⟨f, _, h2, h3⟩ := truncated_fraction minX maxX
  rw [h3]
  obtain ⟨h4, h5⟩ := h2 x
  rcases le_total minY maxY with h | h
  · rw [min_eq_left h, max_eq_right h]
    constructor <;> nlinarith
  · rw [min_eq_right h, max_eq_left h]
    constructor <;> nlinarith

/-- C57 for the scheduler of training steps. -/
theorem C57_scheduler (s : BPStep K) (bp : K) :
    min s.min s.max ≤ s.evaluateAt bp ∧ s.evaluateAt bp ≤ max s.min s.max ∧ (s.end_ ≤ bp → s.evaluateAt bp = s.max) :=
  ⟨(C57_between ..).1, (C57_between ..).2, fun h => C57_high _ _ _ _ _ h⟩

example (x : ℚ) : truncatedLinear (1 : ℚ) 3 10 20 x = 10 ↔ x ≤ 1 := (C57_low 1 3 10 20 x (by norm_num) (by norm_num)).1

example : ¬ ∀ x x' : ℚ, truncatedLinear (1 : ℚ) 3 10 20 x = truncatedLinear 1 3 10 20 x' := fun h =>
  absurd ((C57_degenerate (1 : ℚ) 3 10 20).1.mp h) (by norm_num)

example : [0, 1, 2, 3, 5].map (truncatedLinear (1 : ℚ) 3 10 20) = [10, 10, 15, 20, 20] := by decide +kernel

/-! ## Steps -/

omit [LinearOrder K] [Field K] [IsStrictOrderedRing K] in
/-- A schedule whose step sets the value from the count alone. -/
theorem steps_closed {step : Schedule K → Except Err (Schedule K)} {i f : K} {st : Int} {F : Int → K} {c : Int} {v : K}
    {n : Nat} (hs : ∀ c' v, c ≤ c' → c' ≤ c + n → step ⟨i, f, st, c', v⟩ = .ok ⟨i, f, st, c' + 1, F c'⟩) :
    steps step (n + 1) ⟨i, f, st, c, v⟩ = .ok ⟨i, f, st, c + n + 1, F (c + n)⟩ := by
  induction n generalizing c v with
  | zero => simp [steps, hs c v le_rfl (by omega)]
  | succ n ih =>
    rw [steps, hs c v le_rfl (by omega)]
    simp only
    rw [ih (fun c' v h1 h2 => hs c' v (by omega) (by push_cast; omega))]
    have e1 : c + 1 + (n : Int) = c + ((n + 1 : Nat) : Int) := by push_cast; ring
    rw [e1]

variable [FloorRing K]

/-! ## C58 -/

omit [IsStrictOrderedRing K] in
/-- C58: the value after `k + 1` steps. -/
theorem C58_linear (initial final : K) (st : Nat) (hst : 0 < st) (k : Nat) :
    ∃ s, steps (linearStep none) (k + 1) (.new initial final st) = .ok s ∧
      s.value = initial + min ((k : K) / st) 1 * (final - initial) := by
  refine ⟨_, steps_closed (F := fun c => initial + min ((c : K) / (st : Int)) 1 * (final - initial)) ?_, ?_⟩
  · intro c' v _ _
    rw [linearStep, if_neg (by simp; omega)]
  · simp

/-- C58, staircase: the fraction is the largest multiple of `1 / stairs` that is not above it. -/
theorem C58_staircase (initial final : K) (st ss : Nat) (hst : 0 < st) (hss : 0 < ss) (k : Nat) :
    ∃ s, ∃ j : Nat, steps (linearStep (some ss)) (k + 1) (.new initial final st) = .ok s ∧
      s.value = initial + (j : K) / ss * (final - initial) ∧ j ≤ ss ∧
      (j : K) / ss ≤ min ((k : K) / st) 1 ∧ min ((k : K) / st) 1 < ((j : K) + 1) / ss := by
  have hss' : (0 : K) < ss := by exact_mod_cast hss
  have hst' : (0 : K) < st := by exact_mod_cast hst
  refine ⟨_, min ⌊(k : K) / st * ss⌋.toNat ss,
    steps_closed (F := fun c => initial + min ((⌊(c : K) / (st : Int) * (ss : Int)⌋ : K) / (ss : Int)) 1 * (final - initial)) ?_,
    ?_⟩
  · intro c' v _ _
    rw [linearStep, if_neg (by simp; omega)]
    simp only
    rw [if_neg (by simp; omega)]
  · have hnn : (0 : K) ≤ (k : K) / st * ss := by positivity
    have hfl : 0 ≤ ⌊(k : K) / st * ss⌋ := Int.floor_nonneg.mpr hnn
    generalize hq : ⌊(k : K) / st * ss⌋ = q at hfl
    obtain ⟨m, rfl⟩ := Int.eq_ofNat_of_zero_le hfl
    have h1 : (m : K) ≤ (k : K) / st * ss := by have := Int.floor_le ((k : K) / st * ss); rw [hq] at this; exact_mod_cast this
    have h2 : (k : K) / st * ss < m + 1 := by
      have := Int.lt_floor_add_one ((k : K) / st * ss); rw [hq] at this; exact_mod_cast this
    simp only [zero_add, Int.cast_natCast, Int.toNat_natCast]
    rw [hq]
    simp only [Int.cast_natCast]
    rcases le_total m ss with h | h
    · rw [min_eq_left h]
      have hm : (m : K) / ss ≤ 1 := by rw [div_le_one hss']; exact_mod_cast h
      refine ⟨by rw [min_eq_left hm], h, ?_, ?_⟩
      · refine le_min ?_ hm
        rw [div_le_iff₀ hss']
        exact h1
      · refine lt_of_le_of_lt (min_le_left _ _) ?_
        rw [lt_div_iff₀ hss']
        exact h2
    · rw [min_eq_right h]
      have hm : 1 ≤ (m : K) / ss := by rw [one_le_div hss']; exact_mod_cast h
      have hk : 1 ≤ (k : K) / st := by
        have h3 : (ss : K) ≤ m := by exact_mod_cast h
        have : (ss : K) ≤ (k : K) / st * ss := le_trans h3 h1
        by_contra hlt
        rw [not_le] at hlt
        nlinarith
      refine ⟨by rw [min_eq_right hm, div_self hss'.ne'], le_rfl, ?_, ?_⟩
      · rw [div_self hss'.ne', min_eq_right hk]
      · rw [min_eq_right hk, lt_div_iff₀ hss']
        linarith

/-- C58: it starts at the first value, ends at the last, never turns round, and stays in between. -/
theorem C58_shape (initial final : K) (st : Nat) (hst : 0 < st) (value : Nat → K)
    (hv : ∀ k, ∃ s, steps (linearStep none) (k + 1) (.new initial final st) = .ok s ∧ s.value = value k) :
    value 0 = initial ∧ (∀ k, st ≤ k → value k = final) ∧ (initial ≤ final → Monotone value) ∧
    (final ≤ initial → Antitone value) ∧ ∀ k, min initial final ≤ value k ∧ value k ≤ max initial final := by
  have hst' : (0 : K) < st := by exact_mod_cast hst
  have he : ∀ k, value k = initial + min ((k : K) / st) 1 * (final - initial) := by
    intro k
    obtain ⟨s, h1, h2⟩ := hv k
    obtain ⟨s', h3, h4⟩ := C58_linear initial final st hst k
    rw [h1] at h3
    cases h3
    rw [← h2, h4]
  have hmono : ∀ a b : Nat, a ≤ b → min ((a : K) / st) 1 ≤ min ((b : K) / st) 1 := by
    intro a b hab
    have : (a : K) ≤ b := by exact_mod_cast hab
    exact min_le_min (div_le_div_of_nonneg_right this hst'.le) le_rfl
  have h0 : ∀ k : Nat, 0 ≤ min ((k : K) / st) 1 := fun k => le_min (by positivity) zero_le_one
  have h1 : ∀ k : Nat, min ((k : K) / st) 1 ≤ 1 := fun k => min_le_right _ _
  refine ⟨by rw [he]; simp, ?_, ?_, ?_, ?_⟩
  · intro k hk
    have : 1 ≤ (k : K) / st := by rw [one_le_div hst']; exact_mod_cast hk
    rw [he, min_eq_right this]
    ring
  · intro h a b hab
    rw [he, he]
    nlinarith [hmono a b hab]
  · intro h a b hab
    rw [he, he]
    nlinarith [hmono a b hab]
  · intro k
    rw [he]
    have := h0 k
    have := h1 k
    rcases le_total initial final with h | h
    · rw [min_eq_left h, max_eq_right h]
      constructor <;> nlinarith
    · rw [min_eq_right h, max_eq_left h]
      constructor <;> nlinarith

example : (steps (linearStep none) 4 (.new (10 : ℚ) 20 4)).map Schedule.value = .ok (35 / 2) := by decide +kernel

example : (steps (linearStep (some 2)) 4 (.new (10 : ℚ) 20 4)).map Schedule.value = .ok 15 := by decide +kernel

/-! ## C59 -/

theorem cycle_eq (h m r : Nat) (hh : 0 < h) (hr : r < 2 * h) :
    ⌊1 + (((2 * h * m + r : Nat) : Int) : K) / (2 * ((h : Int) : K))⌋ = (m : Int) + 1 := by
  have hh' : (0 : K) < h := by exact_mod_cast hh
  rw [Int.floor_eq_iff]
  have hr' : (r : K) < 2 * h := by exact_mod_cast hr
  have hr0 : (0 : K) ≤ r := by positivity
  have e : (((2 * h * m + r : Nat) : Int) : K) / (2 * ((h : Int) : K)) = m + r / (2 * h) := by
    push_cast
    field_simp
  rw [e]
  push_cast
  have h1 : (0 : K) ≤ r / (2 * h) := by positivity
  have h2 : (r : K) / (2 * h) < 1 := by rw [div_lt_one (by positivity)]; exact hr'
  constructor <;> linarith

/-- The height of the triangle at a place of the period. -/
def triangle (h r : Nat) : K := 1 - |(r : K) / h - 1|

theorem triangle_bounds (h r : Nat) (hh : 0 < h) (hr : r < 2 * h) : (0 : K) ≤ triangle h r ∧ (triangle h r : K) ≤ 1 := by
  have hh' : (0 : K) < h := by exact_mod_cast hh
  have hr' : (r : K) < 2 * h := by exact_mod_cast hr
  have h1 : (0 : K) ≤ r / h := by positivity
  have h2 : (r : K) / h < 2 := by rw [div_lt_iff₀ hh']; exact hr'
  have h3 : |(r : K) / h - 1| ≤ 1 := by rw [abs_le]; constructor <;> linarith
  have h4 : (0 : K) ≤ |(r : K) / h - 1| := abs_nonneg _
  unfold triangle
  constructor <;> linarith

/-- One step of a cyclic schedule. -/
theorem cyclicStep_eq (mode : String) (initial final v scale : K) (h m r : Nat) (hh : 0 < h) (hr : r < 2 * h)
    (hs : cyclicScale mode ((m : Int) + 1) = .ok scale) :
    cyclicStep mode ⟨initial, final, h, (2 * h * m + r : Nat), v⟩
      = .ok ⟨initial, final, h, (2 * h * m + r : Nat) + 1, initial + (final - initial) * triangle h r * scale⟩ := by
  have hh' : (0 : K) < h := by exact_mod_cast hh
  have hb := triangle_bounds (K := K) h r hh hr
  unfold cyclicStep
  rw [if_neg (by simp; omega)]
  simp only [cycle_eq (K := K) h m r hh hr, hs]
  have e : (((2 * h * m + r : Nat) : Int) : K) / ((h : Int) : K) - 2 * (((m : Int) + 1 : Int) : K) + 1 = r / h - 1 := by
    push_cast
    field_simp
    ring
  rw [e, show 1 - |(r : K) / h - 1| = triangle h r from rfl, max_eq_right hb.1]

/-- The steps of a cyclic schedule, as long as the scale exists. -/
theorem cyclic_steps (mode : String) (initial final : K) (scale : Nat → K) (h m r : Nat) (hh : 0 < h) (hr : r < 2 * h)
    (hs : ∀ m' ≤ m, cyclicScale mode ((m' : Int) + 1) = .ok (scale m')) :
    ∃ s, steps (cyclicStep mode) (2 * h * m + r + 1) (.new initial final h) = .ok s ∧
      s.value = initial + (final - initial) * triangle h r * scale m := by
  refine ⟨_, steps_closed
    (F := fun c => initial + (final - initial) * triangle h (c.toNat % (2 * h)) * scale (c.toNat / (2 * h))) ?_, ?_⟩
  · intro c' v h1 h2
    obtain ⟨c, rfl⟩ := Int.eq_ofNat_of_zero_le h1
    have hc : c ≤ 2 * h * m + r := by omega
    have h2h : 0 < 2 * h := by omega
    have hm : c / (2 * h) ≤ m := by
      have h3 : c / (2 * h) < m + 1 := by
        rw [Nat.div_lt_iff_lt_mul h2h]
        calc c ≤ 2 * h * m + r := hc
          _ < 2 * h * m + 2 * h := by omega
          _ = (m + 1) * (2 * h) := by ring
      omega
    have := cyclicStep_eq mode initial final v (scale (c / (2 * h))) h (c / (2 * h)) (c % (2 * h)) hh
      (Nat.mod_lt _ h2h) (hs _ hm)
    rw [Nat.div_add_mod] at this
    simpa using this
  · have h2h : 0 < 2 * h := by omega
    have e1 : (2 * h * m + r) % (2 * h) = r := by rw [Nat.mul_add_mod, Nat.mod_eq_of_lt hr]
    have e2 : (2 * h * m + r) / (2 * h) = m := by
      rw [Nat.mul_add_div h2h, Nat.div_eq_of_lt hr, Nat.add_zero]
    simp only [zero_add, Int.toNat_natCast, e1, e2]

/-- C59: the triangular mode goes up and down between the values for ever. -/
theorem C59_triangular (initial final : K) (h m r : Nat) (hh : 0 < h) (hr : r < 2 * h) :
    ∃ s, steps (cyclicStep "triangular") (2 * h * m + r + 1) (.new initial final h) = .ok s ∧
      s.value = initial + (final - initial) * (1 - |(r : K) / h - 1|) ∧
      min initial final ≤ s.value ∧ s.value ≤ max initial final ∧
      (r = 0 → s.value = initial) ∧ (r = h → s.value = final) := by
  have hh' : (0 : K) < h := by exact_mod_cast hh
  obtain ⟨s, h1, h2⟩ := cyclic_steps "triangular" initial final (fun _ => 1) h m r hh hr (fun m' _ => by
    rw [cyclicScale, if_pos rfl])
  obtain ⟨h3, h4⟩ := triangle_bounds (K := K) h r hh hr
  rw [mul_one] at h2
  refine ⟨s, h1, h2, ?_, ?_, ?_, ?_⟩
  · rw [h2]
    rcases le_total initial final with h' | h'
    · rw [min_eq_left h']; nlinarith
    · rw [min_eq_right h']; nlinarith
  · rw [h2]
    rcases le_total initial final with h' | h'
    · rw [max_eq_right h']; nlinarith
    · rw [max_eq_left h']; nlinarith
  · rintro rfl
    rw [h2, triangle]
    simp
  · rintro rfl
    rw [h2, triangle, div_self hh'.ne']
    simp

/-- C59, partial: the triangular2 mode does the same, with the height halved in each period, for the first 1024 periods. -/
theorem C59_triangular2_partial (initial final : K) (h m r : Nat) (hh : 0 < h) (hr : r < 2 * h) (hm : m < 1024) :
    ∃ s, steps (cyclicStep "triangular2") (2 * h * m + r + 1) (.new initial final h) = .ok s ∧
      s.value = initial + (final - initial) * (1 - |(r : K) / h - 1|) / 2 ^ m ∧
      min initial final ≤ s.value ∧ s.value ≤ max initial final ∧
      (r = 0 → s.value = initial) ∧ (r = h → s.value = initial + (final - initial) / 2 ^ m) := by
  have hh' : (0 : K) < h := by exact_mod_cast hh
  obtain ⟨s, h1, h2⟩ := cyclic_steps "triangular2" initial final (fun m => 1 / 2 ^ m) h m r hh hr (fun m' hm' => by
    rw [cyclicScale, if_neg (by decide), if_pos rfl, if_neg (by omega)]
    simp)
  obtain ⟨h3, h4⟩ := triangle_bounds (K := K) h r hh hr
  have e : s.value = initial + (final - initial) * (1 - |(r : K) / h - 1|) / 2 ^ m := by
    rw [h2, triangle]; ring
  have hp : (1 : K) ≤ 2 ^ m := one_le_pow₀ (by norm_num)
  have h5 : (0 : K) ≤ triangle h r * (1 / 2 ^ m) := mul_nonneg h3 (by positivity)
  have h6 : (triangle h r : K) * (1 / 2 ^ m) ≤ 1 := by
    have : (1 : K) / 2 ^ m ≤ 1 := by rw [div_le_one (by positivity)]; exact hp
    have : (0 : K) ≤ 1 / 2 ^ m := by positivity
    nlinarith
  refine ⟨s, h1, e, ?_, ?_, ?_, ?_⟩
  · rw [h2, mul_assoc]
    rcases le_total initial final with h' | h'
    · rw [min_eq_left h']; nlinarith
    · rw [min_eq_right h']; nlinarith
  · rw [h2, mul_assoc]
    rcases le_total initial final with h' | h'
    · rw [max_eq_right h']; nlinarith
    · rw [max_eq_left h']; nlinarith
  · rintro rfl
    rw [e]
    simp
  · rintro rfl
    rw [e, div_self hh'.ne']
    simp

omit [LinearOrder K] [Field K] [IsStrictOrderedRing K] [FloorRing K] in
theorem steps_add (step : Schedule K → Except Err (Schedule K)) (a b : Nat) (s : Schedule K) :
    steps step (a + b) s = match steps step a s with
      | .ok s => steps step b s
      | .error e => .error e := by
  induction a generalizing s with
  | zero => simp [steps]
  | succ a ih =>
    rw [Nat.succ_add, steps, steps]
    cases step s with
    | ok s => exact ih s
    | error e => rfl

/-- C59: after 1024 periods the triangular2 mode raises. -/
theorem C59_overflow (initial final : K) (h n : Nat) (hh : 0 < h) (hn : 2 * h * 1024 < n) :
    steps (cyclicStep "triangular2") n (.new initial final h) = .error .overflowError := by
  obtain ⟨k, rfl⟩ : ∃ k, n = (2 * h * 1023 + (2 * h - 1) + 1) + (k + 1) := ⟨n - 2 * h * 1024 - 1, by omega⟩
  rw [steps_add]
  have hs : steps (cyclicStep "triangular2") (2 * h * 1023 + (2 * h - 1) + 1) (.new initial final h)
      = .ok ⟨initial, final, h, ((2 * h * 1023 + (2 * h - 1) : Nat) : Int) + 1,
        initial + (final - initial) * triangle h (2 * h - 1) * (1 / 2 ^ 1023)⟩ := by
    have h3 := steps_closed (n := 2 * h * 1023 + (2 * h - 1)) (i := initial) (f := final) (st := h) (c := 0) (v := initial)
      (step := cyclicStep "triangular2")
      (F := fun c => initial + (final - initial) * triangle h (c.toNat % (2 * h)) * (1 / 2 ^ (c.toNat / (2 * h)))) (by
        intro c' v h1 h2
        obtain ⟨c, rfl⟩ := Int.eq_ofNat_of_zero_le h1
        have h2h : 0 < 2 * h := by omega
        have hm : c / (2 * h) < 1024 := by
          rw [Nat.div_lt_iff_lt_mul h2h]
          omega
        have := cyclicStep_eq "triangular2" initial final v (1 / 2 ^ (c / (2 * h))) h (c / (2 * h)) (c % (2 * h)) hh
          (Nat.mod_lt _ h2h) (by
            generalize c / (2 * h) = m at hm
            rw [cyclicScale, if_neg (by decide), if_pos rfl, if_neg (by omega)]
            simp)
        rw [Nat.div_add_mod] at this
        simpa using this)
    have h4 : Schedule.new initial final (h : Int) = ⟨initial, final, h, 0, initial⟩ := rfl
    rw [h4, h3]
    have h2h : 0 < 2 * h := by omega
    have e1 : (2 * h * 1023 + (2 * h - 1)) % (2 * h) = 2 * h - 1 := by rw [Nat.mul_add_mod, Nat.mod_eq_of_lt (by omega)]
    have e2 : (2 * h * 1023 + (2 * h - 1)) / (2 * h) = 1023 := by
      rw [Nat.mul_add_div h2h, Nat.div_eq_of_lt (by omega), Nat.add_zero]
    simp only [zero_add, Int.toNat_natCast, e1, e2]
  rw [hs]
  simp only
  rw [steps]
  have hstep : ∀ v : K, cyclicStep "triangular2" ⟨initial, final, (h : Int), ((2 * h * 1023 + (2 * h - 1) : Nat) : Int) + 1, v⟩
      = .error .overflowError := by
    intro v
    have e : ((2 * h * 1023 + (2 * h - 1) : Nat) : Int) + 1 = ((2 * h * 1024 + 0 : Nat) : Int) := by omega
    rw [e, cyclicStep, if_neg (by simp; omega)]
    simp only [cycle_eq (K := K) h 1024 0 hh (by omega)]
    rw [cyclicScale, if_neg (by decide), if_pos rfl, if_pos (by omega)]
  rw [hstep]

/-- C59 as claimed: the triangular2 mode works for every number of steps. -/
def C59_claim : Prop :=
  ∀ (initial final : ℚ) (h n : Nat), 0 < h → ∃ s, steps (cyclicStep "triangular2") n (.new initial final h) = .ok s

theorem C59_false : ¬ C59_claim := by
  intro h
  obtain ⟨s, hs⟩ := h 0 1 1 2049 (by omega)
  rw [C59_overflow (0 : ℚ) 1 1 2049 (by omega) (by omega)] at hs
  cases hs

example : [1, 2, 3, 4, 5, 6, 7, 8].map (fun n => (steps (cyclicStep "triangular2") n (.new (10 : ℚ) 20 2)).map Schedule.value)
    = [10, 15, 20, 15, 10, 25 / 2, 15, 25 / 2].map .ok := by decide +kernel

end

/-! ## C60 -/

open Real

/-- The cosine curve. -/
noncomputable def cosineAt (initial final : ℝ) (st : Nat) (t : ℕ) : ℝ :=
  final + (initial - final) * (1 + cos (π * t / st)) / 2

/-- The curve is at its lower turning point exactly after an odd number of half periods. -/
theorem cos_turning (st t : ℕ) (hst : 0 < st) : 1 + cos (π * t / st) = 0 ↔ ((t : ℤ) - st) % (2 * st) = 0 := by
  have hst' : (st : ℝ) ≠ 0 := by positivity
  have h1 : 1 + cos (π * t / st) = 0 ↔ cos (π * t / st) = -1 := by
    constructor <;> intro h <;> linarith
  rw [h1, cos_eq_neg_one_iff]
  have hpi : π ≠ 0 := pi_ne_zero
  constructor
  · rintro ⟨k, h⟩
    have h2 : (t : ℝ) = (2 * k + 1) * st := by
      field_simp at h
      linarith
    have h3 : (t : ℤ) = (2 * k + 1) * st := by exact_mod_cast h2
    rw [h3, show (2 * k + 1) * (st : ℤ) - st = 2 * st * k by ring]
    exact Int.mul_emod_right _ _
  · intro h
    obtain ⟨k, hk⟩ := Int.dvd_of_emod_eq_zero h
    refine ⟨k, ?_⟩
    have h3 : (t : ℤ) = (2 * k + 1) * st := by linarith
    have h4 : (t : ℝ) = (2 * k + 1) * st := by exact_mod_cast h3
    rw [h4]
    field_simp
    ring

theorem cosine_value_next (initial final : ℝ) (st t : ℕ) (hst : 0 < st) (hturn : ((t : ℤ) - st) % (2 * st) = 0) :
    cosineAt initial final st (t + 1) = cosineAt initial final st t + (initial - final) * (1 - cos (π / st)) / 2 := by
  have hst' : (st : ℝ) ≠ 0 := by positivity
  have h0 := (cos_turning st t hst).mpr hturn
  obtain ⟨k, hk⟩ := Int.dvd_of_emod_eq_zero hturn
  have h3 : (t : ℤ) = (2 * k + 1) * st := by linarith
  have h4 : (t : ℝ) = (2 * k + 1) * st := by exact_mod_cast h3
  have h5 : cos (π * ((t + 1 : ℕ) : ℝ) / st) = - cos (π / st) := by
    have : π * ((t + 1 : ℕ) : ℝ) / st = (π / st + π) + k * (2 * π) := by
      push_cast
      rw [h4]
      field_simp
      ring
    rw [this, cos_add_int_mul_two_pi, cos_add_pi]
  unfold cosineAt
  rw [h5, h0]
  ring

/-- One step of the cosine schedule at its right value. -/
theorem cosineStep_eq (initial final : ℝ) (st t : ℕ) (hst : 0 < st) :
    cosineStep ⟨initial, final, st, (t : ℤ) + 1, cosineAt initial final st t⟩
      = .ok ⟨initial, final, st, (t : ℤ) + 1 + 1, cosineAt initial final st (t + 1)⟩ := by
  unfold cosineStep
  simp only
  rw [if_pos (by omega), if_neg (by omega), Int.fmod_eq_emod_of_nonneg _ (by omega),
    show (t : ℤ) + 1 - 1 - st = (t : ℤ) - st by ring]
  by_cases hturn : ((t : ℤ) - st) % (2 * st) = 0
  · rw [if_pos hturn, cosine_value_next initial final st t hst hturn]
    simp
  · rw [if_neg hturn]
    have h0 : 1 + cos (π * t / st) ≠ 0 := fun h => hturn ((cos_turning st t hst).mp h)
    have e : π * ((((t : ℤ) + 1 : ℤ) : ℝ) - 1) / ((st : ℤ) : ℝ) = π * t / st := by push_cast; ring
    have e2 : π * (((t : ℤ) + 1 : ℤ) : ℝ) / ((st : ℤ) : ℝ) = π * ((t + 1 : ℕ) : ℝ) / st := by push_cast; ring
    rw [e, e2, if_neg h0]
    congr 2
    unfold cosineAt
    field_simp
    ring

/-- C60: the recursive update follows the cosine curve for ever, across all turning points, and never divides by zero. -/
theorem C60_annealing (initial final : ℝ) (st : ℕ) (hst : 0 < st) (t : ℕ) :
    ∃ s, steps cosineStep (t + 1) (.new initial final st) = .ok s ∧
      s.value = final + (initial - final) * (1 + cos (π * t / st)) / 2 := by
  have h0 : cosineAt initial final st 0 = initial := by
    unfold cosineAt
    simp only [Nat.cast_zero, mul_zero, zero_div, cos_zero]
    ring
  have main : ∀ t : ℕ, steps cosineStep (t + 1) (.new initial final st)
      = .ok ⟨initial, final, st, (t : ℤ) + 1, cosineAt initial final st t⟩ := by
    intro t
    induction t with
    | zero => simp [steps, cosineStep, Schedule.new, h0]
    | succ t ih =>
      rw [steps_add, ih]
      simp only [steps]
      rw [cosineStep_eq initial final st t hst]
      simp
  exact ⟨_, main t, rfl⟩

/-- C60: with warm restarts the curve begins again every `st` steps. -/
theorem C60_restarts (initial final : ℝ) (st : ℕ) (hst : 0 < st) (t : ℕ) :
    ∃ s, steps restartStep (t + 1) (.new initial final st) = .ok s ∧
      s.value = final + (initial - final) * (1 + cos (π * (t % st : ℕ) / st)) / 2 := by
  have hone : ∀ (c : ℕ) (v : ℝ), c ≤ st → restartStep ⟨initial, final, st, (c : ℤ), v⟩
      = .ok ⟨initial, final, st, ((c % st : ℕ) : ℤ) + 1, cosineAt initial final st (c % st)⟩ := by
    intro c v hc
    unfold restartStep
    simp only
    rw [if_neg (by omega), if_neg (by omega)]
    have e : (if (c : ℤ) ≥ st then (c : ℤ).fmod st else (c : ℤ)) = ((c % st : ℕ) : ℤ) := by
      split
      · rw [Int.fmod_eq_emod_of_nonneg _ (by omega)]
        simp
      · rw [Nat.mod_eq_of_lt (by omega)]
    rw [e]
    rfl
  have main : ∀ t : ℕ, steps restartStep (t + 1) (.new initial final st)
      = .ok ⟨initial, final, st, ((t % st : ℕ) : ℤ) + 1, cosineAt initial final st (t % st)⟩ := by
    intro t
    induction t with
    | zero =>
      have := hone 0 initial (by omega)
      simp only [steps, Schedule.new]
      simp only [Nat.cast_zero] at this
      rw [this]
    | succ t ih =>
      rw [steps_add, ih]
      simp only [steps]
      have hlt : t % st < st := Nat.mod_lt _ hst
      have h1 := hone (t % st + 1) (cosineAt initial final st (t % st)) (by omega)
      push_cast at h1 ⊢
      rw [h1]
      have e : (t % st + 1) % st = (t + 1) % st := by rw [Nat.mod_add_mod]
      have e' : ((t : ℤ) % st + 1) % st = ((t : ℤ) + 1) % st := by rw [Int.emod_add_emod]
      simp only [e, e']
  exact ⟨_, main t, rfl⟩

theorem curve_between (initial final x : ℝ) :
    min initial final ≤ final + (initial - final) * (1 + cos x) / 2 ∧
    final + (initial - final) * (1 + cos x) / 2 ≤ max initial final := by
  have h1 := neg_one_le_cos x
  have h2 := cos_le_one x
  rcases le_total initial final with h | h
  · rw [min_eq_left h, max_eq_right h]
    constructor <;> nlinarith
  · rw [min_eq_right h, max_eq_left h]
    constructor <;> nlinarith

/-- C60: at all times the value is between the two given ones, and it is the second one after each odd number of periods
(annealing), or the first one at each restart. -/
theorem C60_between (initial final : ℝ) (st : ℕ) (hst : 0 < st) (t : ℕ) :
    (∃ s, steps cosineStep (t + 1) (.new initial final st) = .ok s ∧
      min initial final ≤ s.value ∧ s.value ≤ max initial final ∧ ((∃ k, t = (2 * k + 1) * st) → s.value = final)) ∧
    ∃ s, steps restartStep (t + 1) (.new initial final st) = .ok s ∧
      min initial final ≤ s.value ∧ s.value ≤ max initial final ∧ (st ∣ t → s.value = initial) := by
  obtain ⟨s, h1, h2⟩ := C60_annealing initial final st hst t
  obtain ⟨s', h1', h2'⟩ := C60_restarts initial final st hst t
  refine ⟨⟨s, h1, ?_, ?_, ?_⟩, s', h1', ?_, ?_, ?_⟩
  · rw [h2]; exact (curve_between _ _ _).1
  · rw [h2]; exact (curve_between _ _ _).2
  · rintro ⟨k, rfl⟩
    have h3 : 1 + cos (π * (((2 * k + 1) * st : ℕ) : ℝ) / st) = 0 := (cos_turning st _ hst).mpr (by
      push_cast
      rw [show ((2 * k + 1) * st - st : ℤ) = (2 * st) * k by ring]
      exact Int.mul_emod_right _ _)
    rw [h2, h3]
    ring
  · rw [h2']; exact (curve_between _ _ _).1
  · rw [h2']; exact (curve_between _ _ _).2
  · intro hd
    rw [h2', Nat.mod_eq_zero_of_dvd hd]
    simp only [Nat.cast_zero, mul_zero, zero_div, cos_zero]
    ring

example : ∃ s, steps cosineStep 4 (.new 10 20 2) = .ok s ∧ s.value = 15 := by
  obtain ⟨s, h1, h2⟩ := C60_annealing 10 20 2 (by omega) 3
  refine ⟨s, h1, ?_⟩
  rw [h2]
  have : cos (π * (3 : ℕ) / (2 : ℕ)) = 0 := by
    rw [cos_eq_zero_iff]
    exact ⟨1, by push_cast; ring⟩
  rw [this]
  norm_num

end Sched

end Verif
