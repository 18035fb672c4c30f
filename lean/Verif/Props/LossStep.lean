import Mathlib.Algebra.BigOperators.Group.List.Lemmas
import Verif.Model.LossStep
import Verif.Lemmas.Dict

/-!
# C110, C111: one step of a loss
-/

namespace Verif

namespace LossStep

variable {P S B : Type} [DecidableEq P]

/-! ## Specification -/

namespace Spec

/-- The square of the length of a gradient: parameters without gradient do not count. -/
noncomputable def sq (own : List P) (g : P → Option ℝ) : ℝ := (own.map fun p => match g p with
  | some x => x ^ 2
  | none => 0).sum

/-- `g` is `d`, shortened to at most `m`: same direction, and nothing changes if it is short enough. -/
def Shortened (own : List P) (m : ℝ) (d g : P → Option ℝ) : Prop :=
  ∃ c : ℝ, 0 < c ∧ c ≤ 1 ∧ (∀ p ∈ own, g p = (d p).map (· * c)) ∧ sq own g ≤ m ^ 2 ∧
    (√(sq own d) + 1 / 10 ^ 6 ≤ m → c = 1)

/-- The run in which somebody writes `junk k` into all gradients before step `k`. -/
noncomputable def runJunk (cs : Nat → Cfg P S B) (junk : Nat → P → Option ℝ) :
    Nat → List (Nat × B) → System P S → System P S
  | _, [], y => y
  | k, x :: xs, y => runJunk cs junk (k + 1) xs (System.step cs x ⟨y.losses, ⟨y.world.value, junk k⟩⟩)

end Spec

/-! ## Lemmas -/

omit [DecidableEq P] in
theorem sum_present (own : List P) (g : P → Option ℝ) : ((present own g).map fun x => x ^ 2).sum = Spec.sq own g := by
  induction own with
  | nil => simp [present, Spec.sq]
  | cons p ps ih =>
    simp only [present, Spec.sq] at ih ⊢
    cases h : g p <;> simp [h, ih]

omit [DecidableEq P] in
theorem sq_nonneg (own : List P) (g : P → Option ℝ) : 0 ≤ Spec.sq own g := by
  refine List.sum_nonneg fun x hx => ?_
  obtain ⟨p, _, rfl⟩ := List.mem_map.1 hx
  cases g p with
  | none => simp
  | some y => positivity

omit [DecidableEq P] in
theorem norm_present (own : List P) (g : P → Option ℝ) : norm (present own g) = √(Spec.sq own g) := by
  rw [norm, sum_present]

omit [DecidableEq P] in
theorem sq_congr {own : List P} {g d : P → Option ℝ} (h : ∀ p ∈ own, g p = d p) : Spec.sq own g = Spec.sq own d := by
  unfold Spec.sq
  congr 1
  refine List.map_congr_left fun p hp => ?_
  rw [h p hp]

omit [DecidableEq P] in
theorem sq_mul (own : List P) (d g : P → Option ℝ) (c : ℝ) (h : ∀ p ∈ own, g p = (d p).map (· * c)) :
    Spec.sq own g = c ^ 2 * Spec.sq own d := by
  unfold Spec.sq
  rw [← List.sum_map_mul_left]
  congr 1
  refine List.map_congr_left fun p hp => ?_
  rw [h p hp]
  cases d p with
  | none => simp
  | some x => simp; ring

theorem accumulate_zero {own : List P} {d g : P → Option ℝ} {p : P} (hp : p ∈ own) :
    accumulate d (zeroGrad own g) p = d p := by
  simp only [accumulate, zeroGrad, hp, if_true]
  cases d p <;> rfl

theorem factor_spec {m n : ℝ} (hm : 0 < m) (hn : 0 ≤ n) :
    0 < factor m n ∧ factor m n ≤ 1 ∧ factor m n * n ≤ m ∧ (n + 1 / 10 ^ 6 ≤ m → factor m n = 1) := by
  have hp : 0 < n + 1 / 10 ^ 6 := by positivity
  refine ⟨lt_min one_pos (div_pos hm hp), min_le_left _ _, ?_, fun h => ?_⟩
  · calc factor m n * n ≤ m / (n + 1 / 10 ^ 6) * n := mul_le_mul_of_nonneg_right (min_le_right _ _) hn
      _ = m * (n / (n + 1 / 10 ^ 6)) := by ring
      _ ≤ m * 1 := by
        refine mul_le_mul_of_nonneg_left ?_ hm.le
        rw [div_le_one hp]
        have : (0 : ℝ) < 1 / 10 ^ 6 := by positivity
        linarith
      _ = m := mul_one m
  · exact min_eq_left ((one_le_div hp).2 h)

/-- What the optimizer sees. -/
theorem seen (c : Cfg P S B) (b : B) (w : World P) (hm : 0 < c.maxNorm) :
    Spec.Shortened c.own c.maxNorm (c.deriv b w.value)
      (clip c.own c.maxNorm (accumulate (c.deriv b w.value) (zeroGrad c.own w.grad))) := by
  have he : Spec.sq c.own (accumulate (c.deriv b w.value) (zeroGrad c.own w.grad)) = Spec.sq c.own (c.deriv b w.value) :=
    sq_congr fun p hp => accumulate_zero hp
  obtain ⟨h1, h2, h3, h4⟩ := factor_spec (n := √(Spec.sq c.own (c.deriv b w.value))) hm (Real.sqrt_nonneg _)
  have hg : ∀ p ∈ c.own, clip c.own c.maxNorm (accumulate (c.deriv b w.value) (zeroGrad c.own w.grad)) p =
      (c.deriv b w.value p).map (· * factor c.maxNorm √(Spec.sq c.own (c.deriv b w.value))) := by
    intro p hp
    simp only [clip, hp, if_true, norm_present, he, accumulate_zero hp]
  refine ⟨_, h1, h2, hg, ?_, h4⟩
  rw [sq_mul _ _ _ _ hg, ← Real.sq_sqrt (sq_nonneg c.own (c.deriv b w.value)), ← mul_pow,
    Real.sqrt_sq (Real.sqrt_nonneg _)]
  exact pow_le_pow_left₀ (mul_nonneg h1.le (Real.sqrt_nonneg _)) h3 2

theorem clip_congr {own : List P} {m : ℝ} {g d : P → Option ℝ} (h : ∀ p ∈ own, g p = d p) (p : P) (hp : p ∈ own) :
    clip own m g p = clip own m d p := by
  simp only [clip, hp, if_true, norm_present, sq_congr h, h p hp]

theorem assign_other (ps : List P) (xs : List ℝ) (v : P → ℝ) (p : P) (hp : p ∉ ps) : assign ps xs v p = v p := by
  induction ps generalizing xs v with
  | nil => rfl
  | cons q qs ih =>
    cases xs with
    | nil => rfl
    | cons x xs =>
      rw [assign, ih _ _ (fun h => hp (List.mem_cons_of_mem _ h)), Function.update_of_ne]
      exact fun h => hp (h ▸ List.mem_cons_self)

theorem assign_own (ps : List P) (hn : ps.Nodup) (xs : List ℝ) (v : P → ℝ) (hl : xs.length = ps.length) :
    ps.map (assign ps xs v) = xs := by
  induction ps generalizing xs v with
  | nil => exact (List.length_eq_zero_iff.1 hl).symm
  | cons q qs ih =>
    cases xs with
    | nil => simp at hl
    | cons x xs =>
      rw [List.nodup_cons] at hn
      simp only [List.map_cons, assign]
      rw [assign_other _ _ _ _ hn.1, Function.update_self, ih hn.2 _ _ (by simpa using hl)]

/-- A step does not look at the old gradients. -/
theorem backward_junk (c : Cfg P S B) (b : B) (s : State S) (v : P → ℝ) (g g' : P → Option ℝ) :
    (backward c b s ⟨v, g⟩).1 = (backward c b s ⟨v, g'⟩).1 ∧
      (backward c b s ⟨v, g⟩).2.value = (backward c b s ⟨v, g'⟩).2.value := by
  have h : ∀ p ∈ c.own, accumulate (c.deriv b v) (zeroGrad c.own g) p = accumulate (c.deriv b v) (zeroGrad c.own g') p :=
    fun p hp => (accumulate_zero hp).trans (accumulate_zero hp).symm
  have hm : (c.own.map fun p => (v p, clip c.own c.maxNorm (accumulate (c.deriv b v) (zeroGrad c.own g)) p)) =
      c.own.map fun p => (v p, clip c.own c.maxNorm (accumulate (c.deriv b v) (zeroGrad c.own g')) p) :=
    List.map_congr_left fun p hp => by rw [clip_congr h p hp]
  simp only [backward, hm, norm_present, sq_congr h, and_self]

/-! ## C110 -/

/-- **C110.** A step gives the optimizer, for its own parameters and with the current rate, their values and the
derivatives of this batch's loss, shortened to the limit; it writes what the optimizer answers. -/
theorem C110_step (c : Cfg P S B) (b : B) (s : State S) (w : World P) (hm : 0 < c.maxNorm) (hn : c.own.Nodup)
    (hl : ∀ o r l, (c.step o r l).2.length = l.length) :
    ∃ g, Spec.Shortened c.own c.maxNorm (c.deriv b w.value) g ∧
      let answer := c.step s.opt (c.rate s.steps) (c.own.map fun p => (w.value p, g p))
      (backward c b s w).1.opt = answer.1 ∧ (backward c b s w).1.steps = s.steps + 1 ∧
        c.own.map (backward c b s w).2.value = answer.2 ∧ ∀ p, p ∉ c.own → (backward c b s w).2.value p = w.value p := by
  refine ⟨_, seen c b w hm, rfl, rfl, ?_, fun p hp => assign_other _ _ _ _ hp⟩
  exact assign_own _ hn _ _ (by rw [hl, List.length_map])

/-- **C110.** In any sequence of steps of any losses, gradients that are left over from anywhere have no effect: not on
the values, not on the optimizers, not on the logs. -/
theorem C110_isolated (cs : Nat → Cfg P S B) (junk : Nat → P → Option ℝ) (xs : List (Nat × B)) (k : Nat) (y : System P S) :
    (Spec.runJunk cs junk k xs y).losses = (y.run cs xs).losses ∧
      (Spec.runJunk cs junk k xs y).world.value = (y.run cs xs).world.value := by
  suffices h : ∀ xs k (y z : System P S), y.losses = z.losses → y.world.value = z.world.value →
      (Spec.runJunk cs junk k xs y).losses = (z.run cs xs).losses ∧
        (Spec.runJunk cs junk k xs y).world.value = (z.run cs xs).world.value from h xs k y y rfl rfl
  intro xs
  induction xs with
  | nil => exact fun k y z h1 h2 => ⟨h1, h2⟩
  | cons x xs ih =>
    intro k y z h1 h2
    obtain ⟨j1, j2⟩ := backward_junk (cs x.1) x.2 (z.losses x.1) z.world.value (junk k) z.world.grad
    refine ih (k + 1) _ (z.step cs x) ?_ ?_
    · simp only [System.step, h1, h2]; rw [j1]
    · simp only [System.step, h1, h2]; rw [j2]

/-- **C110.** A parameter changes only in steps of losses that own it. -/
theorem C110_others (cs : Nat → Cfg P S B) (xs : List (Nat × B)) (y : System P S) (p : P)
    (h : ∀ x ∈ xs, p ∉ (cs x.1).own) : (y.run cs xs).world.value p = y.world.value p := by
  induction xs generalizing y with
  | nil => rfl
  | cons x xs ih =>
    rw [System.run, List.foldl_cons]
    refine (ih (y.step cs x) fun z hz => h z (List.mem_cons_of_mem _ hz)).trans ?_
    exact assign_other _ _ _ _ (h x List.mem_cons_self)

/-- … and a loss is changed by its own steps only. -/
theorem C110_loss (cs : Nat → Cfg P S B) (xs : List (Nat × B)) (y : System P S) (i : Nat) (h : ∀ x ∈ xs, x.1 ≠ i) :
    (y.run cs xs).losses i = y.losses i := by
  induction xs generalizing y with
  | nil => rfl
  | cons x xs ih =>
    rw [System.run, List.foldl_cons]
    refine (ih (y.step cs x) fun z hz => h z (List.mem_cons_of_mem _ hz)).trans ?_
    exact Function.update_of_ne (h x List.mem_cons_self).symm _ _

/-! ## C111 -/

theorem keys_ne (n : String) : "loss/" ++ n ++ "_lr" ≠ "loss/" ++ n ++ "_loss" ∧
    "loss/" ++ n ++ "_lr" ≠ "loss/" ++ n ++ "_gradient_norm" ∧
    "loss/" ++ n ++ "_loss" ≠ "loss/" ++ n ++ "_gradient_norm" := by
  refine ⟨?_, ?_, ?_⟩ <;>
  · intro h
    have := congrArg String.toList h
    simp at this

/-- What the log of a step should say: the loss and the length of its gradient at the values before the step, and the
learning rate of the step. -/
def Spec.Logged (c : Cfg P S B) (b : B) (s : State S) (w : World P) (logs : Dict String ℝ) : Prop :=
  logs.get? ("loss/" ++ c.name ++ "_loss") = some (c.loss b w.value) ∧
    logs.get? ("loss/" ++ c.name ++ "_gradient_norm") = some √(Spec.sq c.own (c.deriv b w.value)) ∧
    logs.get? ("loss/" ++ c.name ++ "_lr") = some (c.rate s.steps)

theorem logged (c : Cfg P S B) (b : B) (s : State S) (w : World P) :
    let logs := (backward c b s w).1.logs
    logs.get? ("loss/" ++ c.name ++ "_loss") = some (c.loss b w.value) ∧
      logs.get? ("loss/" ++ c.name ++ "_gradient_norm") = some √(Spec.sq c.own (c.deriv b w.value)) ∧
      logs.get? ("loss/" ++ c.name ++ "_lr") = some (c.rate (s.steps + 1)) := by
  obtain ⟨h1, h2, h3⟩ := keys_ne c.name
  have he : norm (present c.own (accumulate (c.deriv b w.value) (zeroGrad c.own w.grad))) =
      √(Spec.sq c.own (c.deriv b w.value)) := by
    rw [norm_present, sq_congr fun p hp => accumulate_zero hp]
  refine ⟨?_, ?_, ?_⟩
  · simp only [backward]
    rw [Dict.get?_set_ne (by first | exact h3 | exact h3.symm), Dict.get?_set_self]
  · simp only [backward]
    rw [Dict.get?_set_self, he]
  · simp only [backward]
    rw [Dict.get?_set_ne (by first | exact h2 | exact h2.symm), Dict.get?_set_ne (by first | exact h1 | exact h1.symm),
      Dict.get?_set_self]

/-- The claim: every step logs its own numbers. -/
def C111_claim : Prop := ∀ (c : Cfg Unit Unit Unit) (b : Unit) (s : State Unit) (w : World Unit),
  Spec.Logged c b s w (backward c b s w).1.logs

/-- **C111, partial.** Loss and gradient are logged as they should; the rate too, if the schedule keeps it for one more
step. Missing: it is the rate of the next step, see `C111_false`. -/
theorem C111_partial (c : Cfg P S B) (b : B) (s : State S) (w : World P) (h : c.rate (s.steps + 1) = c.rate s.steps) :
    Spec.Logged c b s w (backward c b s w).1.logs := by
  obtain ⟨h1, h2, h3⟩ := logged c b s w
  exact ⟨h1, h2, h3.trans (by rw [h])⟩

/-- **C111.** Whenever the rate changes, the wrong one is logged. -/
theorem C111_rate (c : Cfg P S B) (b : B) (s : State S) (w : World P) (h : c.rate (s.steps + 1) ≠ c.rate s.steps) :
    ¬ Spec.Logged c b s w (backward c b s w).1.logs := by
  obtain ⟨_, _, h3⟩ := logged c b s w
  rintro ⟨_, _, h4⟩
  exact h (Option.some.inj (h3.symm.trans h4))

namespace Ex

/-- Gradient descent for `x ^ 2`, with rates 1/4, 1/8, … -/
noncomputable def descent : Cfg Unit Unit Unit where
  name := "q"
  own := [()]
  maxNorm := 10
  loss _ v := v () ^ 2
  deriv _ v _ := some (2 * v ())
  step _ r l := ((), l.map fun x => match x.2 with
    | some g => x.1 - r * g
    | none => x.1)
  rate k := 1 / 2 ^ (k + 2)

end Ex

/-- **C111** is false. -/
theorem C111_false : ¬ C111_claim := fun h =>
  C111_rate Ex.descent () ⟨(), 0, []⟩ ⟨fun _ => 1, fun _ => none⟩ (by norm_num [Ex.descent]) (h _ _ _ _)

/-- A step of the example, with a left over gradient, at 1: the gradient 2 is short enough, the new value is
1 - 2 / 4. -/
example : (backward Ex.descent () ⟨(), 0, []⟩ ⟨fun _ => 1, fun _ => some 100⟩).2.value () = 1 / 2 := by
  have h : √(4 : ℝ) = 2 := by rw [show (4 : ℝ) = 2 ^ 2 by norm_num]; exact Real.sqrt_sq (by norm_num)
  have h' : min (1 : ℝ) (10 / (2 + 1 / 1000000)) = 1 := min_eq_left (by norm_num)
  simp only [backward, Ex.descent, assign, clip, accumulate, zeroGrad, present, norm, factor, List.filterMap_cons,
    List.filterMap_nil, List.mem_singleton, if_true, List.map_cons, List.map_nil, Function.update_self, Option.map_some]
  norm_num [h] at h' ⊢

/-- At 100 the gradient 200 is shortened to just below 10. -/
example : (backward Ex.descent () ⟨(), 0, []⟩ ⟨fun _ => 100, fun _ => none⟩).2.value () =
    100 - 1 / 4 * (200 * (10 / (200 + 1 / 10 ^ 6))) := by
  have h : √(40000 : ℝ) = 200 := by rw [show (40000 : ℝ) = 200 ^ 2 by norm_num]; exact Real.sqrt_sq (by norm_num)
  have h' : min (1 : ℝ) (10 / (200 + 1 / 1000000)) = 10 / (200 + 1 / 1000000) := min_eq_right (by norm_num)
  simp only [backward, Ex.descent, assign, clip, accumulate, zeroGrad, present, norm, factor, List.filterMap_cons,
    List.filterMap_nil, List.mem_singleton, if_true, List.map_cons, List.map_nil, Function.update_self, Option.map_some]
  norm_num [h] at h' ⊢

end LossStep

end Verif
