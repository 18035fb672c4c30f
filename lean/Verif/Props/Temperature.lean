import Mathlib.Analysis.Calculus.Deriv.Mul
import Mathlib.Analysis.Complex.ExponentialBounds
import Mathlib.Analysis.SpecialFunctions.Log.Basic
import Mathlib.Algebra.BigOperators.Ring.List
import Verif.Model.Temperature
import Verif.Props.LossStep

/-!
# C112: the temperature follows the entropy
-/

namespace Verif

namespace Temp

open LossStep

/-! ## Specification -/

/-- The entropy as estimated from the batch: the mean of minus the log-probabilities -/
noncomputable def Spec.entropy (logp : List ℝ) : ℝ := -(logp.sum / logp.length)

/-! ## Lemmas -/

theorem loss_eq (logp : List ℝ) (h : logp ≠ []) (target ln : ℝ) : loss logp target ln = ln * (Spec.entropy logp - target) := by
  have hl : (logp.length : ℝ) ≠ 0 := by exact_mod_cast (List.length_pos_iff.2 h).ne'
  have : (logp.map fun l => ln * (-l - target)).sum = ln * (-logp.sum - logp.length * target) := by
    induction logp with
    | nil => simp
    | cons x xs ih =>
      by_cases hx : xs = []
      · subst hx; simp
      · rw [List.map_cons, List.sum_cons, List.sum_cons, ih hx (by exact_mod_cast (List.length_pos_iff.2 hx).ne')]
        push_cast [List.length_cons]; ring
  rw [loss, this, Spec.entropy]
  field_simp

/-- **C112.** The derivative of the loss is the distance of the entropy from its target. -/
theorem C112_gradient (logp : List ℝ) (h : logp ≠ []) (target ln : ℝ) :
    HasDerivAt (loss logp target) (Spec.entropy logp - target) ln := by
  have : loss logp target = fun ln => ln * (Spec.entropy logp - target) := funext fun ln => loss_eq logp h target ln
  rw [this]
  simpa using (hasDerivAt_id ln).mul_const (Spec.entropy logp - target)

/-- The value after the step of the optimizer -/
theorem backward_value (maxNorm : ℝ) (hm : 0 < maxNorm) (rate : Nat → ℝ) (logp : List ℝ) (h : logp ≠ []) (target : ℝ)
    (cb : LossStep.State Unit) (w : World Unit) :
    ∃ c, 0 < c ∧ c ≤ 1 ∧ |c * (Spec.entropy logp - target)| ≤ maxNorm ∧
      (|Spec.entropy logp - target| + 1 / 10 ^ 6 ≤ maxNorm → c = 1) ∧
      (backward (cfg maxNorm rate) (logp, target) cb w).2.value () =
        w.value () - rate cb.steps * (c * (Spec.entropy logp - target)) := by
  obtain ⟨g, ⟨c, hc0, hc1, hg, hs, h1⟩, _, _, hv, _⟩ := C110_step (cfg maxNorm rate) (logp, target) cb w hm
    (by simp [cfg]) (by intro o r l; simp [cfg, sgd])
  have hd : (cfg maxNorm rate).deriv (logp, target) w.value () = some (Spec.entropy logp - target) := by
    simp only [cfg]; rw [(C112_gradient logp h target _).deriv]
  have hgu : g () = some ((Spec.entropy logp - target) * c) := by
    rw [hg () (by simp [cfg]), hd]; rfl
  have hmax : (cfg maxNorm rate).maxNorm = maxNorm := rfl
  have hown : (cfg maxNorm rate).own = [()] := rfl
  refine ⟨c, hc0, hc1, ?_, fun hle => h1 ?_, ?_⟩
  · rw [hmax, hown, LossStep.Spec.sq] at hs
    simp only [List.map_cons, List.map_nil, List.sum_cons, List.sum_nil, hgu, add_zero] at hs
    rw [mul_comm]
    exact abs_le_of_sq_le_sq hs hm.le
  · rw [hmax, hown, LossStep.Spec.sq]
    simp only [List.map_cons, List.map_nil, List.sum_cons, List.sum_nil, hd, add_zero, Real.sqrt_sq_eq_abs]
    exact hle
  · rw [hown] at hv
    simp only [List.map_cons, List.map_nil, hgu] at hv
    have := List.head_eq_of_cons_eq hv
    rw [this]
    simp only [cfg]; ring

/-! ## C112 -/

/-- **C112.** One batch multiplies the temperature by `exp (rate * c * (target - entropy))`, up to the maximum. The factor
`c` comes from the limit of the gradient and is 1 if the distance is small enough. -/
theorem C112_batch (maxNorm maxAlpha : ℝ) (hm : 0 < maxNorm) (ha : 0 < maxAlpha) (rate target : Nat → ℝ) (logp : List ℝ)
    (h : logp ≠ []) (s : State) :
    ∃ c, 0 < c ∧ c ≤ 1 ∧ |c * (Spec.entropy logp - target s.batches)| ≤ maxNorm ∧
      (|Spec.entropy logp - target s.batches| + 1 / 10 ^ 6 ≤ maxNorm → c = 1) ∧
      (batch maxNorm maxAlpha rate target logp s).alpha =
        min (s.alpha * Real.exp (rate s.cb.steps * c * (target s.batches - Spec.entropy logp))) maxAlpha := by
  obtain ⟨c, h0, h1, h2, h3, hv⟩ := backward_value maxNorm hm rate logp h (target s.batches) s.cb s.world
  refine ⟨c, h0, h1, h2, h3, ?_⟩
  simp only [batch, State.alpha]
  rw [hv, Real.exp_monotone.map_min, Real.exp_log ha, ← Real.exp_add]
  congr 2
  ring

/-- **C112.** The temperature rises exactly if the entropy is below the target and the maximum is not reached, and falls
exactly if the entropy is above the target. -/
theorem C112_direction (maxNorm maxAlpha : ℝ) (hm : 0 < maxNorm) (ha : 0 < maxAlpha) (rate target : Nat → ℝ)
    (hr : ∀ k, 0 < rate k) (logp : List ℝ) (h : logp ≠ []) (s : State) (hs : s.alpha ≤ maxAlpha) :
    (s.alpha < (batch maxNorm maxAlpha rate target logp s).alpha ↔
      Spec.entropy logp < target s.batches ∧ s.alpha < maxAlpha) ∧
    ((batch maxNorm maxAlpha rate target logp s).alpha < s.alpha ↔ target s.batches < Spec.entropy logp) := by
  obtain ⟨c, h0, _, _, _, hv⟩ := C112_batch maxNorm maxAlpha hm ha rate target logp h s
  have hp : 0 < s.alpha := Real.exp_pos _
  have hk : 0 < rate s.cb.steps * c := mul_pos (hr _) h0
  rw [hv]
  constructor
  · rw [lt_min_iff, lt_mul_iff_one_lt_right hp, Real.one_lt_exp_iff, mul_pos_iff_of_pos_left hk, sub_pos]
  · rw [min_lt_iff, mul_lt_iff_lt_one_right hp, Real.exp_lt_one_iff]
    constructor
    · rintro (h | h)
      · by_contra hn
        exact absurd (mul_nonneg hk.le (sub_nonneg.2 (not_lt.1 hn))) (not_le.2 h)
      · exact absurd hs (not_le.2 h)
    · exact fun h => .inl (mul_neg_of_pos_of_neg hk (sub_neg.2 h))

/-- The schedule moves by one step in each batch, and so does the learning rate. -/
theorem C112_schedules (maxNorm maxAlpha : ℝ) (rate target : Nat → ℝ) (logps : List (List ℝ)) (s : State) :
    (logps.foldl (fun s l => batch maxNorm maxAlpha rate target l s) s).batches = s.batches + logps.length ∧
      (logps.foldl (fun s l => batch maxNorm maxAlpha rate target l s) s).cb.steps = s.cb.steps + logps.length := by
  induction logps generalizing s with
  | nil => exact ⟨rfl, rfl⟩
  | cons l ls ih =>
    obtain ⟨h1, h2⟩ := ih (batch maxNorm maxAlpha rate target l s)
    rw [List.foldl_cons, List.length_cons]
    refine ⟨h1.trans ?_, h2.trans ?_⟩
    · simp only [batch]; omega
    · simp only [batch, backward]; omega

/-- Log-probabilities -1 and 1: the entropy is 0. With target 1 and rate 1/2, the temperature 1 becomes `exp (1/2)`; the
maximum 10 is not reached. -/
example : (batch 10 10 (fun _ => 1 / 2) (fun _ => 1) [-1, 1] ⟨⟨fun _ => 0, fun _ => none⟩, ⟨(), 0, []⟩, 0⟩).alpha =
    Real.exp (1 / 2) := by
  obtain ⟨c, _, _, _, h3, hv⟩ := C112_batch 10 10 (by norm_num) (by norm_num) (fun _ => 1 / 2) (fun _ => 1) [-1, 1]
    (by simp) ⟨⟨fun _ => 0, fun _ => none⟩, ⟨(), 0, []⟩, 0⟩
  have he : Spec.entropy [-1, 1] = 0 := by norm_num [Spec.entropy]
  have hc : c = 1 := h3 (by norm_num [he])
  have hm : Real.exp (1 / 2) ≤ 10 := by
    refine (Real.exp_le_exp.2 (by norm_num : (1 / 2 : ℝ) ≤ 1)).trans ?_
    linarith [Real.exp_one_lt_d9]
  rw [hv, hc, he]
  simp only [State.alpha, Real.exp_zero, one_mul, mul_one, sub_zero]
  exact min_eq_left hm

end Temp

end Verif
