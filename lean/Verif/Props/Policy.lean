import Verif.Model.Policy
import Mathlib.Probability.Distributions.Gaussian.Real
import Mathlib.MeasureTheory.Function.JacobianOneDim
import Mathlib.Analysis.SpecialFunctions.Trigonometric.DerivHyp

/-!
# The policy head's log-probability (C91)
-/

namespace Verif

namespace Policy

open Real MeasureTheory ProbabilityTheory
open scoped ENNReal NNReal

theorem clamp_bounds (lo hi x : ℝ) (h : lo ≤ hi) : lo ≤ clamp lo hi x ∧ clamp lo hi x ≤ hi :=
  ⟨le_min (le_max_right _ _) h, min_le_right _ _⟩

theorem std_pos (s : ℝ) : 0 < std s := exp_pos _

theorem hasDerivAt_tanh (x : ℝ) : HasDerivAt tanh (1 / cosh x ^ 2) x := by
  have h : HasDerivAt (fun x => sinh x / cosh x) ((cosh x * cosh x - sinh x * sinh x) / cosh x ^ 2) x :=
    (hasDerivAt_sinh x).div (hasDerivAt_cosh x) (cosh_pos x).ne'
  have e1 : (fun x => sinh x / cosh x) = tanh := by
    funext y; rw [tanh_eq_sinh_div_cosh]
  have e2 : cosh x * cosh x - sinh x * sinh x = 1 := by
    have := cosh_sq x; nlinarith
  rw [e1, e2] at h
  exact h

/-- torch's expression is the logarithm of the derivative of `tanh`. -/
theorem tanhLogJacobian_eq (x : ℝ) : tanhLogJacobian x = log (1 / cosh x ^ 2) := by
  have hc : cosh x = exp x * (1 + exp (-2 * x)) / 2 := by
    rw [cosh_eq, mul_add, ← exp_add]; ring_nf
  have h1 : (0 : ℝ) < 1 + exp (-2 * x) := by positivity
  rw [one_div, log_inv, log_pow, hc, log_div (by positivity) (by norm_num), log_mul (exp_pos x).ne' h1.ne', log_exp]
  unfold tanhLogJacobian softplus
  push_cast
  ring

/-- The variance as a non-negative real. -/
noncomputable def var (s : ℝ) : ℝ≥0 := NNReal.mk (std s ^ 2) (sq_nonneg _)

theorem var_ne (s : ℝ) : var s ≠ 0 := by
  intro h
  have : std s ^ 2 = 0 := congrArg NNReal.toReal h
  exact (pow_pos (std_pos s) 2).ne' this

theorem exp_normalLogProb (μ s x : ℝ) : exp (normalLogProb μ (std s) x) = gaussianPDFReal μ (var s) x := by
  unfold normalLogProb gaussianPDFReal
  have hs := std_pos s
  rw [sub_sub, exp_sub, exp_add, exp_log hs, exp_log (by positivity)]
  have : √(2 * π * (var s : ℝ)) = √(2 * π) * std s := by
    show √(2 * π * (std s ^ 2)) = _
    rw [sqrt_mul (by positivity), sqrt_sq hs.le]
  rw [this]
  show exp (-(x - μ) ^ 2 / (2 * std s ^ 2)) / (std s * √(2 * π)) = (√(2 * π) * std s)⁻¹ * exp (-(x - μ) ^ 2 / (2 * std s ^ 2))
  field_simp

/-- The density of one squashed action. -/
noncomputable def dens (m s a : ℝ) : ℝ :=
  if a ∈ Set.Ioo (-1 : ℝ) 1 then exp (normalLogProb (mean m) (std s) (artanh a) - tanhLogJacobian (artanh a)) else 0

theorem dens_nonneg (m s a : ℝ) : 0 ≤ dens m s a := by
  unfold dens; split
  · exact (exp_pos _).le
  · exact le_rfl

theorem measurable_dens (m s : ℝ) : Measurable (dens m s) := by
  unfold dens
  refine Measurable.ite measurableSet_Ioo ?_ measurable_const
  unfold normalLogProb tanhLogJacobian softplus artanh
  fun_prop

theorem measurable_tanh' : Measurable tanh := by
  have : Continuous tanh := continuous_iff_continuousAt.mpr fun x => (hasDerivAt_tanh x).continuousAt
  exact this.measurable

/-- The law of the value before `tanh`. -/
theorem law_affine (m s : ℝ) : (gaussianReal 0 1).map (fun e => mean m + std s * e) = gaussianReal (mean m) (var s) := by
  have h1 := gaussianReal_map_const_mul (μ := 0) (v := 1) (std s)
  have h2 := gaussianReal_map_const_add (μ := std s * 0) (v := NNReal.mk (std s ^ 2) (sq_nonneg _) * 1) (mean m)
  rw [← h1, Measure.map_map (by fun_prop) (by fun_prop)] at h2
  rw [show (fun e => mean m + std s * e) = (fun x => mean m + x) ∘ (fun x => std s * x) from rfl, h2]
  congr 1
  · ring
  · rw [mul_one]; rfl

theorem law_tanh (m s : ℝ) :
    (gaussianReal (mean m) (var s)).map tanh = volume.withDensity (fun a => ENNReal.ofReal (dens m s a)) := by
  ext A hA
  rw [Measure.map_apply measurable_tanh' hA, gaussianReal_apply _ (var_ne s), withDensity_apply _ hA]
  have himg : tanh '' (tanh ⁻¹' A) = A ∩ Set.Ioo (-1) 1 := by
    rw [Set.image_preimage_eq_inter_range]
    congr 1
    rw [← Set.image_univ]
    exact tanh_bijOn.image_eq
  have h0 : ∫⁻ a in A, ENNReal.ofReal (dens m s a) = ∫⁻ a in A ∩ Set.Ioo (-1) 1, ENNReal.ofReal (dens m s a) := by
    rw [← lintegral_indicator hA, ← lintegral_indicator (hA.inter measurableSet_Ioo)]
    congr 1
    funext a
    by_cases h : a ∈ A
    · by_cases h' : a ∈ Set.Ioo (-1 : ℝ) 1
      · rw [Set.indicator_of_mem h, Set.indicator_of_mem (Set.mem_inter h h')]
      · rw [Set.indicator_of_mem h, Set.indicator_of_notMem (fun hh => h' hh.2)]
        simp [dens, h']
    · rw [Set.indicator_of_notMem h, Set.indicator_of_notMem (fun hh => h hh.1)]
  rw [h0, ← himg, lintegral_image_eq_lintegral_abs_deriv_mul (measurable_tanh' hA)
    (fun x _ => (hasDerivAt_tanh x).hasDerivWithinAt) (tanh_injective.injOn)]
  congr 1
  funext x
  have hx : tanh x ∈ Set.Ioo (-1 : ℝ) 1 := ⟨neg_one_lt_tanh x, tanh_lt_one x⟩
  rw [dens, if_pos hx, artanh_tanh, exp_sub, exp_normalLogProb, tanhLogJacobian_eq, exp_log (by positivity),
    ← ENNReal.ofReal_mul (abs_nonneg _), gaussianPDF]
  congr 1
  have : (0 : ℝ) < 1 / cosh x ^ 2 := by positivity
  rw [abs_of_pos this]
  field_simp

theorem law1 (m s : ℝ) :
    (gaussianReal 0 1).map (fun e => tanh (mean m + std s * e)) = volume.withDensity (fun a => ENNReal.ofReal (dens m s a)) := by
  rw [← law_tanh, ← law_affine, Measure.map_map measurable_tanh' (by fun_prop)]
  rfl

theorem lintegral_fin_prod {n : Nat} (f : Fin n → ℝ → ℝ≥0∞) (hf : ∀ i, Measurable (f i)) :
    ∫⁻ x : Fin n → ℝ, ∏ i, f i (x i) = ∏ i, ∫⁻ x, f i x := by
  induction n with
  | zero => simp [volume_pi]
  | succ n ih =>
    have hm : Measurable fun x : Fin (n + 1) → ℝ => ∏ i, f i (x i) := by
      refine Finset.measurable_prod _ fun i _ => (hf i).comp (measurable_pi_apply i)
    have hp := (volume_preserving_piFinSuccAbove (fun _ : Fin (n + 1) => ℝ) 0).symm
    rw [← hp.lintegral_comp hm, Fin.prod_univ_succ, ← ih (fun i => f i.succ) (fun i => hf _), ← lintegral_prod_mul]
    · rw [Measure.volume_eq_prod]
      refine lintegral_congr fun x => ?_
      rw [Fin.prod_univ_succ]
      simp [MeasurableEquiv.piFinSuccAbove_symm_apply, Fin.insertNthEquiv]
    · exact (hf 0).aemeasurable
    · exact (Finset.measurable_prod _ fun i _ => (hf i.succ).comp (measurable_pi_apply i)).aemeasurable

theorem pi_withDensity {n : Nat} (f : Fin n → ℝ → ℝ≥0∞) (hf : ∀ i, Measurable (f i))
    [∀ i, SigmaFinite ((volume : Measure ℝ).withDensity (f i))] :
    Measure.pi (fun i => (volume : Measure ℝ).withDensity (f i)) =
      (volume : Measure (Fin n → ℝ)).withDensity (fun x => ∏ i, f i (x i)) := by
  refine Measure.pi_eq fun t ht => ?_
  rw [withDensity_apply _ (.univ_pi ht), ← lintegral_indicator (.univ_pi ht)]
  have : (Set.univ.pi t).indicator (fun x => ∏ i, f i (x i)) = fun x => ∏ i, (t i).indicator (f i) (x i) := by
    funext x
    by_cases h : x ∈ Set.univ.pi t
    · rw [Set.indicator_of_mem h]
      refine Finset.prod_congr rfl fun i _ => ?_
      rw [Set.indicator_of_mem (h i (Set.mem_univ i))]
    · rw [Set.indicator_of_notMem h]
      simp only [Set.mem_pi, Set.mem_univ, true_implies, not_forall] at h
      obtain ⟨i, hi⟩ := h
      exact (Finset.prod_eq_zero (Finset.mem_univ i) (Set.indicator_of_notMem hi _)).symm
  rw [this, lintegral_fin_prod _ fun i => (hf i).indicator (ht i)]
  refine Finset.prod_congr rfl fun i _ => ?_
  rw [lintegral_indicator (ht i), withDensity_apply _ (ht i)]

/-- What it means for a log-probability to be right: the actions have a density, and the reported number is its logarithm at the
reported action. -/
def Spec.LogDensity {n : Nat} (noise : Measure (Fin n → ℝ)) (forward : (Fin n → ℝ) → (Fin n → ℝ) × ℝ) : Prop :=
  ∃ p : (Fin n → ℝ) → ℝ, (∀ a, 0 ≤ p a) ∧
    noise.map (fun ε => (forward ε).1) = volume.withDensity (fun a => ENNReal.ofReal (p a)) ∧
    ∀ ε, 0 < p (forward ε).1 ∧ (forward ε).2 = log (p (forward ε).1)

/-- C91: with standard normal noise, for every state of the network, the log-probability returned in training is the logarithm
of the density of the returned action. -/
theorem C91 {n : Nat} (m s : Fin n → ℝ) :
    Spec.LogDensity (Measure.pi fun _ : Fin n => gaussianReal 0 1) (trainForward m s) := by
  refine ⟨fun a => ∏ i, dens (m i) (s i) (a i), fun a => Finset.prod_nonneg fun i _ => dens_nonneg _ _ _, ?_, fun ε => ?_⟩
  · have hmeas : ∀ i, Measurable fun e : ℝ => tanh (mean (m i) + std (s i) * e) :=
      fun i => measurable_tanh'.comp (by fun_prop)
    have h1 := Measure.pi_map_pi (μ := fun _ : Fin n => gaussianReal 0 1)
      (f := fun i e => tanh (mean (m i) + std (s i) * e))
      (hμ := fun i => by
        have := Measure.isProbabilityMeasure_map (μ := gaussianReal 0 1) (hmeas i).aemeasurable
        infer_instance)
      (fun i => (hmeas i).aemeasurable)
    have hs : ∀ i, SigmaFinite (volume.withDensity (fun a => ENNReal.ofReal (dens (m i) (s i) a))) := by
      intro i
      rw [← law1]
      have := Measure.isProbabilityMeasure_map (μ := gaussianReal 0 1) (hmeas i).aemeasurable
      infer_instance
    show Measure.map (fun (ε : Fin n → ℝ) i => tanh (mean (m i) + std (s i) * ε i)) _ = _
    rw [h1]
    simp only [law1]
    rw [pi_withDensity _ fun i => (measurable_dens (m i) (s i)).ennreal_ofReal]
    congr 1
    funext a
    rw [ENNReal.ofReal_prod_of_nonneg fun i _ => dens_nonneg _ _ _]
  · have hd : ∀ i, dens (m i) (s i) (tanh (mean (m i) + std (s i) * ε i)) =
        exp (normalLogProb (mean (m i)) (std (s i)) (mean (m i) + std (s i) * ε i) -
          tanhLogJacobian (mean (m i) + std (s i) * ε i)) := by
      intro i
      rw [dens, if_pos ⟨neg_one_lt_tanh _, tanh_lt_one _⟩, artanh_tanh]
    simp only [trainForward, hd]
    rw [← exp_sum, log_exp, Finset.sum_sub_distrib]
    exact ⟨exp_pos _, rfl⟩

/-- C91: actions are strictly between −1 and 1 in both modes, and with the same noise both modes act alike. -/
theorem C91_range {n : Nat} (m s ε : Fin n → ℝ) (i : Fin n) :
    -1 < (trainForward m s ε).1 i ∧ (trainForward m s ε).1 i < 1 ∧ evalForward m s ε = (trainForward m s ε).1 :=
  ⟨neg_one_lt_tanh _, tanh_lt_one _, rfl⟩

/-- A concrete case: one action dimension, zero outputs of the network, zero noise. -/
example : trainForward (n := 1) (fun _ => 0) (fun _ => 0) (fun _ => 0) = (fun _ => 0, -log (√(2 * π))) := by
  unfold trainForward normalLogProb tanhLogJacobian softplus mean std clamp
  simp
  norm_num

end Policy

end Verif
