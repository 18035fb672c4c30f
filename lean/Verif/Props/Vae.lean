import Verif.Props.Policy
import Mathlib.InformationTheory.KullbackLeibler.Basic
import Mathlib.Analysis.Complex.ExponentialBounds

/-!
# The auto-encoder's regulariser (C92)
-/

namespace Verif

namespace Policy

open Real MeasureTheory ProbabilityTheory InformationTheory
open scoped ENNReal NNReal

/-- The divergence of the encoder's distribution for one input from the standard normal prior: the latent dimensions are
independent, so it is the sum over them; the distribution of a dimension is that of `latent` under standard normal noise. -/
noncomputable def Spec.kl {n : Nat} (mu logStd : Fin n → ℝ) : ℝ :=
  ∑ i, (klDiv ((gaussianReal 0 1).map fun e => latent (n := 1) (fun _ => mu i) (fun _ => logStd i) (fun _ => e) 0)
    (gaussianReal 0 1)).toReal

/-- The square of a number as a non-negative real. -/
noncomputable def sq' (σ : ℝ) : ℝ≥0 := NNReal.mk (σ ^ 2) (sq_nonneg _)

theorem law_latent (m σ : ℝ) : (gaussianReal 0 1).map (fun e => e * σ + m) = gaussianReal m (sq' σ) := by
  have h1 := gaussianReal_map_const_mul (μ := 0) (v := 1) σ
  have h2 := gaussianReal_map_add_const (μ := σ * 0) (v := NNReal.mk (σ ^ 2) (sq_nonneg _) * 1) m
  rw [← h1, Measure.map_map (by fun_prop) (by fun_prop)] at h2
  rw [show (fun e => e * σ + m) = (fun x => x + m) ∘ (fun x => σ * x) by funext e; simp [mul_comm], h2]
  congr 1
  · ring
  · rw [mul_one]; rfl

theorem integral_sq (m : ℝ) (v : ℝ≥0) : ∫ x, x ^ 2 ∂(gaussianReal m v) = v + m ^ 2 := by
  have h := variance_fun_id_gaussianReal (μ := m) (v := v)
  have hm : MemLp (fun x : ℝ => x) 2 (gaussianReal m v) := memLp_id_gaussianReal 2
  rw [variance_eq_sub hm] at h
  have h2 := integral_id_gaussianReal (μ := m) (v := v)
  simp only [Pi.pow_apply, h2] at h
  linarith

theorem integrable_quad (m : ℝ) (v : ℝ≥0) (a b c : ℝ) : Integrable (fun x => a * x ^ 2 + b * x + c) (gaussianReal m v) := by
  have hm : MemLp (fun x : ℝ => x) 2 (gaussianReal m v) := memLp_id_gaussianReal 2
  have h2 : Integrable (fun x : ℝ => x ^ 2) (gaussianReal m v) := hm.integrable_sq
  have h1 : Integrable (fun x : ℝ => x) (gaussianReal m v) := hm.integrable one_le_two
  exact ((h2.const_mul a).add (h1.const_mul b)).add (integrable_const c)

theorem integral_quad (m : ℝ) (v : ℝ≥0) (a b c : ℝ) :
    ∫ x, (a * x ^ 2 + b * x + c) ∂(gaussianReal m v) = a * (v + m ^ 2) + b * m + c := by
  have hm : MemLp (fun x : ℝ => x) 2 (gaussianReal m v) := memLp_id_gaussianReal 2
  have h2 : Integrable (fun x : ℝ => x ^ 2) (gaussianReal m v) := hm.integrable_sq
  have h1 : Integrable (fun x : ℝ => x) (gaussianReal m v) := hm.integrable one_le_two
  have h3 : Integrable (fun x : ℝ => a * x ^ 2 + b * x) (gaussianReal m v) := (h2.const_mul a).add (h1.const_mul b)
  rw [integral_add h3 (integrable_const c), integral_add (h2.const_mul a) (h1.const_mul b),
    integral_const_mul, integral_const_mul, integral_sq, integral_id_gaussianReal]
  simp

/-- The divergence of a normal distribution from the standard one. -/
theorem klDiv_gaussian (m σ : ℝ) (hσ : 0 < σ) :
    (klDiv (gaussianReal m (sq' σ)) (gaussianReal 0 1)).toReal = (σ ^ 2 + m ^ 2 - 1) / 2 - log σ := by
  have hv : sq' σ ≠ 0 := by
    intro h
    have : σ ^ 2 = 0 := congrArg NNReal.toReal h
    exact (pow_pos hσ 2).ne' this
  have h1 : (1 : ℝ≥0) ≠ 0 := one_ne_zero
  have hac : gaussianReal m (sq' σ) ≪ gaussianReal 0 1 :=
    (gaussianReal_absolutelyContinuous m hv).trans (gaussianReal_absolutelyContinuous' 0 h1)
  have hratio : gaussianReal m (sq' σ) =
      (gaussianReal 0 1).withDensity (gaussianPDF m (sq' σ) / gaussianPDF 0 1) := by
    rw [gaussianReal_of_var_ne_zero 0 h1, ← withDensity_mul _ (measurable_gaussianPDF _ _)
      ((measurable_gaussianPDF _ _).div (measurable_gaussianPDF _ _)), gaussianReal_of_var_ne_zero m hv]
    congr 1
    funext x
    exact (ENNReal.mul_div_cancel (gaussianPDF_pos 0 h1 x).ne' gaussianPDF_ne_top).symm
  have hllr : llr (gaussianReal m (sq' σ)) (gaussianReal 0 1) =ᵐ[gaussianReal m (sq' σ)]
      fun x => (1 / 2 - 1 / (2 * σ ^ 2)) * x ^ 2 + (m / σ ^ 2) * x + (-(m ^ 2) / (2 * σ ^ 2) - log σ) := by
    have hd : (gaussianReal m (sq' σ)).rnDeriv (gaussianReal 0 1) =ᵐ[gaussianReal 0 1]
        fun x => gaussianPDF m (sq' σ) x / gaussianPDF 0 1 x := by
      have := Measure.rnDeriv_withDensity (gaussianReal 0 1)
        ((measurable_gaussianPDF m (sq' σ)).div (measurable_gaussianPDF 0 1))
      rw [← hratio] at this
      exact this
    filter_upwards [hac.ae_le hd] with x hx
    rw [llr, hx, ENNReal.toReal_div, toReal_gaussianPDF, toReal_gaussianPDF]
    have e1 := gaussianPDFReal_pos m (sq' σ) x hv
    have e2 := gaussianPDFReal_pos 0 1 x h1
    rw [log_div e1.ne' e2.ne']
    unfold gaussianPDFReal
    have hc : ((sq' σ : ℝ≥0) : ℝ) = σ ^ 2 := rfl
    rw [hc, log_mul (by positivity) (exp_pos _).ne', log_mul (by positivity) (exp_pos _).ne', log_exp, log_exp, log_inv, log_inv,
      log_sqrt (by positivity), log_sqrt (by positivity), NNReal.coe_one, mul_one,
      log_mul (x := 2 * π) (by positivity) (by positivity), log_pow]
    field_simp
    push_cast
    ring
  rw [toReal_klDiv_of_measure_eq hac (by simp), integral_congr_ae hllr, integral_quad]
  have hc : ((sq' σ : ℝ≥0) : ℝ) = σ ^ 2 := rfl
  rw [hc]
  field_simp
  ring

theorem Spec.kl_eq {n : Nat} (mu logStd : Fin n → ℝ) :
    Spec.kl mu logStd = ∑ i, ((exp (logStd i) ^ 2 + mu i ^ 2 - 1) / 2 - logStd i) := by
  unfold Spec.kl latent
  refine Finset.sum_congr rfl fun i _ => ?_
  rw [law_latent, klDiv_gaussian _ _ (exp_pos _), log_exp]

/-- C92 as a user would put it: the reported `kl_loss` of an input is the divergence of the encoder's distribution from the
standard normal prior. -/
def C92_claim : Prop := ∀ (n : Nat) (mu logStd : Fin n → ℝ), kld mu logStd = Spec.kl mu logStd

/-- What is reported is too small by half the squared distances of the standard deviations from 1. -/
theorem kld_gap {n : Nat} (mu logStd : Fin n → ℝ) :
    Spec.kl mu logStd = kld mu logStd + ∑ i, (exp (logStd i) - 1) ^ 2 / 2 := by
  rw [Spec.kl_eq, kld]
  have : (n : ℝ) = ∑ _i : Fin n, (1 : ℝ) := by simp
  rw [this, ← Finset.sum_sub_distrib, ← Finset.sum_add_distrib]
  refine Finset.sum_congr rfl fun i _ => ?_
  ring

/-- C92 as a user would put it is false. -/
theorem C92_false : ¬ C92_claim := by
  intro h
  have h1 := h 1 (fun _ => 0) (fun _ => 1)
  rw [kld_gap] at h1
  have : (exp 1 - 1) ^ 2 / 2 > 0 := by
    have := add_one_lt_exp (one_ne_zero (α := ℝ))
    have : 0 < exp 1 - 1 := by linarith
    positivity
  simp at h1
  nlinarith [exp_one_gt_d9]

theorem kld_term (m l : ℝ) : 0 ≤ -l + m ^ 2 * 0.5 + exp l - 1 ∧ (-l + m ^ 2 * 0.5 + exp l - 1 = 0 ↔ m = 0 ∧ l = 0) := by
  have h1 := add_one_le_exp l
  have h2 := sq_nonneg m
  refine ⟨by nlinarith, ?_, ?_⟩
  · intro h
    have hl : exp l = l + 1 := by nlinarith
    have : l = 0 := by
      by_contra hne
      have := add_one_lt_exp hne
      linarith
    have hm : m ^ 2 = 0 := by nlinarith
    exact ⟨by simpa using hm, this⟩
  · rintro ⟨rfl, rfl⟩; simp

/-- C92, the part that holds: the reported number is a lower bound of the divergence, exact if and only if all the standard
deviations are 1; it is never negative and vanishes exactly when the encoder's distribution is the prior. -/
theorem C92_partial {n : Nat} (mu logStd : Fin n → ℝ) :
    0 ≤ kld mu logStd ∧ kld mu logStd ≤ Spec.kl mu logStd ∧
    (kld mu logStd = Spec.kl mu logStd ↔ ∀ i, exp (logStd i) = 1) ∧
    (kld mu logStd = 0 ↔ ∀ i, (gaussianReal 0 1).map (fun e => latent mu logStd (fun _ => e) i) = gaussianReal 0 1) := by
  have hk : kld mu logStd = ∑ i, (-logStd i + mu i ^ 2 * 0.5 + exp (logStd i) - 1) := by
    rw [Finset.sum_sub_distrib]; simp [kld]
  have hg := kld_gap mu logStd
  have hn : ∀ i ∈ Finset.univ, (0 : ℝ) ≤ (exp (logStd i) - 1) ^ 2 / 2 := fun i _ => by positivity
  have hsum := Finset.sum_nonneg hn
  refine ⟨?_, by linarith, ?_, ?_⟩
  · rw [hk]; exact Finset.sum_nonneg fun i _ => (kld_term _ _).1
  · constructor
    · intro h i
      have h0 : ∑ i, (exp (logStd i) - 1) ^ 2 / 2 = 0 := by linarith
      have := (Finset.sum_eq_zero_iff_of_nonneg hn).mp h0 i (Finset.mem_univ i)
      have : (exp (logStd i) - 1) ^ 2 = 0 := by linarith
      have := pow_eq_zero_iff (two_ne_zero) |>.mp this
      linarith
    · intro h
      have : ∑ i, (exp (logStd i) - 1) ^ 2 / 2 = 0 := Finset.sum_eq_zero fun i _ => by rw [h i]; simp
      linarith
  · rw [hk, Finset.sum_eq_zero_iff_of_nonneg fun i _ => (kld_term _ _).1]
    simp only [Finset.mem_univ, true_implies, (kld_term _ _).2]
    refine forall_congr' fun i => ?_
    unfold latent
    rw [law_latent, gaussianReal_ext_iff]
    refine and_congr Iff.rfl ?_
    constructor
    · intro h; rw [h]; ext; simp [sq']
    · intro h
      have h2 : exp (logStd i) ^ 2 = 1 := by
        have := congrArg NNReal.toReal h
        simpa [sq'] using this
      have h3 : exp (logStd i) = 1 := by
        have hp := exp_pos (logStd i)
        nlinarith
      exact exp_eq_one_iff _ |>.mp h3

/-- A concrete case: mean 1 and standard deviation 1 in one dimension give 1/2, which is right. -/
example : kld (fun _ : Fin 1 => (1 : ℝ)) (fun _ => 0) = 1 / 2 ∧ Spec.kl (fun _ : Fin 1 => (1 : ℝ)) (fun _ => 0) = 1 / 2 := by
  constructor
  · simp [kld]; norm_num
  · rw [Spec.kl_eq]; simp

end Policy

end Verif
