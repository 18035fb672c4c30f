import Verif.Model.SacPolicy
import Verif.Props.Policy
import Verif.Props.Vae
import Mathlib.InformationTheory.KullbackLeibler.Basic

/-!
# C117: the policy loss
-/

namespace Verif

namespace SacPolicy

open Real MeasureTheory ProbabilityTheory InformationTheory Policy
open scoped ENNReal NNReal

/-! ## Specification -/

namespace Spec

/-- The possible actions: all components strictly between -1 and 1 -/
def box (n : Nat) : Set (Fin n → ℝ) := Set.univ.pi fun _ => Set.Ioo (-1) 1

/-- The integral of `exp (Q / alpha)` over the actions -/
noncomputable def partition {n : Nat} (Q : (Fin n → ℝ) → ℝ) (alpha : ℝ) : ℝ := ∫ a in box n, exp (Q a / alpha)

/-- Boltzmann's law: actions with density proportional to `exp (Q / alpha)` -/
noncomputable def boltzmann {n : Nat} (Q : (Fin n → ℝ) → ℝ) (alpha : ℝ) : Measure (Fin n → ℝ) :=
  volume.withDensity fun a => ENNReal.ofReal ((box n).indicator (fun a => exp (Q a / alpha) / partition Q alpha) a)

/-- Standard normal noise -/
noncomputable def noise (n : Nat) : Measure (Fin n → ℝ) := Measure.pi fun _ => gaussianReal 0 1

/-- The law of the policy's actions -/
noncomputable def law {n : Nat} (m s : Fin n → ℝ) : Measure (Fin n → ℝ) := (noise n).map fun ε => (trainForward m s ε).1

/-- The value of an action: the smaller one of the critics', if there are two -/
noncomputable def value {n : Nat} (q1 : (Fin n → ℝ) → ℝ) (q2 : Option ((Fin n → ℝ) → ℝ)) (a : Fin n → ℝ) : ℝ :=
  match q2 with
  | none => q1 a
  | some q2 => if q1 a ≤ q2 a then q1 a else q2 a

end Spec

open Spec

variable {n : Nat}

instance : IsProbabilityMeasure (noise n) := by unfold noise; infer_instance

theorem measurableSet_box : MeasurableSet (box n) := MeasurableSet.univ_pi fun _ => measurableSet_Ioo

theorem volume_box : volume (box n) = ENNReal.ofReal (2 ^ n) := by
  rw [box, volume_pi_pi]
  simp only [Real.volume_Ioo]
  rw [Finset.prod_const, Finset.card_univ, Fintype.card_fin, ← ENNReal.ofReal_pow (by norm_num)]
  norm_num

section

variable {Q : (Fin n → ℝ) → ℝ} {c alpha : ℝ} (hQ : Measurable Q) (hc : ∀ a, |Q a| ≤ c) (ha : 0 < alpha)

include hQ hc ha

theorem integrableOn_exp : IntegrableOn (fun a => exp (Q a / alpha)) (box n) := by
  refine Measure.integrableOn_of_bounded (M := exp (c / alpha)) ?_ ?_ ?_
  · rw [volume_box]; exact ENNReal.ofReal_ne_top
  · exact (measurable_exp.comp (hQ.div_const _)).aestronglyMeasurable
  · refine Filter.Eventually.of_forall fun a => ?_
    rw [norm_eq_abs, abs_of_pos (exp_pos _)]
    refine exp_le_exp.2 ?_
    have := (abs_le.1 (hc a)).2
    gcongr

theorem partition_pos : 0 < partition Q alpha := by
  unfold partition
  rw [setIntegral_pos_iff_support_of_nonneg_ae (Filter.Eventually.of_forall fun a => (exp_pos _).le) (integrableOn_exp hQ hc ha)]
  have : Function.support (fun a => exp (Q a / alpha)) = Set.univ := by
    ext a; simp [(exp_pos (Q a / alpha)).ne']
  rw [this, Set.univ_inter, volume_box, ENNReal.ofReal_pos]
  positivity

omit hc ha in
theorem measurable_weight : Measurable fun a => (box n).indicator (fun a => exp (Q a / alpha) / partition Q alpha) a :=
  ((measurable_exp.comp (hQ.div_const _)).div_const _).indicator measurableSet_box

theorem boltzmann_prob : IsProbabilityMeasure (boltzmann Q alpha) := by
  constructor
  have hp := partition_pos hQ hc ha
  have hi : IntegrableOn (fun a => exp (Q a / alpha) / partition Q alpha) (box n) := (integrableOn_exp hQ hc ha).div_const _
  rw [boltzmann, withDensity_apply _ .univ, Measure.restrict_univ, ← ofReal_integral_eq_lintegral_ofReal
    (hi.integrable_indicator measurableSet_box)
    (Filter.Eventually.of_forall fun a => Set.indicator_nonneg (fun a _ => div_nonneg (exp_pos _).le hp.le) a),
    integral_indicator measurableSet_box, integral_div]
  change ENNReal.ofReal (partition Q alpha / partition Q alpha) = 1
  rw [div_self hp.ne', ENNReal.ofReal_one]

end

/-! ## The policy's law -/

/-- The density of the law -/
noncomputable def density (m s : Fin n → ℝ) (a : Fin n → ℝ) : ℝ := ∏ i, dens (m i) (s i) (a i)

theorem measurable_density (m s : Fin n → ℝ) : Measurable (density m s) :=
  Finset.measurable_prod _ fun i _ => (measurable_dens (m i) (s i)).comp (measurable_pi_apply i)

theorem density_nonneg (m s a : Fin n → ℝ) : 0 ≤ density m s a := Finset.prod_nonneg fun _ _ => dens_nonneg _ _ _

theorem density_outside (m s a : Fin n → ℝ) (h : a ∉ box n) : density m s a = 0 := by
  simp only [box, Set.mem_pi, Set.mem_univ, true_implies, not_forall] at h
  obtain ⟨i, hi⟩ := h
  exact Finset.prod_eq_zero (Finset.mem_univ i) (by rw [dens, if_neg hi])

theorem measurable_action (m s : Fin n → ℝ) : Measurable fun ε => (trainForward m s ε).1 := by
  refine measurable_pi_lambda _ fun i => ?_
  exact measurable_tanh'.comp (by fun_prop)

theorem law_prob (m s : Fin n → ℝ) : IsProbabilityMeasure (law m s) :=
  Measure.isProbabilityMeasure_map (measurable_action m s).aemeasurable

theorem action_mem (m s ε : Fin n → ℝ) : (trainForward m s ε).1 ∈ box n :=
  fun i _ => ⟨(C91_range m s ε i).1, (C91_range m s ε i).2.1⟩

theorem law_eq (m s : Fin n → ℝ) : law m s = volume.withDensity fun a => ENNReal.ofReal (density m s a) := by
  have hmeas : ∀ i, Measurable fun e : ℝ => tanh (mean (m i) + std (s i) * e) :=
    fun i => measurable_tanh'.comp (by fun_prop)
  have h1 := Measure.pi_map_pi (μ := fun _ : Fin n => gaussianReal 0 1)
    (f := fun i e => tanh (mean (m i) + std (s i) * e))
    (hμ := fun i => by
      have := Measure.isProbabilityMeasure_map (μ := gaussianReal 0 1) (hmeas i).aemeasurable
      infer_instance)
    (fun i => (hmeas i).aemeasurable)
  have hs : ∀ i, SigmaFinite (volume.withDensity (fun a => ENNReal.ofReal (dens (m i) (s i) a))) := by
    intro i
    rw [← law1]
    have := Measure.isProbabilityMeasure_map (μ := gaussianReal 0 1) (hmeas i).aemeasurable
    infer_instance
  show Measure.map (fun (ε : Fin n → ℝ) i => tanh (mean (m i) + std (s i) * ε i)) _ = _
  rw [noise, h1]
  simp only [law1]
  rw [pi_withDensity _ fun i => (measurable_dens (m i) (s i)).ennreal_ofReal]
  congr 1
  funext a
  rw [density, ENNReal.ofReal_prod_of_nonneg fun i _ => dens_nonneg _ _ _]

theorem logp_eq (m s ε : Fin n → ℝ) : (trainForward m s ε).2 = log (density m s (trainForward m s ε).1) := by
  have hd : ∀ i, dens (m i) (s i) (tanh (mean (m i) + std (s i) * ε i)) =
      exp (normalLogProb (mean (m i)) (std (s i)) (mean (m i) + std (s i) * ε i) -
        tanhLogJacobian (mean (m i) + std (s i) * ε i)) := by
    intro i
    rw [dens, if_pos ⟨neg_one_lt_tanh _, tanh_lt_one _⟩, artanh_tanh]
  simp only [trainForward, density, hd]
  rw [← exp_sum, log_exp, Finset.sum_sub_distrib]

theorem density_pos (m s ε : Fin n → ℝ) : 0 < density m s (trainForward m s ε).1 := by
  refine Finset.prod_pos fun i _ => ?_
  rw [dens, if_pos ⟨(C91_range m s ε i).1, (C91_range m s ε i).2.1⟩]
  exact exp_pos _

/-! ## Integrability of the log-probability -/

theorem abs_tanhLogJacobian (x : ℝ) : |tanhLogJacobian x| ≤ 2 * |x| := by
  have h1 : 1 ≤ cosh x := one_le_cosh x
  have h2 : cosh x ≤ exp |x| := by
    rw [← cosh_abs, cosh_eq]
    have : exp (-|x|) ≤ exp |x| := exp_le_exp.2 (by have := abs_nonneg x; linarith)
    linarith
  have h3 : 0 ≤ log (cosh x) := log_nonneg h1
  have h4 : log (cosh x) ≤ |x| := by rw [← log_exp |x|]; exact log_le_log (by linarith) h2
  rw [tanhLogJacobian_eq, one_div, log_inv, log_pow, abs_neg, abs_of_nonneg (by push_cast; linarith)]
  push_cast
  linarith

theorem integrable_comp {f : ℝ → ℝ} (hf : Integrable f (gaussianReal 0 1)) (i : Fin n) :
    Integrable (fun ε : Fin n → ℝ => f (ε i)) (noise n) := by
  have := measurePreserving_eval (μ := fun _ : Fin n => gaussianReal 0 1) i
  exact this.integrable_comp_of_integrable hf

theorem integrable_logp (m s : Fin n → ℝ) : Integrable (fun ε => (trainForward m s ε).2) (noise n) := by
  unfold trainForward
  refine (integrable_finsetSum _ fun i _ => ?_).sub (integrable_finsetSum _ fun i _ => ?_)
  · refine integrable_comp (f := fun e => normalLogProb (mean (m i)) (std (s i)) (mean (m i) + std (s i) * e)) ?_ i
    have := integrable_quad 0 1 (-1 / 2) 0 (- log (std (s i)) - log (√(2 * π)))
    refine this.congr (Filter.Eventually.of_forall fun e => ?_)
    have hs := (std_pos (s i)).ne'
    simp only [normalLogProb]
    field_simp
    ring
  · refine integrable_comp (f := fun e => tanhLogJacobian (mean (m i) + std (s i) * e)) ?_ i
    have h1 : Integrable (fun e : ℝ => e) (gaussianReal 0 1) := (memLp_id_gaussianReal 2).integrable one_le_two
    have h2 : Integrable (fun e : ℝ => 2 * |mean (m i) + std (s i) * e|) (gaussianReal 0 1) :=
      (((integrable_const _).add (h1.const_mul _)).abs).const_mul _
    refine h2.mono' ?_ (Filter.Eventually.of_forall fun e => abs_tanhLogJacobian _)
    have : Measurable fun e => tanhLogJacobian (mean (m i) + std (s i) * e) := by
      unfold tanhLogJacobian softplus
      fun_prop
    exact this.aestronglyMeasurable

/-! ## One row -/

section

variable {Q : (Fin n → ℝ) → ℝ} {c alpha : ℝ} (hQ : Measurable Q) (hc : ∀ a, |Q a| ≤ c) (ha : 0 < alpha)

include hQ hc ha

/-- The density relative to Boltzmann's law -/
noncomputable def ratio (Q : (Fin n → ℝ) → ℝ) (alpha : ℝ) (m s a : Fin n → ℝ) : ℝ :=
  density m s a / (exp (Q a / alpha) / partition Q alpha)

omit hc ha in
theorem measurable_ratio (m s : Fin n → ℝ) : Measurable (ratio Q alpha m s) :=
  (measurable_density m s).div ((measurable_exp.comp (hQ.div_const _)).div_const _)

theorem law_boltzmann (m s : Fin n → ℝ) :
    law m s = (boltzmann Q alpha).withDensity fun a => ENNReal.ofReal (ratio Q alpha m s a) := by
  have hp := partition_pos hQ hc ha
  rw [boltzmann, ← withDensity_mul _ (measurable_weight hQ).ennreal_ofReal (measurable_ratio hQ m s).ennreal_ofReal, law_eq]
  congr 1
  funext a
  have hw : 0 < exp (Q a / alpha) / partition Q alpha := by positivity
  by_cases h : a ∈ box n
  · simp only [Pi.mul_apply, Set.indicator_of_mem h, ratio]
    rw [← ENNReal.ofReal_mul hw.le, mul_div_cancel₀ _ hw.ne']
  · simp only [Pi.mul_apply, Set.indicator_of_notMem h, density_outside m s a h, ENNReal.ofReal_zero, zero_mul]

theorem law_ac (m s : Fin n → ℝ) : law m s ≪ boltzmann Q alpha := by
  rw [law_boltzmann hQ hc ha]
  exact withDensity_absolutelyContinuous _ _

theorem llr_ae (m s : Fin n → ℝ) : llr (law m s) (boltzmann Q alpha) =ᵐ[law m s] fun a => log (ratio Q alpha m s a) := by
  have := boltzmann_prob hQ hc ha
  have hp := partition_pos hQ hc ha
  have h := Measure.rnDeriv_withDensity (boltzmann Q alpha) (measurable_ratio (alpha := alpha) hQ m s).ennreal_ofReal
  rw [← law_boltzmann hQ hc ha] at h
  filter_upwards [(law_ac hQ hc ha m s).ae_le h] with a h
  rw [llr, h, ENNReal.toReal_ofReal]
  exact div_nonneg (density_nonneg m s a) (div_nonneg (exp_pos _).le hp.le)

theorem integral_llr (m s : Fin n → ℝ) :
    ∫ a, llr (law m s) (boltzmann Q alpha) a ∂(law m s) =
      ∫ ε, ((trainForward m s ε).2 - Q (trainForward m s ε).1 / alpha + log (partition Q alpha)) ∂(noise n) := by
  have hp := partition_pos hQ hc ha
  have hl : Measurable fun a => log (ratio Q alpha m s a) := measurable_log.comp (measurable_ratio hQ m s)
  rw [integral_congr_ae (llr_ae hQ hc ha m s), law, integral_map (measurable_action m s).aemeasurable hl.aestronglyMeasurable]
  congr 1
  funext ε
  rw [ratio, log_div (density_pos m s ε).ne' (div_pos (exp_pos _) hp).ne', log_div (exp_pos _).ne' hp.ne', log_exp,
    ← logp_eq]
  ring

omit ha in
theorem integrable_Q (m s : Fin n → ℝ) : Integrable (fun ε => Q (trainForward m s ε).1) (noise n) :=
  Integrable.of_bound (hQ.comp (measurable_action m s)).aestronglyMeasurable c (Filter.Eventually.of_forall fun _ => hc _)

theorem integrable_llr (m s : Fin n → ℝ) : Integrable (llr (law m s) (boltzmann Q alpha)) (law m s) := by
  have hp := partition_pos hQ hc ha
  have hl : Measurable fun a => log (ratio Q alpha m s a) := measurable_log.comp (measurable_ratio hQ m s)
  rw [integrable_congr (llr_ae hQ hc ha m s), law, integrable_map_measure hl.aestronglyMeasurable
    (measurable_action m s).aemeasurable]
  refine (((integrable_logp m s).sub ((integrable_Q hQ hc m s).div_const alpha)).add
    (integrable_const (log (partition Q alpha)))).congr (Filter.Eventually.of_forall fun ε => ?_)
  simp only [Function.comp, Pi.add_apply, Pi.sub_apply]
  rw [ratio, log_div (density_pos m s ε).ne' (div_pos (exp_pos _) hp).ne', log_div (exp_pos _).ne' hp.ne', log_exp,
    ← logp_eq]
  ring

/-- The expected loss of one row -/
theorem row (m s : Fin n → ℝ) :
    ∫ ε, (alpha * (trainForward m s ε).2 - Q (trainForward m s ε).1) ∂(noise n) =
      alpha * (klDiv (law m s) (boltzmann Q alpha)).toReal - alpha * log (partition Q alpha) := by
  have := boltzmann_prob hQ hc ha
  have := law_prob m s
  have hi : Integrable (fun ε => (trainForward m s ε).2 - Q (trainForward m s ε).1 / alpha) (noise n) :=
    (integrable_logp m s).sub ((integrable_Q hQ hc m s).div_const alpha)
  rw [toReal_klDiv_of_measure_eq (law_ac hQ hc ha m s) (by simp), integral_llr hQ hc ha, integral_add hi (integrable_const _),
    integral_const, ← sub_eq_zero]
  have h : ∫ ε, (alpha * (trainForward m s ε).2 - Q (trainForward m s ε).1) ∂(noise n) =
      alpha * ∫ ε, ((trainForward m s ε).2 - Q (trainForward m s ε).1 / alpha) ∂(noise n) := by
    rw [← integral_const_mul]
    congr 1
    funext ε
    field_simp
  rw [h]
  simp
  ring

end

/-! ## The batch -/

variable {b : Nat} {q1 : Fin b → (Fin n → ℝ) → ℝ} {q2 : Option (Fin b → (Fin n → ℝ) → ℝ)}

/-- What critics have to satisfy: measurable and bounded -/
def Tame (q : Fin b → (Fin n → ℝ) → ℝ) : Prop := ∀ r, Measurable (q r) ∧ ∃ c, ∀ a, |q r a| ≤ c

theorem qMin_eq (r : Fin b) (a : Fin n → ℝ) : qMin (q1 r a) ((q2.map (· r)).map (· a)) = value (q1 r) (q2.map (· r)) a := by
  cases q2 with
  | none => rfl
  | some q2 => simp only [qMin, value, Option.map_some, min_def]

theorem value_tame (h1 : Tame q1) (h2 : ∀ q ∈ q2, Tame q) (r : Fin b) :
    Measurable (value (q1 r) (q2.map (· r))) ∧ ∃ c, ∀ a, |value (q1 r) (q2.map (· r)) a| ≤ c := by
  obtain ⟨m1, c1, b1⟩ := h1 r
  cases q2 with
  | none => exact ⟨m1, c1, b1⟩
  | some q2 =>
    obtain ⟨m2, c2, b2⟩ := h2 q2 rfl r
    simp only [value, Option.map_some]
    refine ⟨Measurable.ite (measurableSet_le m1 m2) m1 m2, max c1 c2, fun a => ?_⟩
    split
    · exact (b1 a).trans (le_max_left _ _)
    · exact (b2 a).trans (le_max_right _ _)

/-- C117: for every state of the networks and temperature, the expected loss is the mean over the batch of the temperature
times the Kullback-Leibler divergence of the policy's law from Boltzmann's law, minus the soft value, which does not depend
on the policy. The divergences are finite. -/
theorem C117_loss (lnAlpha : ℝ) (m s : Fin b → Fin n → ℝ) (h1 : Tame q1) (h2 : ∀ q ∈ q2, Tame q) :
    ∫ ε, policyLoss lnAlpha m s q1 q2 ε ∂(Measure.pi fun _ => noise n) =
      (∑ r, (exp lnAlpha * (klDiv (law (m r) (s r)) (boltzmann (value (q1 r) (q2.map (· r))) (exp lnAlpha))).toReal -
        exp lnAlpha * log (partition (value (q1 r) (q2.map (· r))) (exp lnAlpha)))) / b ∧
    ∀ r, klDiv (law (m r) (s r)) (boltzmann (value (q1 r) (q2.map (· r))) (exp lnAlpha)) ≠ ∞ := by
  refine ⟨?_, fun r => ?_⟩
  · have hrow : ∀ r : Fin b, Integrable (fun ε : Fin n → ℝ => exp lnAlpha * (trainForward (m r) (s r) ε).2 -
        value (q1 r) (q2.map (· r)) (trainForward (m r) (s r) ε).1) (noise n) := fun r => by
      obtain ⟨hm, c, hc⟩ := value_tame h1 h2 r
      exact ((integrable_logp _ _).const_mul _).sub (integrable_Q hm hc _ _)
    have hl : ∀ ε, policyLoss lnAlpha m s q1 q2 ε = (∑ r, (exp lnAlpha * (trainForward (m r) (s r) (ε r)).2 -
        value (q1 r) (q2.map (· r)) (trainForward (m r) (s r) (ε r)).1)) / b := fun ε => by
      simp only [policyLoss, loss]
      congr 1
      refine Finset.sum_congr rfl fun r _ => ?_
      rw [← qMin_eq]
      cases q2 <;> rfl
    simp only [hl]
    rw [integral_div, integral_finsetSum]
    · congr 1
      refine Finset.sum_congr rfl fun r _ => ?_
      obtain ⟨hm, c, hc⟩ := value_tame h1 h2 r
      rw [← row hm hc (exp_pos _)]
      have := measurePreserving_eval (μ := fun _ : Fin b => noise n) r
      have hmap := this.map_eq
      conv_rhs => rw [← hmap]
      rw [integral_map this.measurable.aemeasurable]
      rw [hmap]
      exact (hrow r).aestronglyMeasurable
    · intro r _
      have := measurePreserving_eval (μ := fun _ : Fin b => noise n) r
      exact this.integrable_comp_of_integrable (hrow r)
  · obtain ⟨hm, c, hc⟩ := value_tame h1 h2 r
    exact klDiv_ne_top (law_ac hm hc (exp_pos _) _ _) (integrable_llr hm hc (exp_pos _) _ _)

/-- C117: the expected loss is never below the negative mean soft value, and reaches it exactly when the policy acts with
Boltzmann's law in every row. -/
theorem C117_least (lnAlpha : ℝ) (m s : Fin b → Fin n → ℝ) (h1 : Tame q1) (h2 : ∀ q ∈ q2, Tame q) (hb : 0 < b) :
    -(∑ r, exp lnAlpha * log (partition (value (q1 r) (q2.map (· r))) (exp lnAlpha))) / b ≤
      ∫ ε, policyLoss lnAlpha m s q1 q2 ε ∂(Measure.pi fun _ => noise n) ∧
    (∫ ε, policyLoss lnAlpha m s q1 q2 ε ∂(Measure.pi fun _ => noise n) =
      -(∑ r, exp lnAlpha * log (partition (value (q1 r) (q2.map (· r))) (exp lnAlpha))) / b ↔
      ∀ r, law (m r) (s r) = boltzmann (value (q1 r) (q2.map (· r))) (exp lnAlpha)) := by
  obtain ⟨h, hfin⟩ := C117_loss lnAlpha m s h1 h2
  have hb' : (0 : ℝ) < b := by exact_mod_cast hb
  rw [h, Finset.sum_sub_distrib, sub_div, neg_div]
  have hnn : ∀ r, 0 ≤ exp lnAlpha *
      (klDiv (law (m r) (s r)) (boltzmann (value (q1 r) (q2.map (· r))) (exp lnAlpha))).toReal :=
    fun r => mul_nonneg (exp_pos _).le ENNReal.toReal_nonneg
  refine ⟨?_, ?_⟩
  · have := div_nonneg (Finset.sum_nonneg fun r (_ : r ∈ Finset.univ) => hnn r) hb'.le
    linarith
  · rw [sub_eq_neg_self, div_eq_zero_iff, or_iff_left hb'.ne', Finset.sum_eq_zero_iff_of_nonneg fun r _ => hnn r]
    refine ⟨fun h r => ?_, fun h r _ => ?_⟩
    · obtain ⟨hm, c, hc⟩ := value_tame h1 h2 r
      have := boltzmann_prob hm hc (exp_pos lnAlpha)
      have := law_prob (m r) (s r)
      have h0 := (mul_eq_zero.1 (h r (Finset.mem_univ r))).resolve_left (exp_pos _).ne'
      exact klDiv_eq_zero_iff.1 (((ENNReal.toReal_eq_zero_iff _).1 h0).resolve_right (hfin r))
    · have := law_prob (m r) (s r)
      rw [← h r, klDiv_self]
      simp

/-- The loss of two rows with temperature 1 and two critics -/
example : loss (b := 2) 0 ![1, 2] ![3, 4] (some ![5, 1]) = -1 / 2 := by
  simp only [loss, qMin, Fin.sum_univ_two, Option.map_some, exp_zero, Matrix.cons_val_zero, Matrix.cons_val_one]
  norm_num

/-- A critic with the constant value 3, temperature 1, one action dimension: whatever the policy, its expected loss is at
least `-(3 + log 2)`. -/
example (m s : Fin 1 → Fin 1 → ℝ) :
    -(3 + log 2) ≤ ∫ ε, policyLoss 0 m s (fun _ _ => 3) none ε ∂(Measure.pi fun _ => noise 1) := by
  have h := (C117_least (q1 := fun (_ : Fin 1) (_ : Fin 1 → ℝ) => 3) (q2 := none) 0 m s
    (fun _ => ⟨measurable_const, 3, fun _ => by norm_num⟩) (by simp) one_pos).1
  have hp : partition (n := 1) (value (fun _ => 3) none) (exp 0) = 2 * exp 3 := by
    simp only [partition, value, exp_zero, div_one, setIntegral_const, smul_eq_mul, measureReal_def, volume_box]
    norm_num
  simp only [Option.map_none, Finset.univ_unique, Finset.sum_singleton, hp] at h
  rw [log_mul (by norm_num) (exp_pos _).ne', log_exp] at h
  simp only [exp_zero, one_mul, Nat.cast_one, div_one] at h
  linarith

end SacPolicy

end Verif
