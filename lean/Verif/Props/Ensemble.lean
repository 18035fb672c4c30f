import Verif.Props.Vae

/-!
# The dynamics ensemble: bounds of the variance and the loss (C103, C104)
-/

namespace Verif

namespace Policy

open Real MeasureTheory ProbabilityTheory
open scoped ENNReal NNReal

theorem softplus_pos (x : ℝ) : 0 < softplus x := by
  unfold softplus
  exact log_pos (by linarith [exp_pos x])

theorem softplus_lt {x y : ℝ} (h : x < y) : softplus x < softplus y := by
  unfold softplus
  exact log_lt_log (by linarith [exp_pos x]) (by linarith [exp_lt_exp.mpr h])

/-- The bounded variance, as a sum. -/
theorem exp_boundLogvar (lo hi l : ℝ) : exp (boundLogvar lo hi l) = exp lo + exp (hi - softplus (hi - l)) := by
  unfold boundLogvar
  simp only
  rw [exp_add]
  conv_lhs => rw [softplus, exp_log (by linarith [exp_pos (hi - softplus (hi - l) - lo)])]
  rw [mul_add, mul_one, ← exp_add]
  congr 2
  ring

theorem boundLogvar_gt (lo hi l : ℝ) : lo < boundLogvar lo hi l := by
  unfold boundLogvar
  linarith [softplus_pos (hi - softplus (hi - l) - lo)]

theorem boundLogvar_lt (lo hi l : ℝ) : boundLogvar lo hi l < log (exp lo + exp hi) := by
  rw [lt_log_iff_exp_lt (by positivity), exp_boundLogvar]
  have := exp_lt_exp.mpr (show hi - softplus (hi - l) < hi by linarith [softplus_pos (hi - l)])
  linarith

theorem boundLogvar_mono (lo hi l l' : ℝ) (h : l < l') : boundLogvar lo hi l < boundLogvar lo hi l' := by
  unfold boundLogvar
  have h1 : softplus (hi - l') < softplus (hi - l) := softplus_lt (by linarith)
  have h2 := softplus_lt (show hi - softplus (hi - l) - lo < hi - softplus (hi - l') - lo by linarith)
  simp only
  linarith

/-! ## C103 -/

/-- C103 as a user would put it: the predicted log variance stays between the two bounds. -/
def C103_claim : Prop := ∀ (lo hi l : ℝ), lo < hi → lo ≤ boundLogvar lo hi l ∧ boundLogvar lo hi l ≤ hi

/-- C103 as a user would put it is false: with the bounds of the constructor, −10 and 0.5, a raw prediction of 100 gives a log
variance above 0.5. -/
theorem C103_false : ¬ C103_claim := by
  intro h
  have h1 := (h (-10) (1 / 2) 100 (by norm_num)).2
  rw [← exp_le_exp, exp_boundLogvar] at h1
  have hs : softplus (1 / 2 - 100) ≤ exp (1 / 2 - 100) := by
    unfold softplus
    have := log_le_sub_one_of_pos (show (0 : ℝ) < 1 + exp (1 / 2 - 100) by positivity)
    linarith
  have he : exp (1 / 2 - softplus (1 / 2 - 100)) ≥ exp (1 / 2) * (1 - exp (1 / 2 - 100)) := by
    rw [sub_eq_add_neg, exp_add]
    have := add_one_le_exp (-softplus (1 / 2 - 100))
    exact mul_le_mul_of_nonneg_left (by linarith) (exp_pos _).le
  have h3 : exp (1 / 2 : ℝ) * exp (1 / 2 - 100) = exp (-99) := by
    rw [← exp_add]; norm_num
  have h4 : exp (-99 : ℝ) < exp (-10) := exp_lt_exp.mpr (by norm_num)
  nlinarith

/-- C103, the part that holds: each output is drawn from a normal distribution around the average of the members' means, its
variance lies strictly above the exponential of the lower bound and strictly below the sum of the exponentials of both
bounds. -/
theorem C103_partial {k : Nat} (hk : 0 < k) (lo hi : ℝ) (means logvars : Fin k → ℝ) :
    ∃ v : ℝ≥0, (gaussianReal 0 1).map (fun ε => ensembleSample lo hi means logvars ε) =
        gaussianReal ((∑ i, means i) / k) v ∧ exp lo < v ∧ (v : ℝ) < exp lo + exp hi := by
  have hkr : (0 : ℝ) < k := by exact_mod_cast hk
  have : Nonempty (Fin k) := ⟨⟨0, hk⟩⟩
  refine ⟨sq' (√(exp ((∑ i, boundLogvar lo hi (logvars i)) / k))), ?_, ?_, ?_⟩
  · rw [← law_latent]
    unfold ensembleSample ensembleForward
    congr 1
    funext ε
    simp only
    ring
  · show exp lo < √(exp ((∑ i, boundLogvar lo hi (logvars i)) / k)) ^ 2
    rw [sq_sqrt (exp_pos _).le, exp_lt_exp, lt_div_iff₀ hkr]
    calc lo * k = ∑ _i : Fin k, lo := by simp [mul_comm]
      _ < ∑ i, boundLogvar lo hi (logvars i) :=
        Finset.sum_lt_sum_of_nonempty Finset.univ_nonempty fun i _ => boundLogvar_gt _ _ _
  · show √(exp ((∑ i, boundLogvar lo hi (logvars i)) / k)) ^ 2 < _
    rw [sq_sqrt (exp_pos _).le, ← lt_log_iff_exp_lt (by positivity), div_lt_iff₀ hkr]
    calc ∑ i, boundLogvar lo hi (logvars i) < ∑ _i : Fin k, log (exp lo + exp hi) :=
        Finset.sum_lt_sum_of_nonempty Finset.univ_nonempty fun i _ => boundLogvar_lt _ _ _
      _ = log (exp lo + exp hi) * k := by simp [mul_comm]

/-- C103: the bounding keeps the order of the raw predictions. -/
theorem C103_order (lo hi l l' : ℝ) : boundLogvar lo hi l < boundLogvar lo hi l' ↔ l < l' := by
  constructor
  · intro h
    by_contra hc
    rcases (not_lt.mp hc).lt_or_eq with h' | h'
    · exact absurd (boundLogvar_mono lo hi _ _ h') (not_lt.mpr h.le)
    · subst h'; exact lt_irrefl _ h
  · exact boundLogvar_mono lo hi l l'

/-! ## C104 -/

theorem gaussianNLL_eq (μ t v : ℝ) (hv : 1 / 10 ^ 6 ≤ v) (v' : ℝ≥0) (h : (v' : ℝ) = v) :
    gaussianNLL μ t v = -log (gaussianPDFReal μ v' t) - log (2 * π) / 2 := by
  have hpos : 0 < v := lt_of_lt_of_le (by norm_num) hv
  unfold gaussianNLL gaussianPDFReal
  rw [h, max_eq_left hv, log_mul (by positivity) (exp_pos _).ne', log_inv, log_exp, log_sqrt (by positivity),
    log_mul (by positivity) hpos.ne']
  field_simp
  ring

/-- C104: when the lower bounds of the log variance are not below `log 1e-6`, the loss of the ensemble is the sum over the members
of the average negative log-likelihood of the targets under that member's predicted normal distributions, less a constant,
plus the distance of the bounds weighted with 0.01. -/
theorem C104 {k b n : Nat} (lo hi : Fin n → ℝ) (means logvars : Fin k → Fin b → Fin n → ℝ) (target : Fin b → Fin n → ℝ)
    (hb : 0 < b) (hn : 0 < n) (hlo : ∀ j, log (1 / 10 ^ 6) ≤ lo j) :
    ∃ v : Fin k → Fin b → Fin n → ℝ≥0, (∀ i r j, log (v i r j) = boundLogvar (lo j) (hi j) (logvars i r j)) ∧
      ensembleLoss lo hi means logvars target =
        (∑ i, (∑ r, ∑ j, -log (gaussianPDFReal (means i r j) (v i r j) (target r j))) / (b * n)) -
          k * (log (2 * π) / 2) + 1 / 100 * ∑ j, (hi j - lo j) := by
  refine ⟨fun i r j => NNReal.mk (exp (boundLogvar (lo j) (hi j) (logvars i r j))) (exp_pos _).le, fun i r j => ?_, ?_⟩
  · exact log_exp _
  · unfold ensembleLoss
    have hv : ∀ i r j, (1 / 10 ^ 6 : ℝ) ≤ exp (boundLogvar (lo j) (hi j) (logvars i r j)) := by
      intro i r j
      rw [← log_le_iff_le_exp (by norm_num)]
      exact (hlo j).trans (boundLogvar_gt _ _ _).le
    have e : ∀ i r j, gaussianNLL (means i r j) (target r j) (exp (boundLogvar (lo j) (hi j) (logvars i r j))) =
        -log (gaussianPDFReal (means i r j) (NNReal.mk (exp (boundLogvar (lo j) (hi j) (logvars i r j))) (exp_pos _).le)
          (target r j)) - log (2 * π) / 2 := fun i r j => gaussianNLL_eq _ _ _ (hv i r j) _ rfl
    simp only [e]
    have hbr : (0 : ℝ) < b := by exact_mod_cast hb
    have hnr : (0 : ℝ) < n := by exact_mod_cast hn
    have h2 : ∀ f : Fin b → Fin n → ℝ, (∑ r, ∑ j, (f r j - log (2 * π) / 2)) / (b * n) =
        (∑ r, ∑ j, f r j) / (b * n) - log (2 * π) / 2 := by
      intro f
      simp only [Finset.sum_sub_distrib, Finset.sum_const, Finset.card_univ, Fintype.card_fin, nsmul_eq_mul]
      field_simp
    rw [Finset.sum_congr rfl fun i _ => h2 _, Finset.sum_sub_distrib, Finset.sum_sub_distrib]
    simp only [Finset.sum_const, Finset.card_univ, Fintype.card_fin, nsmul_eq_mul]
    norm_num

/-- A concrete case: the constructor's lower bound is far above the threshold of torch's loss. -/
example : log (1 / 10 ^ 6) ≤ (-10 : ℝ) := by
  rw [log_le_iff_le_exp (by norm_num), exp_neg, le_inv_comm₀ (by norm_num) (exp_pos _)]
  have h := exp_one_lt_d9
  have h2 : exp (10 : ℝ) = exp 1 ^ 10 := by rw [← exp_nat_mul]; norm_num
  rw [h2]
  calc exp 1 ^ 10 ≤ 3 ^ 10 := pow_le_pow_left₀ (exp_pos _).le (by linarith) 10
    _ ≤ _ := by norm_num

end Policy

end Verif
