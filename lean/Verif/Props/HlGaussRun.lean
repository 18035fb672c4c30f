import Verif.Model.HlGaussRun
import Verif.Props.HlGauss
import Verif.Props.DqnRun

/-!
# C165: training with HL-Gauss
-/

namespace Verif

namespace HlGaussRun

open Numerics Filter Topology
open DqnRun (Entry entries)

variable {X : Type} {r m : Nat}

/-! ## Specification -/

namespace Spec

/-- Positive clipping norm and smoothing, a range, and learning rates between a positive number and 1/2 -/
structure Usual (c : Setup X r) : Prop where
  range : c.lo < c.hi
  ratio : 0 < c.ratio
  norm : 0 < c.maxNorm
  rate : ∃ x, 0 < x ∧ ∀ k, x ≤ c.rate k
  rate_le : ∀ k, c.rate k ≤ 1 / 2

/-- The targets of the rows that the network cannot tell from `x`, limited to the range -/
noncomputable def limited (c : Setup X r) (b : List (X × ℝ)) (x : X) : List ℝ :=
  (b.filter fun y => c.cell y.1 = c.cell x).map fun y => min (max y.2 c.lo) c.hi

/-- The average -/
noncomputable def mean (l : List ℝ) : ℝ := l.sum / l.length

/-- How far HL-Gauss values may be from targets: half a bin and the smoothing -/
noncomputable def reach (c : Setup X r) (m : Nat) : ℝ := (c.hi - c.lo) / (m + 1 : ℕ) * (1 / 2 + c.ratio * √(2 / Real.pi))

end Spec

open Spec

/-! ## Gradient descent on logits -/

section descent
variable {ι : Type} [Fintype ι] [Nonempty ι]

noncomputable def total (z : ι → ℝ) : ℝ := ∑ i, Real.exp (z i)

noncomputable def sm (z : ι → ℝ) (j : ι) : ℝ := Real.exp (z j) / total z

noncomputable def lse (z : ι → ℝ) : ℝ := Real.log (total z)

theorem total_pos (z : ι → ℝ) : 0 < total z := Finset.sum_pos (fun _ _ => Real.exp_pos _) Finset.univ_nonempty

theorem sm_pos (z : ι → ℝ) (j : ι) : 0 < sm z j := div_pos (Real.exp_pos _) (total_pos z)

theorem sm_sum (z : ι → ℝ) : ∑ j, sm z j = 1 := by
  simp only [sm]
  rw [← Finset.sum_div]
  exact div_self (total_pos z).ne'

theorem sm_le (z : ι → ℝ) (j : ι) : sm z j ≤ 1 := by
  rw [← sm_sum z]
  exact Finset.single_le_sum (f := sm z) (fun i _ => (sm_pos z i).le) (Finset.mem_univ j)

theorem log_sm (z : ι → ℝ) (j : ι) : Real.log (sm z j) = z j - lse z := by
  rw [sm, Real.log_div (Real.exp_pos _).ne' (total_pos z).ne', Real.log_exp, lse]

/-- The cross entropy, with distribution `t` -/
noncomputable def ce (t z : ι → ℝ) : ℝ := lse z - ∑ j, t j * z j

theorem ce_nonneg {t : ι → ℝ} (h0 : ∀ j, 0 ≤ t j) (h1 : ∑ j, t j = 1) (z : ι → ℝ) : 0 ≤ ce t z := by
  have : ce t z = ∑ j, t j * (lse z - z j) := by
    simp only [mul_sub]
    rw [Finset.sum_sub_distrib, ← Finset.sum_mul, h1, one_mul, ce]
  rw [this]
  refine Finset.sum_nonneg fun j _ => mul_nonneg (h0 j) ?_
  have := log_sm z j
  have h2 := Real.log_nonpos (sm_pos z j).le (sm_le z j)
  linarith

theorem ce_step {t : ι → ℝ} (h0 : ∀ j, 0 ≤ t j) (h1 : ∑ j, t j = 1) (z : ι → ℝ) {h : ℝ} (hh : 0 ≤ h) (hh1 : h ≤ 1 / 2) :
    ce t (fun j => z j - h * (sm z j - t j)) ≤ ce t z - h / 2 * ∑ j, (sm z j - t j) ^ 2 := by
  set g : ι → ℝ := fun j => sm z j - t j with hg
  have ht1 : ∀ j, t j ≤ 1 := fun j => by
    rw [← h1]
    exact Finset.single_le_sum (f := t) (fun i _ => h0 i) (Finset.mem_univ j)
  have hgb : ∀ j, |g j| ≤ 1 := fun j => by
    rw [abs_le]
    constructor
    · have := sm_pos z j; have := ht1 j; simp only [hg]; linarith
    · have := sm_le z j; have := h0 j; simp only [hg]; linarith
  have htot : total (fun j => z j - h * g j) ≤ total z * (1 - h * ∑ j, sm z j * g j + h ^ 2 * ∑ j, sm z j * g j ^ 2) := by
    have e : total z * (1 - h * ∑ j, sm z j * g j + h ^ 2 * ∑ j, sm z j * g j ^ 2) =
        ∑ j, Real.exp (z j) * (1 - h * g j + (h * g j) ^ 2) := by
      have hz : ∀ j, Real.exp (z j) = total z * sm z j := fun j => by
        rw [sm]; field_simp [(total_pos z).ne']
      simp only [hz]
      rw [show (1 : ℝ) - h * ∑ j, sm z j * g j + h ^ 2 * ∑ j, sm z j * g j ^ 2 =
        ∑ j, sm z j - h * ∑ j, sm z j * g j + h ^ 2 * ∑ j, sm z j * g j ^ 2 by rw [sm_sum], Finset.mul_sum, Finset.mul_sum,
        ← Finset.sum_sub_distrib, ← Finset.sum_add_distrib, Finset.mul_sum]
      exact Finset.sum_congr rfl fun j _ => by ring
    rw [e]
    refine Finset.sum_le_sum fun j _ => ?_
    show Real.exp (z j - h * g j) ≤ _
    rw [sub_eq_add_neg (z j), Real.exp_add]
    refine mul_le_mul_of_nonneg_left ?_ (Real.exp_pos _).le
    have hb : |-(h * g j)| ≤ 1 := by
      rw [abs_neg, abs_mul, abs_of_nonneg hh]
      have := hgb j
      nlinarith [abs_nonneg (g j)]
    have := (abs_le.1 (Real.abs_exp_sub_one_sub_id_le hb)).2
    nlinarith
  set A : ℝ := 1 - h * ∑ j, sm z j * g j + h ^ 2 * ∑ j, sm z j * g j ^ 2 with hA
  have hApos : 0 < A := by
    have := (total_pos (fun j => z j - h * g j)).trans_le htot
    exact (pos_iff_pos_of_mul_pos this).1 (total_pos z)
  have hl : lse (fun j => z j - h * g j) ≤ lse z + (A - 1) := by
    unfold lse
    have h2 := Real.log_le_log (total_pos _) htot
    rw [Real.log_mul (total_pos z).ne' hApos.ne'] at h2
    have := Real.log_le_sub_one_of_pos hApos
    linarith
  have hlin : ∑ j, t j * (z j - h * g j) = ∑ j, t j * z j - h * ∑ j, t j * g j := by
    rw [Finset.mul_sum, ← Finset.sum_sub_distrib]
    exact Finset.sum_congr rfl fun j _ => by ring
  have hgg : ∑ j, sm z j * g j - ∑ j, t j * g j = ∑ j, g j ^ 2 := by
    rw [← Finset.sum_sub_distrib]
    exact Finset.sum_congr rfl fun j _ => by simp only [hg]; ring
  have hpg : ∑ j, sm z j * g j ^ 2 ≤ ∑ j, g j ^ 2 := by
    refine Finset.sum_le_sum fun j _ => ?_
    have := sm_le z j
    nlinarith [sq_nonneg (g j)]
  have hG : 0 ≤ ∑ j, g j ^ 2 := Finset.sum_nonneg fun j _ => sq_nonneg _
  show ce t (fun j => z j - h * g j) ≤ ce t z - h / 2 * ∑ j, g j ^ 2
  unfold ce
  rw [hlin]
  have h3 : h ^ 2 * ∑ j, sm z j * g j ^ 2 ≤ h / 2 * ∑ j, g j ^ 2 := by
    calc h ^ 2 * ∑ j, sm z j * g j ^ 2 ≤ h ^ 2 * ∑ j, g j ^ 2 := by gcongr
      _ ≤ h / 2 * ∑ j, g j ^ 2 := by
        apply mul_le_mul_of_nonneg_right _ hG
        nlinarith
  have h4 : h * ∑ j, sm z j * g j - h * ∑ j, t j * g j = h * ∑ j, g j ^ 2 := by rw [← mul_sub, hgg]
  nlinarith

/-- Gradient descent with steps that are not arbitrarily small, again and again, ends in the distribution. -/
theorem descends {t : ι → ℝ} (h0 : ∀ j, 0 ≤ t j) (h1 : ∑ j, t j = 1) {z : ℕ → ι → ℝ} {h : ℕ → ℝ} {P : ℕ → Prop} {e : ℝ} (he : 0 < e)
    (hz : ∀ k j, z (k + 1) j = z k j - h k * (sm (z k) j - t j)) (hh : ∀ k, 0 ≤ h k) (hh1 : ∀ k, h k ≤ 1 / 2)
    (hP : ∀ k, P k → e ≤ h k) (hN : ∀ k, ¬ P k → h k = 0) (hoft : ∃ᶠ k in atTop, P k) (j : ι) :
    Tendsto (fun k => sm (z k) j) atTop (𝓝 (t j)) := by
  have hstep : ∀ k, ce t (z (k + 1)) ≤ ce t (z k) - h k / 2 * ∑ j, (sm (z k) j - t j) ^ 2 := by
    intro k
    have := ce_step h0 h1 (z k) (hh k) (hh1 k)
    rwa [← funext (hz k)] at this
  have hG : ∀ k, 0 ≤ ∑ j, (sm (z k) j - t j) ^ 2 := fun k => Finset.sum_nonneg fun j _ => sq_nonneg _
  have hanti : Antitone fun k => ce t (z k) := antitone_nat_of_succ_le fun k => by
    have := hstep k
    have := mul_nonneg (div_nonneg (hh k) (by norm_num : (0 : ℝ) ≤ 2)) (hG k)
    linarith
  have hlim := tendsto_atTop_ciInf hanti ⟨0, by rintro _ ⟨k, rfl⟩; exact ce_nonneg h0 h1 _⟩
  have hdiff : Tendsto (fun k => ce t (z k) - ce t (z (k + 1))) atTop (𝓝 0) := by
    have := hlim.sub (hlim.comp (tendsto_add_atTop_nat 1))
    simpa using this
  rw [Metric.tendsto_atTop] at hdiff ⊢
  intro d hd
  obtain ⟨K, hK⟩ := hdiff (e / 2 * d ^ 2) (by positivity)
  refine ⟨K, fun k hk => ?_⟩
  obtain ⟨k', hk', hPk⟩ := frequently_atTop.1 hoft k
  classical
  have hex : ∃ i, P (k + i) := ⟨k' - k, by rwa [Nat.add_sub_cancel' hk']⟩
  have hsame : ∀ i ≤ Nat.find hex, z (k + i) = z k := by
    intro i
    induction i with
    | zero => intro _; rfl
    | succ i ih =>
      intro hi
      have hno : ¬ P (k + i) := Nat.find_min hex (by omega)
      rw [← ih (by omega)]
      funext j
      rw [show k + (i + 1) = k + i + 1 by omega, hz, hN _ hno]
      ring
  have hPf := Nat.find_spec hex
  have hb := hK (k + Nat.find hex) (by omega)
  rw [Real.dist_eq, sub_zero] at hb
  have hb1 := (abs_lt.1 hb).2
  have hs := hstep (k + Nat.find hex)
  have hz0 := hsame _ le_rfl
  have he' := hP _ hPf
  have hj : (sm (z k) j - t j) ^ 2 ≤ ∑ j, (sm (z k) j - t j) ^ 2 :=
    Finset.single_le_sum (f := fun j => (sm (z k) j - t j) ^ 2) (fun i _ => sq_nonneg _) (Finset.mem_univ j)
  have hs2 : e / 2 * (sm (z k) j - t j) ^ 2 < e / 2 * d ^ 2 := by
    have h2 : e / 2 * (sm (z k) j - t j) ^ 2 ≤ h (k + Nat.find hex) / 2 * ∑ j, (sm (z (k + Nat.find hex)) j - t j) ^ 2 := by
      rw [hz0]
      exact mul_le_mul (by linarith) hj (sq_nonneg _) (by linarith)
    linarith
  rw [Real.dist_eq]
  exact abs_lt_of_sq_lt_sq (lt_of_mul_lt_mul_left hs2 (by positivity)) hd.le

end descent

/-! ## The loss of a batch -/

theorem softmax_ofFn {n : Nat} (z : Fin n → ℝ) : softmax (List.ofFn z) = List.ofFn (sm z) := by
  simp only [softmax, List.map_ofFn, List.sum_ofFn]
  rfl

theorem map_range_ofFn (f : ℕ → ℝ) (n : Nat) : (List.range n).map f = List.ofFn fun j : Fin n => f j :=
  List.ext_getElem (by simp) fun i h1 h2 => by simp

theorem zipWith_ofFn {n : Nat} (f : ℝ → ℝ → ℝ) (x y : Fin n → ℝ) :
    List.zipWith f (List.ofFn x) (List.ofFn y) = List.ofFn fun j => f (x j) (y j) :=
  List.ext_getElem (by simp) fun i h1 h2 => by simp

theorem crossEntropy_ofFn {n : Nat} (z t : Fin (n + 1) → ℝ) (ht : ∑ j, t j = 1) : crossEntropy (List.ofFn z) (List.ofFn t) = ce t z := by
  rw [crossEntropy, softmax_ofFn, zipWith_ofFn, List.sum_ofFn]
  simp only [log_sm, mul_sub]
  rw [Finset.sum_sub_distrib, ← Finset.sum_mul, ht, one_mul, ce]
  ring

/-- The distribution that a target is turned into -/
noncomputable def prob (c : Setup X r) (m : Nat) (q : ℝ) (j : Fin (m + 1)) : ℝ :=
  Numerics.Spec.weight (min (max q c.lo) c.hi) (c.ratio * (c.hi - c.lo) / (m + 1 : ℕ)) (Numerics.Spec.border c.lo c.hi (m + 1) j)
    (Numerics.Spec.border c.lo c.hi (m + 1) (j + 1)) /
  Numerics.Spec.weight (min (max q c.lo) c.hi) (c.ratio * (c.hi - c.lo) / (m + 1 : ℕ)) c.lo c.hi

theorem lossTarget_eq {c : Setup X r} (hc : Usual c) (m : Nat) (q : ℝ) :
    lossTarget c.ratio c.lo c.hi (m + 1) q = some (List.ofFn (prob c m q)) := by
  rw [C64_mass c.ratio c.lo c.hi (m + 1) (Nat.succ_pos m) hc.ratio hc.range q]
  exact congrArg some (map_range_ofFn _ _)

theorem prob_spec {c : Setup X r} (hc : Usual c) (m : Nat) (q : ℝ) : (∀ j, 0 < prob c m q j) ∧ ∑ j, prob c m q j = 1 := by
  obtain ⟨probs, h1, -, h3, h4⟩ := C64_distribution c.ratio c.lo c.hi (m + 1) (Nat.succ_pos m) hc.ratio hc.range q
  rw [lossTarget_eq hc] at h1
  cases h1
  exact ⟨fun j => h3 _ (List.mem_ofFn.2 ⟨j, rfl⟩), by rwa [List.sum_ofFn] at h4⟩

theorem allProbs_ok {c : Setup X r} (hc : Usual c) (m : Nat) (b : List (X × ℝ)) :
    allProbs c (m + 1) b = .ok (b.map fun y => List.ofFn (prob c m y.2)) := by
  induction b with
  | nil => rfl
  | cons y b ih => rw [allProbs, ih, lossTarget_eq hc]; rfl

theorem batchLoss_ok {c : Setup X r} (hc : Usual c) (b : List (X × ℝ)) (v : Entry r m → ℝ) :
    batchLoss c b v = .ok ((b.map fun y => ce (prob c m y.2) fun j => v (c.cell y.1, j)).sum / b.length) := by
  simp only [batchLoss, allProbs_ok hc]
  rw [if_pos (by simp [logits, Function.comp_def])]
  congr 2
  · rw [List.zipWith_map, List.zipWith_self]
    congr 1
    exact List.map_congr_left fun y _ => crossEntropy_ofFn _ _ (prob_spec hc m y.2).2
  · simp

theorem hasDerivAt_ce {ι : Type} [Fintype ι] [Nonempty ι] [DecidableEq ι] (t z : ι → ℝ) (j : ι) :
    HasDerivAt (fun x => ce t (Function.update z j x)) (sm z j - t j) (z j) := by
  have h1 : HasDerivAt (fun x => total (Function.update z j x)) (Real.exp (z j)) (z j) := by
    have : (fun x => total (Function.update z j x)) = fun x => Real.exp x + ∑ i ∈ Finset.univ.erase j, Real.exp (z i) := by
      funext x
      rw [total, ← Finset.add_sum_erase _ _ (Finset.mem_univ j), Function.update_self]
      congr 1
      exact Finset.sum_congr rfl fun i hi => by rw [Function.update_of_ne (Finset.ne_of_mem_erase hi)]
    rw [this]
    exact (Real.hasDerivAt_exp (z j)).add_const (∑ i ∈ Finset.univ.erase j, Real.exp (z i))
  have h2 : HasDerivAt (fun x => ∑ i, t i * Function.update z j x i) (t j) (z j) := by
    have : (fun x => ∑ i, t i * Function.update z j x i) = fun x => t j * x + ∑ i ∈ Finset.univ.erase j, t i * z i := by
      funext x
      rw [← Finset.add_sum_erase _ _ (Finset.mem_univ j), Function.update_self]
      congr 1
      exact Finset.sum_congr rfl fun i hi => by rw [Function.update_of_ne (Finset.ne_of_mem_erase hi)]
    rw [this]
    simpa using ((hasDerivAt_id' (z j)).const_mul (t j)).add_const (∑ i ∈ Finset.univ.erase j, t i * z i)
  have h3 := h1.log (total_pos _).ne'
  rw [Function.update_eq_self] at h3
  exact h3.sub h2

/-- The rows of a cell -/
noncomputable def rowsOf (c : Setup X r) (b : List (X × ℝ)) (s : Fin r) : List (X × ℝ) := b.filter fun y => c.cell y.1 = s

theorem hasDerivAt_rows (c : Setup X r) (b : List (X × ℝ)) (v : Entry r m → ℝ) (p : Entry r m) :
    HasDerivAt (fun x => (b.map fun y => ce (prob c m y.2) fun j => Function.update v p x (c.cell y.1, j)).sum)
      ((rowsOf c b p.1).map fun y => sm (fun j => v (p.1, j)) p.2 - prob c m y.2 p.2).sum (v p) := by
  induction b with
  | nil => simpa [rowsOf] using hasDerivAt_const (v p) (0 : ℝ)
  | cons y b ih =>
    simp only [List.map_cons, List.sum_cons]
    by_cases h : c.cell y.1 = p.1
    · rw [rowsOf, List.filter_cons_of_pos (by simpa using h), List.map_cons, List.sum_cons]
      refine HasDerivAt.fun_add ?_ ih
      have := hasDerivAt_ce (prob c m y.2) (fun j => v (p.1, j)) p.2
      refine this.congr_of_eventuallyEq (Filter.Eventually.of_forall fun x => ?_)
      simp only
      congr 1
      funext j
      rw [h]
      by_cases hj : j = p.2
      · subst hj; simp
      · rw [Function.update_of_ne hj, Function.update_of_ne (fun e => hj (by rw [← e]))]
    · rw [rowsOf, List.filter_cons_of_neg (by simpa using h)]
      have e : ∀ x, (fun j => Function.update v p x (c.cell y.1, j)) = fun j => v (c.cell y.1, j) := fun x => by
        funext j
        rw [Function.update_of_ne (fun e => h (by rw [← e]))]
      simp only [e]
      refine ((hasDerivAt_const (v p) _).fun_add ih).congr_deriv ?_
      rw [zero_add]
      rfl

/-- The average distribution of a cell is `T`. -/
def Averages (c : Setup X r) (b : List (X × ℝ)) (T : Fin r → Fin (m + 1) → ℝ) : Prop :=
  ∀ s j, ((rowsOf c b s).map fun y => prob c m y.2 j).sum = (rowsOf c b s).length * T s j

theorem deriv_loss {c : Setup X r} (hc : Usual c) {b : List (X × ℝ)} {T : Fin r → Fin (m + 1) → ℝ} (hT : Averages c b T) (v : Entry r m → ℝ)
    (p : Entry r m) : deriv (fun x => lossOf c b (Function.update v p x)) (v p) =
      ((rowsOf c b p.1).length : ℝ) / b.length * (sm (fun j => v (p.1, j)) p.2 - T p.1 p.2) := by
  have : (fun x => lossOf c b (Function.update v p x)) =
      fun x => (b.map fun y => ce (prob c m y.2) fun j => Function.update v p x (c.cell y.1, j)).sum / b.length := by
    funext x
    simp only [lossOf, batchLoss_ok hc]
  rw [this, ((hasDerivAt_rows c b v p).div_const _).deriv]
  have : ((rowsOf c b p.1).map fun y => sm (fun j => v (p.1, j)) p.2 - prob c m y.2 p.2).sum =
      (rowsOf c b p.1).length * sm (fun j => v (p.1, j)) p.2 - ((rowsOf c b p.1).map fun y => prob c m y.2 p.2).sum := by
    induction rowsOf c b p.1 with
    | nil => simp
    | cons y l ih => simp only [List.map_cons, List.sum_cons, List.length_cons, ih]; push_cast; ring
  rw [this, hT]
  ring

/-! ## Steps -/

/-- The batch after which the loss is asked for -/
noncomputable def next (c : Setup X r) (b : List (X × ℝ)) (x : Learner r m) : Learner r m :=
  let y := LossStep.backward (c.cfg m) b
    { x.loss with logs := x.loss.logs.set ("training/" ++ c.name ++ "_prediction") (prediction c b x.net.value) } x.net
  ⟨y.1, y.2⟩

theorem trainBatch_ok {c : Setup X r} (hc : Usual c) (b : List (X × ℝ)) (x : Learner r m) : trainBatch c b x = .ok (next c b x) := by
  simp only [trainBatch, batchLoss_ok hc]
  rfl

theorem train_ok {c : Setup X r} (hc : Usual c) (bs : List (List (X × ℝ))) (x : Learner r m) :
    train c bs x = .ok (bs.foldl (fun x b => next c b x) x) := by
  induction bs generalizing x with
  | nil => rfl
  | cons b bs ih => rw [train, trainBatch_ok hc]; exact ih _

/-- The factor of a step for the rows of a cell -/
noncomputable def pace (c : Setup X r) (k : Nat) (b : List (X × ℝ)) (d : Entry r m → ℝ) (s : Fin r) : ℝ :=
  c.rate k * LossStep.factor c.maxNorm √(((entries r m).map fun p => d p ^ 2).sum) * (((rowsOf c b s).length : ℝ) / b.length)

theorem step_any {β : Type} (loss : β → (Entry r m → ℝ) → ℝ) (c : DqnRun.Setup) (b : β) (s : LossStep.State Unit)
    (w : LossStep.World (Entry r m)) {D : Entry r m → ℝ}
    (hb : ∀ p, deriv (fun x => loss b (Function.update w.value p x)) (w.value p) = D p) (p : Entry r m) :
    (LossStep.backward (DqnRun.cfgOf c loss) b s w).2.value p =
      w.value p - c.rate s.steps * LossStep.factor c.maxNorm √(((entries r m).map fun p => D p ^ 2).sum) * D p := by
  have hseen : ∀ p, LossStep.clip (entries r m) c.maxNorm (LossStep.accumulate ((DqnRun.cfgOf c loss).deriv b w.value)
      (LossStep.zeroGrad (entries r m) w.grad)) p = some (D p *
        LossStep.factor c.maxNorm √(((entries r m).map fun p => D p ^ 2).sum)) := by
    intro p
    have hd : ∀ p, LossStep.accumulate ((DqnRun.cfgOf c loss).deriv b w.value)
        (LossStep.zeroGrad (entries r m) w.grad) p = some (D p) := by
      intro p
      rw [LossStep.accumulate_zero (DqnRun.mem_entries p)]
      simp only [DqnRun.cfgOf, hb]
    simp only [LossStep.clip, DqnRun.mem_entries, if_true, hd, Option.map_some, LossStep.norm, LossStep.present]
    congr 4
    rw [DqnRun.filterMap_some, List.map_map]
    rfl
  have hown := LossStep.assign_own (entries r m) DqnRun.nodup_entries
    ((DqnRun.sgd () (c.rate s.steps) ((entries r m).map fun p => (w.value p, LossStep.clip (entries r m) c.maxNorm
      (LossStep.accumulate ((DqnRun.cfgOf c loss).deriv b w.value) (LossStep.zeroGrad (entries r m) w.grad)) p))).2) w.value
    (by simp [DqnRun.sgd])
  have hval : (LossStep.backward (DqnRun.cfgOf c loss) b s w).2.value = LossStep.assign (entries r m)
      ((DqnRun.sgd () (c.rate s.steps) ((entries r m).map fun p => (w.value p, LossStep.clip (entries r m) c.maxNorm
      (LossStep.accumulate ((DqnRun.cfgOf c loss).deriv b w.value) (LossStep.zeroGrad (entries r m) w.grad)) p))).2) w.value := rfl
  rw [← hval] at hown
  simp only [DqnRun.sgd, List.map_map] at hown
  have := List.map_inj_left.1 hown p (DqnRun.mem_entries p)
  rw [this]
  simp only [Function.comp, hseen]
  ring

/-- The gradient -/
noncomputable def grad (c : Setup X r) (b : List (X × ℝ)) (T : Fin r → Fin (m + 1) → ℝ) (v : Entry r m → ℝ) (p : Entry r m) : ℝ :=
  ((rowsOf c b p.1).length : ℝ) / b.length * (sm (fun j => v (p.1, j)) p.2 - T p.1 p.2)

theorem next_value {c : Setup X r} (hc : Usual c) {b : List (X × ℝ)} {T : Fin r → Fin (m + 1) → ℝ} (hT : Averages c b T) (x : Learner r m)
    (s : Fin r) (j : Fin (m + 1)) : (next c b x).net.value (s, j) =
      x.net.value (s, j) - pace c x.loss.steps b (grad c b T x.net.value) s * (sm (fun j => x.net.value (s, j)) j - T s j) := by
  have := step_any (lossOf c) ⟨c.name, 0, 0, 0, c.maxNorm, c.rate⟩ b
    { x.loss with logs := x.loss.logs.set ("training/" ++ c.name ++ "_prediction") (prediction c b x.net.value) } x.net
    (fun p => deriv_loss hc hT x.net.value p) (s, j)
  refine Eq.trans (show _ = _ from this) ?_
  simp only [pace, grad]
  ring

theorem pace_bounds {c : Setup X r} (hc : Usual c) (k : Nat) (b : List (X × ℝ)) (d : Entry r m → ℝ) (s : Fin r) :
    0 ≤ pace c k b d s ∧ pace c k b d s ≤ 1 / 2 := by
  obtain ⟨x, hx, hk⟩ := hc.rate
  have h1 : 0 ≤ c.rate k := hx.le.trans (hk k)
  obtain ⟨f0, f1, -, -⟩ := LossStep.factor_spec (n := √(((entries r m).map fun p => d p ^ 2).sum)) hc.norm (Real.sqrt_nonneg _)
  have hq0 : 0 ≤ ((rowsOf c b s).length : ℝ) / b.length := by positivity
  have hq1 : ((rowsOf c b s).length : ℝ) / b.length ≤ 1 :=
    div_le_one_of_le₀ (by exact_mod_cast List.length_filter_le _ _) (by positivity)
  unfold pace
  refine ⟨by positivity, ?_⟩
  calc _ ≤ (1 / 2 : ℝ) * 1 * 1 := by
        have := hc.rate_le k
        gcongr
    _ = 1 / 2 := by norm_num

theorem pace_low {c : Setup X r} (hc : Usual c) (m N : Nat) : ∃ e, 0 < e ∧
    ∀ (k : Nat) (b : List (X × ℝ)) (d : Entry r m → ℝ) (s : Fin r), (∀ p, |d p| ≤ 1) → b.length ≤ N → rowsOf c b s ≠ [] →
      e ≤ pace c k b d s := by
  obtain ⟨x, hx, hk⟩ := hc.rate
  let G : ℝ := √((entries r m).length)
  let f0 : ℝ := min 1 (c.maxNorm / (G + 1 / 10 ^ 6))
  have hG : 0 ≤ G := Real.sqrt_nonneg _
  have hf0 : 0 < f0 := lt_min one_pos (div_pos hc.norm (by positivity))
  refine ⟨x * f0 * (1 / (N + 1)), by positivity, fun k b d s hd hl hs => ?_⟩
  have hsum : ∀ ps : List (Entry r m), (ps.map fun p => d p ^ 2).sum ≤ ps.length := by
    intro ps
    induction ps with
    | nil => simp
    | cons q ps ih =>
      simp only [List.map_cons, List.sum_cons, List.length_cons]
      have := (sq_le_one_iff_abs_le_one (d q)).2 (hd q)
      push_cast
      linarith
  have hn : √(((entries r m).map fun p => d p ^ 2).sum) ≤ G := Real.sqrt_le_sqrt (hsum _)
  have hf : f0 ≤ LossStep.factor c.maxNorm √(((entries r m).map fun p => d p ^ 2).sum) := by
    unfold LossStep.factor
    refine min_le_min_left _ ?_
    have := hc.norm
    have := Real.sqrt_nonneg (((entries r m).map fun p => d p ^ 2).sum)
    gcongr
  have hcount : (1 : ℝ) ≤ (rowsOf c b s).length := by exact_mod_cast List.length_pos_iff.2 hs
  have hlen : (0 : ℝ) < b.length := by
    have : (rowsOf c b s).length ≤ b.length := List.length_filter_le _ _
    have : ((rowsOf c b s).length : ℝ) ≤ b.length := by exact_mod_cast this
    linarith
  have hN : (b.length : ℝ) ≤ N + 1 := by
    have : (b.length : ℝ) ≤ N := by exact_mod_cast hl
    linarith
  unfold pace
  have hrk := hk k
  have hr0 : 0 ≤ c.rate k := hx.le.trans hrk
  have hfn := hf0.le.trans hf
  gcongr

theorem grad_bound {c : Setup X r} {b : List (X × ℝ)} {T : Fin r → Fin (m + 1) → ℝ} (h0 : ∀ s j, 0 ≤ T s j) (h1 : ∀ s, ∑ j, T s j = 1)
    (v : Entry r m → ℝ) (p : Entry r m) : |grad c b T v p| ≤ 1 := by
  have hq0 : 0 ≤ ((rowsOf c b p.1).length : ℝ) / b.length := by positivity
  have hq1 : ((rowsOf c b p.1).length : ℝ) / b.length ≤ 1 :=
    div_le_one_of_le₀ (by exact_mod_cast List.length_filter_le _ _) (by positivity)
  have ht1 : T p.1 p.2 ≤ 1 := by
    rw [← h1 p.1]
    exact Finset.single_le_sum (f := T p.1) (fun i _ => h0 p.1 i) (Finset.mem_univ p.2)
  have hg : |sm (fun j => v (p.1, j)) p.2 - T p.1 p.2| ≤ 1 := by
    rw [abs_le]
    have := sm_pos (fun j => v (p.1, j)) p.2
    have := sm_le (fun j => v (p.1, j)) p.2
    have := h0 p.1 p.2
    constructor <;> linarith
  rw [grad, abs_mul, abs_of_nonneg hq0]
  exact mul_le_one₀ hq1 (abs_nonneg _) hg

/-- A run -/
noncomputable def runOf (c : Setup X r) (l : Nat → List (X × ℝ)) (x0 : Learner r m) (k : Nat) : Learner r m :=
  ((List.range k).map l).foldl (fun x b => next c b x) x0

theorem runOf_succ (c : Setup X r) (l : Nat → List (X × ℝ)) (x0 : Learner r m) (k : Nat) :
    runOf c l x0 (k + 1) = next c (l k) (runOf c l x0 k) := by
  simp [runOf, List.range_succ]

theorem tends {c : Setup X r} (hc : Usual c) {l : Nat → List (X × ℝ)} {T : Fin r → Fin (m + 1) → ℝ} (h0 : ∀ s j, 0 ≤ T s j)
    (h1 : ∀ s, ∑ j, T s j = 1) (hT : ∀ k, Averages c (l k) T) {N : Nat} (hN : ∀ k, (l k).length ≤ N) (x0 : Learner r m) (s : Fin r)
    (hoft : ∃ᶠ k in atTop, rowsOf c (l k) s ≠ []) (j : Fin (m + 1)) :
    Tendsto (fun k => sm (fun j => (runOf c l x0 k).net.value (s, j)) j) atTop (𝓝 (T s j)) := by
  obtain ⟨e, he, hlow⟩ := pace_low hc m N
  refine descends (h0 s) (h1 s) (z := fun k j => (runOf c l x0 k).net.value (s, j))
    (h := fun k => pace c (runOf c l x0 k).loss.steps (l k) (grad c (l k) T (runOf c l x0 k).net.value) s)
    (P := fun k => rowsOf c (l k) s ≠ []) he (fun k j => ?_) (fun k => (pace_bounds hc _ _ _ _).1) (fun k => (pace_bounds hc _ _ _ _).2)
    (fun k hk => hlow _ _ _ _ (grad_bound h0 h1 _) (hN k) hk) (fun k hk => ?_) hoft j
  · rw [runOf_succ]
    exact next_value hc (hT k) _ s j
  · simp only [pace]
    rw [not_not.1 hk]
    simp

/-! ## Values -/

theorem centre_value (c : Setup X r) (v : Entry r m → ℝ) (x : X) :
    value c v x = ∑ j : Fin (m + 1), sm (fun j => v (c.cell x, j)) j * Numerics.Spec.centre c.lo c.hi (m + 1) j := by
  have : centers c.lo c.hi (m + 1) = List.ofFn fun j : Fin (m + 1) => Numerics.Spec.centre c.lo c.hi (m + 1) j := by
    rw [centers_eq]
    exact map_range_ofFn _ _
  rw [value, qFromLogit, logits, softmax_ofFn, this, zipWith_ofFn, List.sum_ofFn]

/-- What is read from the distribution of a target -/
noncomputable def decoded (c : Setup X r) (m : Nat) (q : ℝ) : ℝ := ∑ j, prob c m q j * Numerics.Spec.centre c.lo c.hi (m + 1) j

theorem decoded_trained {c : Setup X r} (hc : Usual c) {q : ℝ} {ls : List ℝ}
    (ht : Numerics.Spec.Trained c.ratio c.lo c.hi (m + 1) q ls) : qFromLogit (centers c.lo c.hi (m + 1)) ls = decoded c m q := by
  have h1 := trained_softmax (Nat.succ_pos m) hc.ratio hc.range ht
  rw [lossTarget_eq hc] at h1
  have : centers c.lo c.hi (m + 1) = List.ofFn fun j : Fin (m + 1) => Numerics.Spec.centre c.lo c.hi (m + 1) j := by
    rw [centers_eq]
    exact map_range_ofFn _ _
  rw [qFromLogit, ← Option.some.inj h1, this, zipWith_ofFn, List.sum_ofFn]
  rfl

theorem decoded_close {c : Setup X r} (hc : Usual c) (m : Nat) (q : ℝ) : |decoded c m q - min (max q c.lo) c.hi| ≤ reach c m := by
  obtain ⟨ls, ht⟩ := exists_trained c.ratio c.lo c.hi (m + 1) (Nat.succ_pos m) hc.ratio hc.range q
  rw [← decoded_trained hc ht]
  exact C123_partial (Nat.succ_pos m) hc.ratio hc.range ht

/-! ## Targets that belong to inputs -/

theorem rows_const {c : Setup X r} {b : List (X × ℝ)} {y : Fin r → ℝ} (hb : ∀ z ∈ b, z.2 = y (c.cell z.1)) :
    Averages c b fun s => prob c m (y s) := by
  intro s j
  have : ∀ z ∈ rowsOf c b s, prob c m z.2 j = prob c m (y s) j := by
    intro z hz
    obtain ⟨h1, h2⟩ := List.mem_filter.1 hz
    rw [hb z h1, of_decide_eq_true h2]
  rw [List.map_congr_left this]
  simp

/-- C165: if each input has a target that does not change, and is trained with again and again, the network tends to the values that
C123 speaks of, those with the smallest loss. -/
theorem C165 {c : Setup X r} (hc : Usual c) (x0 : Learner r m) {l : Nat → List (X × ℝ)} {N : Nat} (hN : ∀ k, (l k).length ≤ N)
    {y : Fin r → ℝ} (hy : ∀ k, ∀ z ∈ l k, z.2 = y (c.cell z.1)) :
    ∃ run : Nat → Learner r m, (∀ k, train c ((List.range k).map l) x0 = .ok (run k)) ∧
      ∀ x, (∃ᶠ k in atTop, ∃ z ∈ l k, c.cell z.1 = c.cell x) → ∀ ls, Numerics.Spec.Trained c.ratio c.lo c.hi (m + 1) (y (c.cell x)) ls →
        Tendsto (fun k => value c (run k).net.value x) atTop (𝓝 (qFromLogit (centers c.lo c.hi (m + 1)) ls)) := by
  refine ⟨runOf c l x0, fun k => train_ok hc _ _, fun x hx ls hls => ?_⟩
  rw [decoded_trained hc hls]
  simp only [centre_value]
  refine tendsto_finsetSum _ fun j _ => Tendsto.mul_const _ ?_
  exact tends hc (T := fun s => prob c m (y s)) (fun s j => ((prob_spec hc m _).1 j).le) (fun s => (prob_spec hc m _).2)
    (fun k => rows_const (hy k)) hN x0 (c.cell x)
    (hx.mono fun k ⟨z, hz, he⟩ => List.ne_nil_of_mem (List.mem_filter.2 ⟨hz, decide_eq_true he⟩)) j

/-! ## Data that does not change -/

/-- The average distribution of each cell -/
noncomputable def avg (c : Setup X r) (m : Nat) (b : List (X × ℝ)) (s : Fin r) (j : Fin (m + 1)) : ℝ :=
  if rowsOf c b s = [] then prob c m 0 j else ((rowsOf c b s).map fun y => prob c m y.2 j).sum / (rowsOf c b s).length

theorem avg_averages (c : Setup X r) (m : Nat) (b : List (X × ℝ)) : Averages c b (avg c m b) := by
  intro s j
  unfold avg
  split
  · rename_i h; simp [h]
  · rename_i h
    have : ((rowsOf c b s).length : ℝ) ≠ 0 := by exact_mod_cast (List.length_pos_iff.2 h).ne'
    field_simp

theorem sum_swap {n : Nat} (l : List (X × ℝ)) (f : X × ℝ → Fin n → ℝ) : ∑ j, (l.map fun y => f y j).sum = (l.map fun y => ∑ j, f y j).sum := by
  induction l with
  | nil => simp
  | cons y l ih => simp only [List.map_cons, List.sum_cons, Finset.sum_add_distrib, ih]

theorem avg_spec {c : Setup X r} (hc : Usual c) (m : Nat) (b : List (X × ℝ)) (s : Fin r) :
    (∀ j, 0 < avg c m b s j) ∧ ∑ j, avg c m b s j = 1 := by
  by_cases h : rowsOf c b s = []
  · simp only [avg, h, if_true]
    exact prob_spec hc m 0
  · simp only [avg, h, if_false]
    have hl : (0 : ℝ) < (rowsOf c b s).length := by exact_mod_cast List.length_pos_iff.2 h
    refine ⟨fun j => div_pos ?_ hl, ?_⟩
    · refine List.sum_pos _ (fun x hx => ?_) (by simpa using h)
      obtain ⟨y, -, rfl⟩ := List.mem_map.1 hx
      exact (prob_spec hc m _).1 j
    · rw [← Finset.sum_div, sum_swap]
      simp only [(prob_spec hc m _).2]
      simp [hl.ne']

theorem avg_decoded {c : Setup X r} (m : Nat) {b : List (X × ℝ)} {s : Fin r} (h : rowsOf c b s ≠ []) :
    ∑ j, avg c m b s j * Numerics.Spec.centre c.lo c.hi (m + 1) j = mean ((rowsOf c b s).map fun y => decoded c m y.2) := by
  simp only [avg, h, if_false, mean, List.length_map, decoded]
  rw [← sum_swap, Finset.sum_div]
  refine Finset.sum_congr rfl fun j _ => ?_
  rw [div_mul_eq_mul_div]
  congr 1
  induction rowsOf c b s with
  | nil => simp
  | cons y l ih => simp only [List.map_cons, List.sum_cons, add_mul, ih]

theorem mean_close {c : Setup X r} (hc : Usual c) (m : Nat) {l : List (X × ℝ)} (h : l ≠ []) :
    |mean (l.map fun y => decoded c m y.2) - mean (l.map fun y => min (max y.2 c.lo) c.hi)| ≤ reach c m := by
  have hl : (0 : ℝ) < l.length := by exact_mod_cast List.length_pos_iff.2 h
  simp only [mean, List.length_map]
  rw [← sub_div, abs_div, abs_of_pos hl, div_le_iff₀ hl]
  clear h hl
  induction l with
  | nil => simp
  | cons y l ih =>
    simp only [List.map_cons, List.sum_cons, List.length_cons]
    have := decoded_close hc m y.2
    have h2 := abs_add_le (decoded c m y.2 - min (max y.2 c.lo) c.hi)
      ((l.map fun y => decoded c m y.2).sum - (l.map fun y => min (max y.2 c.lo) c.hi).sum)
    push_cast
    rw [show decoded c m y.2 + (l.map fun y => decoded c m y.2).sum -
      (min (max y.2 c.lo) c.hi + (l.map fun y => min (max y.2 c.lo) c.hi).sum) = decoded c m y.2 - min (max y.2 c.lo) c.hi +
      ((l.map fun y => decoded c m y.2).sum - (l.map fun y => min (max y.2 c.lo) c.hi).sum) by ring]
    linarith

theorem sum_cells {c : Setup X r} (b : List (X × ℝ)) (f : X × ℝ → ℝ) : (b.map f).sum = ∑ s, ((rowsOf c b s).map f).sum := by
  induction b with
  | nil => simp [rowsOf]
  | cons y b ih =>
    have : ∀ s, ((rowsOf c (y :: b) s).map f).sum = (if c.cell y.1 = s then f y else 0) + ((rowsOf c b s).map f).sum := by
      intro s
      by_cases h : c.cell y.1 = s
      · simp [rowsOf, h]
      · simp [rowsOf, h]
    simp only [this, Finset.sum_add_distrib, Finset.sum_ite_eq, Finset.mem_univ, if_true, List.map_cons, List.sum_cons, ih]

theorem ce_log {ι : Type} [Fintype ι] [Nonempty ι] {t : ι → ℝ} (h1 : ∑ j, t j = 1) (z : ι → ℝ) : ce t z = -∑ j, t j * Real.log (sm z j) := by
  simp only [log_sm, mul_sub]
  rw [Finset.sum_sub_distrib, ← Finset.sum_mul, h1, one_mul, ce]
  ring

/-- The loss, with logarithms `g` of the distributions -/
noncomputable def lossWith (c : Setup X r) (m : Nat) (b : List (X × ℝ)) (g : Fin r → Fin (m + 1) → ℝ) : ℝ :=
  (b.map fun y => -∑ j, prob c m y.2 j * g (c.cell y.1) j).sum / b.length

theorem lossOf_with {c : Setup X r} (hc : Usual c) (b : List (X × ℝ)) (v : Entry r m → ℝ) :
    lossOf c b v = lossWith c m b fun s j => Real.log (sm (fun j => v (s, j)) j) := by
  simp only [lossOf, batchLoss_ok hc, lossWith]
  congr 2
  exact List.map_congr_left fun y _ => ce_log (prob_spec hc m y.2).2 _

theorem lossWith_cells (c : Setup X r) (m : Nat) (b : List (X × ℝ)) (g : Fin r → Fin (m + 1) → ℝ) :
    lossWith c m b g = (∑ s, ((rowsOf c b s).length : ℝ) * -∑ j, avg c m b s j * g s j) / b.length := by
  rw [lossWith, sum_cells (c := c)]
  congr 1
  refine Finset.sum_congr rfl fun s _ => ?_
  have : ∀ y ∈ rowsOf c b s, (-∑ j, prob c m y.2 j * g (c.cell y.1) j) = -∑ j, prob c m y.2 j * g s j := by
    intro y hy
    rw [of_decide_eq_true (List.mem_filter.1 hy).2]
  rw [List.map_congr_left this]
  have h2 : ((rowsOf c b s).map fun y => -∑ j, prob c m y.2 j * g s j).sum = -∑ j, ((rowsOf c b s).map fun y => prob c m y.2 j).sum * g s j := by
    induction rowsOf c b s with
    | nil => simp
    | cons y l ih =>
      simp only [List.map_cons, List.sum_cons, ih, add_mul, Finset.sum_add_distrib]
      ring
  rw [h2, mul_neg, Finset.mul_sum]
  congr 1
  exact Finset.sum_congr rfl fun j _ => by rw [avg_averages]; ring

theorem gibbs_fin {ι : Type} [Fintype ι] {t p : ι → ℝ} (ht : ∀ j, 0 < t j) (h1 : ∑ j, t j = 1) (hp : ∀ j, 0 < p j) (hp1 : ∑ j, p j = 1) :
    ∑ j, t j * Real.log (p j) ≤ ∑ j, t j * Real.log (t j) := by
  have : ∑ j, t j * (Real.log (p j) - Real.log (t j)) ≤ ∑ j, (p j - t j) := by
    refine Finset.sum_le_sum fun j _ => ?_
    rw [← Real.log_div (hp j).ne' (ht j).ne']
    have := Real.log_le_sub_one_of_pos (div_pos (hp j) (ht j))
    calc _ ≤ t j * (p j / t j - 1) := mul_le_mul_of_nonneg_left this (ht j).le
      _ = p j - t j := by have := (ht j).ne'; field_simp
  rw [Finset.sum_sub_distrib, h1, hp1, sub_self] at this
  simp only [mul_sub, Finset.sum_sub_distrib] at this
  linarith

theorem range_const {α : Type} (b : α) (k : Nat) : (List.range k).map (fun _ => b) = List.replicate k b := by
  simp

/-- C165 on data that does not change, with any targets: the network tends to values that depend on the data only and are close to the
average targets, the loss tends to the smallest that any logits have. -/
theorem C165_fixed {c : Setup X r} (hc : Usual c) (m : Nat) (b : List (X × ℝ)) :
    ∃ q : X → ℝ, (∀ y ∈ b, |q y.1 - mean (limited c b y.1)| ≤ reach c m) ∧
      ∀ x0 : Learner r m, ∃ run : Nat → Learner r m, (∀ k, train c (List.replicate k b) x0 = .ok (run k)) ∧
        (∀ y ∈ b, Tendsto (fun k => value c (run k).net.value y.1) atTop (𝓝 (q y.1))) ∧
        ∃ small, (∀ v : Entry r m → ℝ, ∃ x, batchLoss c b v = .ok x ∧ small ≤ x) ∧
          ∀ d > 0, ∀ᶠ k in atTop, ∃ x, batchLoss c b (run k).net.value = .ok x ∧ x ≤ small + d := by
  refine ⟨fun x => ∑ j, avg c m b (c.cell x) j * Numerics.Spec.centre c.lo c.hi (m + 1) j, fun y hy => ?_, fun x0 => ?_⟩
  · have hne : rowsOf c b (c.cell y.1) ≠ [] := List.ne_nil_of_mem (List.mem_filter.2 ⟨hy, decide_eq_true rfl⟩)
    beta_reduce
    rw [avg_decoded m hne]
    exact mean_close hc m hne
  have htend : ∀ s, rowsOf c b s ≠ [] → ∀ j, Tendsto (fun k => sm (fun j => (runOf c (fun _ => b) x0 k).net.value (s, j)) j) atTop
      (𝓝 (avg c m b s j)) := fun s hs j =>
    tends hc (fun s j => ((avg_spec hc m b s).1 j).le) (fun s => (avg_spec hc m b s).2) (fun _ => avg_averages c m b)
      (fun _ => le_refl b.length) x0 s (Frequently.of_forall fun _ => hs) j
  have hloss : ∀ v : Entry r m → ℝ, batchLoss c b v = .ok (lossWith c m b fun s j => Real.log (sm (fun j => v (s, j)) j)) := fun v => by
    rw [← lossOf_with hc, lossOf, batchLoss_ok hc]
  refine ⟨runOf c (fun _ => b) x0, fun k => ?_, fun y hy => ?_, lossWith c m b fun s j => Real.log (avg c m b s j),
    fun v => ⟨_, hloss v, ?_⟩, fun d hd => ?_⟩
  · rw [← range_const]
    exact train_ok hc _ _
  · have hne : rowsOf c b (c.cell y.1) ≠ [] := List.ne_nil_of_mem (List.mem_filter.2 ⟨hy, decide_eq_true rfl⟩)
    simp only [centre_value]
    exact tendsto_finsetSum _ fun j _ => (htend _ hne j).mul_const _
  · rw [lossWith_cells, lossWith_cells]
    refine div_le_div_of_nonneg_right (Finset.sum_le_sum fun s _ => ?_) (by positivity)
    refine mul_le_mul_of_nonneg_left (neg_le_neg ?_) (by positivity)
    exact gibbs_fin (avg_spec hc m b s).1 (avg_spec hc m b s).2 (sm_pos _) (sm_sum _)
  · have hlim : Tendsto (fun k => lossWith c m b fun s j => Real.log (sm (fun j => (runOf c (fun _ => b) x0 k).net.value (s, j)) j)) atTop
        (𝓝 (lossWith c m b fun s j => Real.log (avg c m b s j))) := by
      simp only [lossWith_cells]
      refine Tendsto.div_const (tendsto_finsetSum _ fun s _ => ?_) _
      by_cases hs : rowsOf c b s = []
      · simp [hs]
      · refine Tendsto.const_mul _ (Tendsto.neg (tendsto_finsetSum _ fun j _ => Tendsto.const_mul _ ?_))
        exact (htend s hs j).log ((avg_spec hc m b s).1 j).ne'
    filter_upwards [hlim.eventually_lt_const (lt_add_of_pos_right _ hd)] with k hk
    exact ⟨_, hloss _, hk.le⟩

/-! ## What is logged -/

theorem prediction_key (a s t : String) : "training/" ++ a ++ "_prediction" ≠ "loss/" ++ s ++ t := by
  intro h
  have := congrArg (fun x => x.toList.head?) h
  simp [String.toList_append] at this

/-- C165: what is logged as prediction tends to the average of the values of the rows. -/
theorem C165_logged {c : Setup X r} (hc : Usual c) {b : List (X × ℝ)} {q : X → ℝ} {run : Nat → Learner r m}
    {x0 : Learner r m} (hrun : ∀ k, train c (List.replicate k b) x0 = .ok (run k))
    (hq : ∀ y ∈ b, Tendsto (fun k => value c (run k).net.value y.1) atTop (𝓝 (q y.1))) :
    ∃ g : Nat → ℝ, (∀ k, (run (k + 1)).loss.logs.get? ("training/" ++ c.name ++ "_prediction") = some (g k)) ∧
      Tendsto g atTop (𝓝 (mean (b.map fun y => q y.1))) := by
  refine ⟨fun k => prediction c b (run k).net.value, fun k => ?_, ?_⟩
  · have h1 := hrun (k + 1)
    have h2 := hrun k
    rw [train_ok hc] at h1 h2
    rw [List.replicate_succ', List.foldl_append, List.foldl_cons, List.foldl_nil] at h1
    rw [Except.ok.inj h2] at h1
    rw [← Except.ok.inj h1]
    simp only [next, LossStep.backward, Setup.cfg]
    rw [Dict.get?_set_ne, Dict.get?_set_ne, Dict.get?_set_ne, Dict.get?_set_self]
    all_goals first
      | exact prediction_key _ _ _
      | exact (prediction_key _ _ _).symm
  · simp only [prediction, mean, List.length_map]
    refine Tendsto.div_const ?_ _
    clear hrun
    induction b with
    | nil => simp
    | cons y b ih =>
      simp only [List.map_cons, List.sum_cons]
      exact (hq y (by simp)).add (ih fun z hz => hq z (List.mem_cons_of_mem _ hz))

namespace Ex

/-- Inputs 0 and 1, and two rows of logits -/
noncomputable def setup : Setup (Fin 2) 2 := ⟨"q", id, -1, 1, 3 / 4, 10, fun _ => 1 / 4⟩

theorem usual : Usual setup where
  range := by norm_num [setup]
  ratio := by norm_num [setup]
  norm := by norm_num [setup]
  rate := ⟨1 / 4, by norm_num, fun _ => by norm_num [setup]⟩
  rate_le := fun _ => by norm_num [setup]

noncomputable def start : Learner 2 3 := ⟨⟨(), 0, []⟩, ⟨fun p => p.2, fun _ => none⟩⟩

/-- Input 0 has the target 0, input 1 the target 1/2; they take turns. With four bins, the value of input 0 tends to 0. -/
example : ∃ run : Nat → Learner 2 3,
    (∀ k, train setup ((List.range k).map fun j => if j % 2 = 0 then [(0, 0)] else [(1, 1 / 2), (1, 1 / 2)]) start = .ok (run k)) ∧
    Tendsto (fun k => value setup (run k).net.value 0) atTop (𝓝 0) := by
  obtain ⟨run, h1, h2⟩ := C165 usual start (N := 2) (l := fun j => if j % 2 = 0 then [(0, 0)] else [(1, 1 / 2), (1, 1 / 2)])
    (y := fun s => if s = 0 then 0 else 1 / 2) (fun k => by split <;> simp) (by
      intro k z hz
      split at hz
      · simp only [List.mem_singleton] at hz
        subst hz
        simp [setup]
      · simp only [List.mem_cons, List.not_mem_nil, or_false, or_self] at hz
        subst hz
        simp [setup])
  refine ⟨run, h1, ?_⟩
  obtain ⟨ls, hls⟩ := exists_trained (3 / 4) (-1) 1 4 (by norm_num) (by norm_num) (by norm_num) 0
  have h3 := h2 0 (frequently_atTop.2 fun k => ⟨2 * k, by omega, (0, 0), by simp, rfl⟩) ls (by simpa [setup] using hls)
  have h4 := C123_middle (n := 4) (ratio := 3 / 4) (lo := -1) (hi := 1) (logits := ls) (by norm_num) (by norm_num) (by norm_num)
    (by norm_num; exact hls)
  norm_num at h4
  rw [show qFromLogit (centers setup.lo setup.hi (3 + 1)) ls = 0 from h4] at h3
  exact h3

/-- With the targets 1/2 and 1 for input 0, of which the average is 3/4, the value comes within 11/20 of it. -/
example : ∃ q : ℝ, |q - 3 / 4| ≤ 11 / 20 ∧ ∃ run : Nat → Learner 2 3,
    (∀ k, train setup (List.replicate k [(0, 1 / 2), (0, 1)]) start = .ok (run k)) ∧
    Tendsto (fun k => value setup (run k).net.value 0) atTop (𝓝 q) := by
  obtain ⟨q, h1, h2⟩ := C165_fixed usual 3 [(0, 1 / 2), (0, 1)]
  obtain ⟨run, h3, h4, -⟩ := h2 start
  refine ⟨q 0, ?_, run, h3, h4 (0, 1 / 2) (by simp)⟩
  have := h1 (0, 1 / 2) (by simp)
  have hm : mean (limited setup [(0, 1 / 2), (0, 1)] 0) = 3 / 4 := by
    norm_num [limited, setup, mean, List.filter]
  rw [hm] at this
  refine this.trans ?_
  have : √(2 / Real.pi) ≤ 4 / 5 := by
    rw [Real.sqrt_le_left (by norm_num), div_le_iff₀ Real.pi_pos]
    nlinarith [Real.pi_gt_d4]
  simp only [reach, setup]
  push_cast
  linarith

example : ∃ (run : Nat → Learner 2 3) (g : Nat → ℝ), (∀ k, (run (k + 1)).loss.logs.get? "training/q_prediction" = some (g k)) ∧
    ∃ x, Tendsto g atTop (𝓝 x) := by
  obtain ⟨q, h1, h2⟩ := C165_fixed usual 3 [(0, 1 / 2), (1, 1)]
  obtain ⟨run, h3, h4, -⟩ := h2 start
  obtain ⟨g, h5, h6⟩ := C165_logged usual h3 h4
  exact ⟨run, g, h5, _, h6⟩

end Ex

end HlGaussRun

end Verif
