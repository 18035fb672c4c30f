import Verif.Props.Numerics
import Mathlib.Analysis.SpecialFunctions.Gaussian.GaussianIntegral
import Mathlib.Analysis.Calculus.Deriv.MeanValue
import Mathlib.MeasureTheory.Integral.IntegralEqImproper
import Mathlib.Analysis.Real.Pi.Bounds

/-!
# What is read from a value network trained with HL-Gauss (C123)
-/

namespace Verif

namespace Numerics

open MeasureTheory intervalIntegral

theorem erf_zero : erf 0 = 0 := by simp [erf]

theorem hasDerivAt_erf (x : ℝ) : HasDerivAt erf (2 / √Real.pi * Real.exp (-x ^ 2)) x := by
  have hc : Continuous fun t : ℝ => Real.exp (-t ^ 2) := by fun_prop
  exact (integral_hasDerivAt_right (gauss_integrable 0 x) (hc.stronglyMeasurableAtFilter _ _) hc.continuousAt).const_mul _

theorem erf_tendsto : Filter.Tendsto erf Filter.atTop (nhds 1) := by
  have hi : IntegrableOn (fun t : ℝ => Real.exp (-t ^ 2)) (Set.Ioi 0) := by
    have := (integrable_exp_neg_mul_sq (b := 1) one_pos).integrableOn (s := Set.Ioi 0)
    simpa using this
  have h := intervalIntegral_tendsto_integral_Ioi (μ := volume) (0 : ℝ) hi Filter.tendsto_id
  have e : ∫ t in Set.Ioi (0 : ℝ), Real.exp (-t ^ 2) = √Real.pi / 2 := by
    have := integral_gaussian_Ioi 1
    simpa using this
  rw [e] at h
  have h2 := h.const_mul (2 / √Real.pi)
  have e2 : 2 / √Real.pi * (√Real.pi / 2) = 1 := by
    have : √Real.pi ≠ 0 := (Real.sqrt_pos.mpr Real.pi_pos).ne'
    field_simp
  rw [e2] at h2
  exact h2

/-- `erf` lies above 1 - exp(-x²). -/
theorem erf_ge {u : ℝ} (hu : 0 ≤ u) : 1 - Real.exp (-u ^ 2) ≤ erf u := by
  set d : ℝ → ℝ := fun u => erf u + Real.exp (-u ^ 2) with hd
  have hsp : 0 < √Real.pi := Real.sqrt_pos.mpr Real.pi_pos
  have hder : ∀ x, HasDerivAt d ((2 / √Real.pi - 2 * x) * Real.exp (-x ^ 2)) x := fun x => by
    have h1 : HasDerivAt (fun x : ℝ => -x ^ 2) (-(2 * x)) x := ((hasDerivAt_pow 2 x).fun_neg).congr_deriv (by simp)
    exact ((hasDerivAt_erf x).fun_add h1.exp).congr_deriv (by ring)
  have hcont : Continuous d := continuous_iff_continuousAt.mpr fun x => (hder x).continuousAt
  suffices 1 ≤ d u by simp only [hd] at this; linarith
  rcases le_total u (1 / √Real.pi) with h | h
  · have mono : MonotoneOn d (Set.Icc 0 (1 / √Real.pi)) := by
      refine monotoneOn_of_deriv_nonneg (convex_Icc _ _) hcont.continuousOn
        (fun x _ => (hder x).differentiableAt.differentiableWithinAt) fun x hx => ?_
      rw [interior_Icc] at hx
      rw [(hder x).deriv]
      have : 2 * x ≤ 2 / √Real.pi := by
        have := hx.2.le
        calc 2 * x ≤ 2 * (1 / √Real.pi) := by gcongr
          _ = 2 / √Real.pi := by ring
      exact mul_nonneg (by linarith) (Real.exp_pos _).le
    have := mono (Set.mem_Icc.mpr ⟨le_refl 0, by positivity⟩) (Set.mem_Icc.mpr ⟨hu, h⟩) hu
    simpa [hd, erf_zero] using this
  · have anti : AntitoneOn d (Set.Ici (1 / √Real.pi)) := by
      refine antitoneOn_of_deriv_nonpos (convex_Ici _) hcont.continuousOn
        (fun x _ => (hder x).differentiableAt.differentiableWithinAt) fun x hx => ?_
      rw [interior_Ici] at hx
      rw [(hder x).deriv]
      have : 2 / √Real.pi ≤ 2 * x := by
        have : 1 / √Real.pi ≤ x := le_of_lt hx
        calc 2 / √Real.pi = 2 * (1 / √Real.pi) := by ring
          _ ≤ 2 * x := by gcongr
      exact mul_nonpos_of_nonpos_of_nonneg (by linarith) (Real.exp_pos _).le
    have hlim : Filter.Tendsto d Filter.atTop (nhds (1 + 0)) := by
      refine erf_tendsto.add ?_
      exact Real.tendsto_exp_neg_atTop_nhds_zero.comp (Filter.tendsto_pow_atTop (by norm_num))
    rw [add_zero] at hlim
    refine le_of_tendsto hlim ?_
    filter_upwards [Filter.eventually_ge_atTop u] with x hx
    exact anti (Set.mem_Ici.mpr h) (Set.mem_Ici.mpr (h.trans hx)) hx

theorem density_integrable (t s a b : ℝ) : IntervalIntegrable (Spec.density t s) volume a b :=
  (by unfold Spec.density; fun_prop : Continuous (Spec.density t s)).intervalIntegrable a b

theorem density_pos (t s x : ℝ) : 0 < Spec.density t s x := Real.exp_pos _

/-- the first moment over an interval -/
theorem moment (t s a b : ℝ) (hs : 0 < s) :
    ∫ x in a..b, (x - t) * Spec.density t s x = s ^ 2 * (Spec.density t s a - Spec.density t s b) := by
  have hder : ∀ x ∈ Set.uIcc a b, HasDerivAt (fun x => -(s ^ 2 * Spec.density t s x)) ((x - t) * Spec.density t s x) x := by
    intro x _
    have h1 : HasDerivAt (fun x : ℝ => -((x - t) ^ 2 / (2 * s ^ 2))) (-((x - t) / s ^ 2)) x := by
      have := ((((hasDerivAt_id' x).sub_const t).fun_pow 2).div_const (2 * s ^ 2)).fun_neg
      exact this.congr_deriv (by field_simp; norm_num; ring)
    exact (h1.exp.const_mul (s ^ 2)).fun_neg.congr_deriv (by simp only [Spec.density]; field_simp)
  rw [integral_eq_sub_of_hasDerivAt hder]
  · ring
  · exact (by unfold Spec.density; fun_prop : Continuous fun x => (x - t) * Spec.density t s x).intervalIntegrable a b

/-- The mean distance from the mean of a normal distribution does not grow when it is cut off on both sides. -/
theorem distance_le (t s a b : ℝ) (hs : 0 < s) (ha : a ≤ t) (hb : t ≤ b) :
    ∫ x in a..b, |x - t| * Spec.density t s x ≤ s * √(2 / Real.pi) * Spec.weight t s a b := by
  have hcont : Continuous fun x => |x - t| * Spec.density t s x := by unfold Spec.density; fun_prop
  have hpi := Real.pi_pos
  have hsp : 0 < √Real.pi := Real.sqrt_pos.mpr hpi
  have h2 : 0 < √(2 : ℝ) := by positivity
  have split : ∫ x in a..b, |x - t| * Spec.density t s x = s ^ 2 * ((1 - Spec.density t s a) + (1 - Spec.density t s b)) := by
    rw [← integral_add_adjacent_intervals (hcont.intervalIntegrable a t) (hcont.intervalIntegrable t b)]
    have e1 : ∫ x in a..t, |x - t| * Spec.density t s x = -∫ x in a..t, (x - t) * Spec.density t s x := by
      rw [← intervalIntegral.integral_neg]
      refine integral_congr fun x hx => ?_
      rw [Set.uIcc_of_le ha] at hx
      show |x - t| * _ = -((x - t) * _)
      rw [abs_of_nonpos (by linarith [hx.2])]
      ring
    have e2 : ∫ x in t..b, |x - t| * Spec.density t s x = ∫ x in t..b, (x - t) * Spec.density t s x := by
      refine integral_congr fun x hx => ?_
      rw [Set.uIcc_of_le hb] at hx
      show |x - t| * _ = (x - t) * _
      rw [abs_of_nonneg (by linarith [hx.1])]
    have e3 : Spec.density t s t = 1 := by simp [Spec.density]
    rw [e1, e2, moment _ _ _ _ hs, moment _ _ _ _ hs, e3]
    ring
  have side : ∀ y : ℝ, 0 ≤ y → Spec.density t s (t + y) = Real.exp (-(y / (√2 * s)) ^ 2) ∧
      Spec.density t s (t - y) = Real.exp (-(y / (√2 * s)) ^ 2) := fun y _ => by
    unfold Spec.density
    have : (√2 : ℝ) ^ 2 = 2 := Real.sq_sqrt (by norm_num)
    constructor <;> congr 1 <;> rw [div_pow, mul_pow, this] <;> ring
  have odd : ∀ x, erf (-x) = -erf x := fun x => by
    have h := integral_comp_neg (a := 0) (b := x) fun u : ℝ => Real.exp (-u ^ 2)
    simp only [neg_sq, neg_zero] at h
    rw [erf, erf, integral_symm, ← h]
    ring
  have ga := erf_ge (u := (t - a) / (√2 * s)) (by apply div_nonneg <;> [linarith; positivity])
  have gb := erf_ge (u := (b - t) / (√2 * s)) (by apply div_nonneg <;> [linarith; positivity])
  rw [← (side (t - a) (by linarith)).2, sub_sub_cancel] at ga
  rw [← (side (b - t) (by linarith)).1, add_sub_cancel] at gb
  rw [split, weight_eq _ _ _ _ hs]
  have ea : erf ((a - t) / (√2 * s)) = -erf ((t - a) / (√2 * s)) := by rw [← odd]; congr 1; ring
  rw [ea]
  have ec : s * √(2 / Real.pi) * (√2 * s * (√Real.pi / 2)) = s ^ 2 := by
    rw [Real.sqrt_div (by norm_num)]
    have : (√2 : ℝ) * √2 = 2 := Real.mul_self_sqrt (by norm_num)
    field_simp
    linear_combination this
  calc s ^ 2 * ((1 - Spec.density t s a) + (1 - Spec.density t s b))
      ≤ s ^ 2 * (erf ((t - a) / (√2 * s)) + erf ((b - t) / (√2 * s))) := by gcongr
    _ = _ := by rw [← ec]; ring

/-- The logits with the smallest loss for a target: no others of the same number have a smaller one. -/
def Spec.Trained (ratio lo hi : ℝ) (n : Nat) (q : ℝ) (logits : List ℝ) : Prop :=
  logits.length = n ∧ ∃ probs, lossTarget ratio lo hi n q = some probs ∧
    ∀ other : List ℝ, other.length = n → crossEntropy logits probs ≤ crossEntropy other probs

theorem trained_softmax {ratio lo hi : ℝ} {n : Nat} (hn : 0 < n) (hr : 0 < ratio) (h : lo < hi) {q : ℝ} {logits : List ℝ}
    (ht : Spec.Trained ratio lo hi n q logits) : lossTarget ratio lo hi n q = some (softmax logits) := by
  obtain ⟨hl, probs, h1, h2⟩ := ht
  obtain ⟨probs', h1', h2', h3, h4⟩ := C64_distribution ratio lo hi n hn hr h q
  rw [h1] at h1'; cases h1'
  have e : (probs.map Real.log).map Real.exp = probs := by
    rw [List.map_map]
    conv_rhs => rw [← List.map_id probs]
    exact List.map_congr_left fun p hp => Real.exp_log (h3 p hp)
  have hb : softmax (probs.map Real.log) = probs := by
    rw [softmax, e, h4]
    simp only [div_one]
    exact e
  obtain ⟨c1, c2⟩ := C64_loss ratio lo hi n hn hr h q probs h1 _ logits hb hl
  rw [h1, c2.mp (le_antisymm (h2 _ (by simpa using h2')) c1)]

/-- such logits exist for every target -/
theorem exists_trained (ratio lo hi : ℝ) (n : Nat) (hn : 0 < n) (hr : 0 < ratio) (h : lo < hi) (q : ℝ) :
    ∃ logits, Spec.Trained ratio lo hi n q logits := by
  obtain ⟨probs, h1, h2, h3, h4⟩ := C64_distribution ratio lo hi n hn hr h q
  have e : (probs.map Real.log).map Real.exp = probs := by
    rw [List.map_map]
    conv_rhs => rw [← List.map_id probs]
    exact List.map_congr_left fun p hp => Real.exp_log (h3 p hp)
  have hb : softmax (probs.map Real.log) = probs := by
    rw [softmax, e, h4]
    simp only [div_one]
    exact e
  exact ⟨probs.map Real.log, by simpa using h2, probs, h1, fun other ho =>
    (C64_loss ratio lo hi n hn hr h q probs h1 _ other hb ho).1⟩

theorem sum_zipWith_range (f g : ℕ → ℝ) (n : Nat) :
    (List.zipWith (· * ·) ((List.range n).map f) ((List.range n).map g)).sum = ∑ i ∈ Finset.range n, f i * g i := by
  rw [List.zipWith_map, List.zipWith_self, ← List.sum_toFinset _ (List.nodup_range), List.toFinset_range]

theorem border_le {lo hi : ℝ} (h : lo < hi) {n : Nat} (hn : 0 < n) (i : Nat) : Spec.border lo hi n i ≤ Spec.border lo hi n (i + 1) := by
  have : 0 < hi - lo := by linarith
  have : (0 : ℝ) < n := by positivity
  simp only [Spec.border]
  gcongr
  simp

theorem border_end (lo hi : ℝ) {n : Nat} (hn : 0 < n) : Spec.border lo hi n 0 = lo ∧ Spec.border lo hi n n = hi := by
  have hn' : (n : ℝ) ≠ 0 := by positivity
  constructor
  · simp [Spec.border]
  · simp only [Spec.border]; field_simp; ring

/-- what a trained network returns -/
theorem trained_value {ratio lo hi : ℝ} {n : Nat} (hn : 0 < n) (hr : 0 < ratio) (h : lo < hi) {q : ℝ} {logits : List ℝ}
    (ht : Spec.Trained ratio lo hi n q logits) :
    qFromLogit (centers lo hi n) logits = ∑ i ∈ Finset.range n,
      Spec.weight (min (max q lo) hi) (ratio * (hi - lo) / n) (Spec.border lo hi n i) (Spec.border lo hi n (i + 1)) /
        Spec.weight (min (max q lo) hi) (ratio * (hi - lo) / n) lo hi * Spec.centre lo hi n i := by
  have h1 := trained_softmax hn hr h ht
  have h2 := C64_mass ratio lo hi n hn hr h q
  simp only at h2
  rw [h1] at h2
  rw [qFromLogit, Option.some.inj h2, centers_eq, sum_zipWith_range]

theorem weight_pos {t s a b : ℝ} (h : a < b) : 0 < Spec.weight t s a b :=
  intervalIntegral_pos_of_pos (density_integrable _ _ _ _) (density_pos t s) h

theorem weight_sum (t s : ℝ) (f : ℕ → ℝ) (n : Nat) :
    ∑ i ∈ Finset.range n, Spec.weight t s (f i) (f (i + 1)) = Spec.weight t s (f 0) (f n) :=
  sum_integral_adjacent_intervals fun k _ => density_integrable t s (f k) (f (k + 1))

/-- **C123** (partial). A network with the smallest loss returns the target, limited to the range, up to a distance that
depends on the width of the bins and on the smoothing only. -/
theorem C123_partial {ratio lo hi : ℝ} {n : Nat} (hn : 0 < n) (hr : 0 < ratio) (h : lo < hi) {q : ℝ} {logits : List ℝ}
    (ht : Spec.Trained ratio lo hi n q logits) :
    |qFromLogit (centers lo hi n) logits - min (max q lo) hi| ≤ (hi - lo) / n * (1 / 2 + ratio * √(2 / Real.pi)) := by
  rw [trained_value hn hr h ht]
  set t := min (max q lo) hi with hte
  set s := ratio * (hi - lo) / n with hse
  set b := Spec.border lo hi n with hb
  set W := Spec.weight t s lo hi with hW
  have hlt : lo ≤ t := by rw [hte]; exact le_min (le_max_right _ _) h.le
  have hth : t ≤ hi := min_le_right _ _
  have hn' : (0 : ℝ) < n := by positivity
  have hd : 0 < hi - lo := by linarith
  have hs : 0 < s := by rw [hse]; positivity
  have hWp : 0 < W := weight_pos h
  have hw := border_end lo hi hn
  set f : ℝ → ℝ := fun x => (|x - t| + (hi - lo) / n / 2) * Spec.density t s x with hf
  have hfi : ∀ a b, IntervalIntegrable f volume a b := fun a b =>
    (by simp only [hf, Spec.density]; fun_prop : Continuous f).intervalIntegrable a b
  have hsum : ∑ i ∈ Finset.range n, Spec.weight t s (b i) (b (i + 1)) = W := by
    rw [weight_sum, hb, hw.1, hw.2]
  have hbin : ∀ i, |Spec.weight t s (b i) (b (i + 1)) * (Spec.centre lo hi n i - t)| ≤ ∫ x in b i..b (i + 1), f x := by
    intro i
    have hbi : b i ≤ b (i + 1) := border_le h hn i
    have hwi : b (i + 1) - b i = (hi - lo) / n := by simp only [hb, Spec.border]; push_cast; field_simp; ring
    have hw0 : 0 ≤ Spec.weight t s (b i) (b (i + 1)) := integral_nonneg hbi fun x _ => (density_pos t s x).le
    rw [abs_mul, abs_of_nonneg hw0, mul_comm, Spec.weight, ← intervalIntegral.integral_const_mul]
    refine integral_mono_on hbi ((density_integrable _ _ _ _).const_mul _) (hfi _ _) fun x hx => ?_
    have hc : |Spec.centre lo hi n i - t| ≤ |x - t| + (hi - lo) / n / 2 := by
      have : |Spec.centre lo hi n i - x| ≤ (hi - lo) / n / 2 := by
        simp only [Spec.centre]
        change |(b i + b (i + 1)) / 2 - x| ≤ _
        rw [abs_le]
        constructor <;> linarith [hx.1, hx.2]
      calc |Spec.centre lo hi n i - t| = |(x - t) + (Spec.centre lo hi n i - x)| := by ring_nf
        _ ≤ _ := (abs_add_le _ _).trans (by linarith)
    exact mul_le_mul_of_nonneg_right hc (density_pos t s x).le
  have hall : ∫ x in lo..hi, f x ≤ s * √(2 / Real.pi) * W + (hi - lo) / n / 2 * W := by
    have e : ∫ x in lo..hi, f x = (∫ x in lo..hi, |x - t| * Spec.density t s x) + ∫ x in lo..hi, (hi - lo) / n / 2 * Spec.density t s x := by
      rw [← intervalIntegral.integral_add]
      · exact integral_congr fun x _ => by simp only [hf]; ring
      · exact (by unfold Spec.density; fun_prop : Continuous fun x => |x - t| * Spec.density t s x).intervalIntegrable _ _
      · exact (density_integrable _ _ _ _).const_mul _
    rw [e, intervalIntegral.integral_const_mul]
    exact add_le_add (distance_le t s lo hi hs hlt hth) (le_refl _)
  have key : (∑ i ∈ Finset.range n, Spec.weight t s (b i) (b (i + 1)) / W * Spec.centre lo hi n i) - t =
      (∑ i ∈ Finset.range n, Spec.weight t s (b i) (b (i + 1)) * (Spec.centre lo hi n i - t)) / W := by
    have e : ∑ i ∈ Finset.range n, Spec.weight t s (b i) (b (i + 1)) * (Spec.centre lo hi n i - t) =
        (∑ i ∈ Finset.range n, Spec.weight t s (b i) (b (i + 1)) * Spec.centre lo hi n i) - W * t := by
      simp only [mul_sub]
      rw [Finset.sum_sub_distrib, ← Finset.sum_mul, hsum]
    rw [e, eq_div_iff hWp.ne', sub_mul, Finset.sum_mul]
    congr 1
    · exact Finset.sum_congr rfl fun i _ => by field_simp
    · ring
  rw [key, abs_div, abs_of_pos hWp, div_le_iff₀ hWp]
  calc |∑ i ∈ Finset.range n, Spec.weight t s (b i) (b (i + 1)) * (Spec.centre lo hi n i - t)|
      ≤ ∑ i ∈ Finset.range n, ∫ x in b i..b (i + 1), f x :=
        (Finset.abs_sum_le_sum_abs _ _).trans (Finset.sum_le_sum fun i _ => hbin i)
    _ = ∫ x in lo..hi, f x := by
        rw [sum_integral_adjacent_intervals fun k _ => hfi _ _, hb, hw.1, hw.2]
    _ ≤ _ := hall
    _ = _ := by rw [hse]; field_simp; ring

/-- **C123**: a target in the middle of the range is returned exactly. -/
theorem C123_middle {ratio lo hi : ℝ} {n : Nat} (hn : 0 < n) (hr : 0 < ratio) (h : lo < hi) {logits : List ℝ}
    (ht : Spec.Trained ratio lo hi n ((lo + hi) / 2) logits) : qFromLogit (centers lo hi n) logits = (lo + hi) / 2 := by
  rw [trained_value hn hr h ht]
  have e : min (max ((lo + hi) / 2) lo) hi = (lo + hi) / 2 := by
    rw [max_eq_left (by linarith), min_eq_left (by linarith)]
  rw [e]
  set t := (lo + hi) / 2 with hte
  set s := ratio * (hi - lo) / n
  have hn' : (n : ℝ) ≠ 0 := by positivity
  have hWp : 0 < Spec.weight t s lo hi := weight_pos h
  have hw := border_end lo hi hn
  set p : ℕ → ℝ := fun i => Spec.weight t s (Spec.border lo hi n i) (Spec.border lo hi n (i + 1)) / Spec.weight t s lo hi with hp
  have hsum : ∑ i ∈ Finset.range n, p i = 1 := by
    simp only [hp]
    rw [← Finset.sum_div, weight_sum, hw.1, hw.2, div_self hWp.ne']
  -- the bins are symmetric about the middle
  have hmir : ∀ i < n, Spec.border lo hi n (n - 1 - i) = lo + hi - Spec.border lo hi n (i + 1) ∧
      Spec.border lo hi n (n - 1 - i + 1) = lo + hi - Spec.border lo hi n i := by
    intro i hi'
    have e1 : ((n - 1 - i : ℕ) : ℝ) = n - 1 - i := by rw [Nat.cast_sub (by omega), Nat.cast_sub (by omega)]; simp
    constructor
    · simp only [Spec.border, e1]; push_cast; field_simp; ring
    · simp only [Spec.border]; push_cast; rw [e1]; field_simp; ring
  have hsym : ∀ i < n, p (n - 1 - i) = p i := by
    intro i hi'
    simp only [hp]
    rw [(hmir i hi').1, (hmir i hi').2]
    congr 1
    simp only [Spec.weight]
    rw [← integral_comp_sub_left (Spec.density t s) (lo + hi)]
    refine integral_congr fun x _ => ?_
    simp only [Spec.density]
    congr 3
    rw [hte]; ring
  have hcen : ∀ i < n, Spec.centre lo hi n (n - 1 - i) = lo + hi - Spec.centre lo hi n i := by
    intro i hi'
    simp only [Spec.centre]
    rw [(hmir i hi').1, (hmir i hi').2]
    ring
  have hrefl : ∑ i ∈ Finset.range n, p i * Spec.centre lo hi n i = ∑ i ∈ Finset.range n, p i * (lo + hi - Spec.centre lo hi n i) := by
    rw [← Finset.sum_range_reflect]
    refine Finset.sum_congr rfl fun i hi' => ?_
    rw [Finset.mem_range] at hi'
    rw [hsym i hi', hcen i hi']
  have : ∑ i ∈ Finset.range n, p i * (lo + hi - Spec.centre lo hi n i) =
      (lo + hi) - ∑ i ∈ Finset.range n, p i * Spec.centre lo hi n i := by
    simp only [mul_sub]
    rw [Finset.sum_sub_distrib, ← Finset.sum_mul, hsum, one_mul]
  linarith

/-- **C123** (limits): whatever the target, the returned value stays half a bin away from the ends of the range. So targets
near the ends are never returned. -/
theorem C123_ends {lo hi : ℝ} {n : Nat} (hn : 0 < n) (h : lo < hi) {logits : List ℝ} (hl : logits.length = n) :
    lo + (hi - lo) / n / 2 ≤ qFromLogit (centers lo hi n) logits ∧ qFromLogit (centers lo hi n) logits ≤ hi - (hi - lo) / n / 2 := by
  have hne : logits ≠ [] := by rintro rfl; simp at hl; omega
  have hn' : (n : ℝ) ≠ 0 := by positivity
  have h1 := C64_decoded lo hi h.le logits hne
  simp only [hl] at h1
  refine ⟨le_of_eq_of_le ?_ h1.1, h1.2.1.trans_eq ?_⟩
  · simp only [Spec.centre, Spec.border]; push_cast; field_simp; ring
  · simp only [Spec.centre, Spec.border]
    have : ((n - 1 : ℕ) : ℝ) = n - 1 := by rw [Nat.cast_sub (by omega)]; simp
    push_cast
    rw [this]
    field_simp
    ring

/-- The property as one would like to have it: a network with the smallest loss returns any target of the range. -/
def C123_claim : Prop :=
  ∀ (ratio lo hi : ℝ) (n : Nat) (q : ℝ) (logits : List ℝ), 0 < n → 0 < ratio → lo < hi → lo ≤ q → q ≤ hi →
    Spec.Trained ratio lo hi n q logits → qFromLogit (centers lo hi n) logits = q

/-- **C123** fails: a target at the end of the range is underestimated, with any number of bins. -/
theorem C123_false : ¬ C123_claim := by
  intro hc
  obtain ⟨logits, ht⟩ := exists_trained (3 / 4) (-100) 100 51 (by norm_num) (by norm_num) (by norm_num) 100
  have h1 := hc (3 / 4) (-100) 100 51 100 logits (by norm_num) (by norm_num) (by norm_num) (by norm_num) (by norm_num) ht
  have h2 := (C123_ends (lo := -100) (hi := 100) (n := 51) (by norm_num) (by norm_num) ht.1).2
  rw [h1] at h2
  norm_num at h2

/-- With the default smoothing the distance is at most 1.1 bins: here, at most 4.4. -/
example (logits : List ℝ) (ht : Spec.Trained (3 / 4) (-100) 100 51 37 logits) :
    |qFromLogit (centers (-100) 100 51) logits - 37| ≤ 22 / 5 := by
  have h := C123_partial (by norm_num) (by norm_num) (by norm_num) ht
  have e : min (max (37 : ℝ) (-100)) 100 = 37 := by norm_num
  rw [e] at h
  refine h.trans ?_
  have : √(2 / Real.pi) ≤ 4 / 5 := by
    rw [Real.sqrt_le_left (by norm_num), div_le_iff₀ Real.pi_pos]
    nlinarith [Real.pi_gt_d4]
  push_cast
  nlinarith

example : ∃ logits, Spec.Trained (3 / 4) (-100) 100 51 37 logits :=
  exists_trained _ _ _ _ (by norm_num) (by norm_num) (by norm_num) _

example : ∃ logits, Spec.Trained (3 / 4) (-100) 100 51 0 logits ∧ qFromLogit (centers (-100) 100 51) logits = 0 := by
  obtain ⟨logits, ht⟩ := exists_trained (3 / 4) (-100) 100 51 (by norm_num) (by norm_num) (by norm_num) 0
  have := C123_middle (n := 51) (ratio := 3 / 4) (lo := -100) (hi := 100) (logits := logits) (by norm_num) (by norm_num) (by norm_num)
    (by norm_num; exact ht)
  norm_num at this
  exact ⟨logits, ht, this⟩

end Numerics

end Verif
