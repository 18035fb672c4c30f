import Verif.Props.Sampler
import Verif.Props.RealDraws
import Mathlib.Probability.StrongLaw
import Mathlib.Probability.Independence.InfinitePi
import Mathlib.Analysis.Asymptotics.Lemmas

/-!
# C93 over many steps: choices are independent, and the share of model batches tends to the last value of the schedule
-/

namespace Verif

namespace Sampler

open MeasureTheory ProbabilityTheory Filter Finset
open Verif.Props.RealDraws (unit)
open scoped Topology ENNReal Classical

/-! ## Specification -/

/-- A training in which step `k` finds the buffer `v k` and the trainer's state `st k`; `u` are the numbers that `torch.rand` gives. What
step `k` provides for the RL callbacks: -/
noncomputable def provided {D : Type v} (cfg : Config ℝ) (v : Nat → TableView D) (st : Nat → Dict String (Entry D)) (u : Nat → ℝ) (k : Nat) :
    Option (Entry D) :=
  match step cfg ((List.range k).map fun j => ⟨u j, v j, v j, st j⟩) ⟨u k, v k, v k, st k⟩ with
  | .ok s => s.get? cfg.rlGroup
  | .error _ => none

/-- How many of the first `n` steps provide what is in `b` -/
noncomputable def Spec.share {α : Type v} (b p : Nat → α) (n : Nat) : ℕ := ((Finset.range n).filter fun k => p k = b k).card

/-! ## Proofs -/

section
variable {D : Type v} {cfg : Config ℝ} (hl : cfg.logs = true) (hg : cfg.loader.group = cfg.rlGroup) (hk : cfg.loader.group ≠ cfg.loader.sizeKey)
  {v : Nat → TableView D} (hready : ∀ k, ((cfg.loader.count * cfg.loader.length : Nat) : Int) ≤ (v k).size)
  {d : Nat → Dict String (BVal D)} (hs : ∀ k, (v k).sample cfg.loader.count cfg.loader.length = .ok (d k))
  {st : Nat → Dict String (Entry D)} {real : Nat → Entry D} (hd : ∀ k, (st k).get? cfg.group = some (real k))

/-- The batch from the model buffer in step `k`, with its size -/
def model (cfg : Config ℝ) (d : Nat → Dict String (BVal D)) (k : Nat) : Entry D :=
  .data ((d k).set cfg.loader.sizeKey (.num (cfg.loader.count * cfg.loader.length)))

include hl hg hk hready hs hd

theorem provided_eq (u : Nat → ℝ) (k : Nat) : provided cfg v st u k = some (if u k < planned cfg k then model cfg d k else real k) := by
  unfold provided
  split_ifs with h
  · obtain ⟨s, h1, h2, -⟩ := C93_model_partial cfg hl ((List.range k).map fun j => (⟨u j, v j, v j, st j⟩ : Seen ℝ D)) ⟨u k, v k, v k, st k⟩
      (by simpa using h) hg hk rfl (hready k) (hs k)
    rw [h1]
    exact h2
  · obtain ⟨s, h1, h2, -⟩ := C93_real_partial cfg hl ((List.range k).map fun j => (⟨u j, v j, v j, st j⟩ : Seen ℝ D)) ⟨u k, v k, v k, st k⟩
      (by simpa using not_lt.1 h) (hd k)
    rw [h1]
    exact h2

variable (hne : ∀ k, model cfg d k ≠ real k)
include hne

theorem provided_model (u : Nat → ℝ) (k : Nat) : provided cfg v st u k = some (model cfg d k) ↔ u k < planned cfg k := by
  rw [provided_eq hl hg hk hready hs hd, Option.some.injEq]
  split_ifs with h
  · simp [h]
  · simp [h, (hne k).symm]

theorem provided_real (u : Nat → ℝ) (k : Nat) : provided cfg v st u k = some (real k) ↔ ¬ u k < planned cfg k := by
  rw [provided_eq hl hg hk hready hs hd, Option.some.injEq]
  split_ifs with h
  · simp [h, hne k]
  · simp [h]

omit hl hg hk hready hs hd hne in
theorem unit_below {p : ℝ} (h0 : 0 ≤ p) (h1 : p ≤ 1) : unit {x | x < p} = ENNReal.ofReal p := by
  rw [unit, Measure.restrict_apply (show MeasurableSet {x | x < p} from measurableSet_Iio)]
  have : {x | x < p} ∩ Set.Ico (0 : ℝ) 1 = Set.Ico 0 p := by
    ext x
    simp only [Set.mem_inter_iff, Set.mem_ofPred_eq, Set.mem_Ico]
    constructor
    · rintro ⟨h, h', -⟩; exact ⟨h', h⟩
    · rintro ⟨h, h'⟩; exact ⟨h', h, h'.trans_le h1⟩
  rw [this, Real.volume_Ico, sub_zero]

omit hl hg hk hready hs hd hne in
theorem unit_above {p : ℝ} (h0 : 0 ≤ p) (h1 : p ≤ 1) : unit {x | ¬ x < p} = ENNReal.ofReal (1 - p) := by
  have : {x : ℝ | ¬ x < p} = {x | x < p}ᶜ := rfl
  rw [this, prob_compl_eq_one_sub (show MeasurableSet {x | x < p} from measurableSet_Iio), unit_below h0 h1, ENNReal.ofReal_sub _ h0, ENNReal.ofReal_one]

/-- **C93, partial** Over many steps: whatever pattern of model batches (`true`) and real ones is asked for, its probability is the product of those
that the schedule has for the steps: the choices are independent. -/
theorem C93_pattern_partial (h0 : 0 ≤ cfg.sched.min ∧ 0 ≤ cfg.sched.max) (h1 : cfg.sched.min ≤ 1 ∧ cfg.sched.max ≤ 1) (c : Nat → Bool) (n : Nat) :
    (Measure.infinitePi fun _ : Nat => unit) {u | ∀ k < n, provided cfg v st u k = some (if c k then model cfg d k else real k)} =
      ∏ k ∈ range n, ENNReal.ofReal (if c k then planned cfg k else 1 - planned cfg k) := by
  have hset : {u : Nat → ℝ | ∀ k < n, provided cfg v st u k = some (if c k then model cfg d k else real k)} =
      Set.pi (range n) fun k => if c k then {x | x < planned cfg k} else {x | ¬ x < planned cfg k} := by
    ext u
    simp only [Set.mem_ofPred_eq, Set.mem_pi, Finset.mem_coe, Finset.mem_range]
    refine forall_congr' fun k => imp_congr_right fun _ => ?_
    cases c k
    · simpa using provided_real hl hg hk hready hs hd hne u k
    · simpa using provided_model hl hg hk hready hs hd hne u k
  rw [hset, Measure.infinitePi_pi _ (fun k _ => by
    split
    · exact measurableSet_Iio
    · exact measurableSet_Iio.compl)]
  refine Finset.prod_congr rfl fun k _ => ?_
  have hb := Sched.C57_scheduler cfg.sched ((k + 1 : Nat) : ℝ)
  have hp0 : 0 ≤ planned cfg k := le_trans (le_min h0.1 h0.2) hb.1
  have hp1 : planned cfg k ≤ 1 := le_trans hb.2.1 (max_le h1.1 h1.2)
  cases c k
  · simpa using unit_above hp0 hp1
  · simpa using unit_below hp0 hp1

/-- **C93, partial** In the long run, with probability one, the share of model batches is the last value of the schedule. -/
theorem C93_share_partial (h0 : 0 ≤ cfg.sched.max) (h1 : cfg.sched.max ≤ 1) :
    ∀ᵐ u ∂(Measure.infinitePi fun _ : Nat => unit),
      Tendsto (fun n => (Spec.share (fun k => some (model cfg d k)) (provided cfg v st u) n : ℝ) / n) atTop (𝓝 cfg.sched.max) := by
  let A : Set ℝ := {x | x < cfg.sched.max}
  have hm : Measurable (A.indicator fun _ : ℝ => (1 : ℝ)) := measurable_const.indicator measurableSet_Iio
  have hev : ∀ k, MeasurePreserving (fun x : Nat → ℝ => x k) (Measure.infinitePi fun _ : Nat => unit) unit :=
    fun k => measurePreserving_eval_infinitePi (fun _ : Nat => unit) k
  have hind := iIndepFun_infinitePi (P := fun _ : Nat => unit) (X := fun _ : Nat => A.indicator fun _ : ℝ => (1 : ℝ)) (fun _ => hm)
  have hsl := strong_law_ae_real (μ := Measure.infinitePi fun _ : Nat => unit) (fun k x => A.indicator (fun _ => (1 : ℝ)) (x k))
    ((hev 0).integrable_comp_of_integrable ((integrable_const (1 : ℝ)).indicator measurableSet_Iio))
    (fun j k hjk => hind.indepFun hjk)
    (fun k => by
      have : IdentDistrib (fun x : Nat → ℝ => x k) (fun x : Nat → ℝ => x 0)
          (Measure.infinitePi fun _ : Nat => unit) (Measure.infinitePi fun _ : Nat => unit) :=
        ⟨(hev k).measurable.aemeasurable, (hev 0).measurable.aemeasurable, by rw [(hev k).map_eq, (hev 0).map_eq]⟩
      exact this.comp hm)
  have hint : ∫ x, A.indicator (fun _ => (1 : ℝ)) (x 0) ∂(Measure.infinitePi fun _ : Nat => unit) = cfg.sched.max := by
    have h2 := integral_map (μ := Measure.infinitePi fun _ : Nat => unit) (hev 0).measurable.aemeasurable (f := A.indicator fun _ : ℝ => (1 : ℝ))
      hm.aestronglyMeasurable
    rw [← h2, (hev 0).map_eq, integral_indicator (show MeasurableSet A from measurableSet_Iio), setIntegral_const, smul_eq_mul, mul_one, Measure.real, unit_below h0 h1,
      ENNReal.toReal_ofReal h0]
  filter_upwards [hsl] with u hu
  rw [hint] at hu
  have hdiff : Tendsto (fun k => (if u k < planned cfg k then (1 : ℝ) else 0) - A.indicator (fun _ => (1 : ℝ)) (u k)) atTop (𝓝 0) := by
    refine tendsto_const_nhds.congr' ?_
    obtain ⟨K, hK⟩ := exists_nat_ge cfg.sched.end_
    filter_upwards [eventually_ge_atTop K] with k hk
    have : planned cfg k = cfg.sched.max := (Sched.C57_scheduler cfg.sched ((k + 1 : Nat) : ℝ)).2.2 (hK.trans (by
      have : K ≤ k + 1 := by omega
      exact_mod_cast this))
    rw [this]
    simp [A, Set.indicator_apply]
  have hsum := (hdiff.cesaro).add hu
  rw [zero_add] at hsum
  refine hsum.congr fun n => ?_
  rw [Finset.sum_sub_distrib, Spec.share, Finset.card_filter]
  push_cast
  simp only [provided_model hl hg hk hready hs hd hne]
  ring

end

/-! ## A concrete case -/

namespace Ex

/-- One model batch of seven and a real one of three in each step; from the second step on three of four batches come from the model. -/
noncomputable def real : Config ℝ := ⟨loader, ⟨0, 2, 0, 3 / 4⟩, "default", "rl_buffer", true⟩

example := C93_pattern_partial (cfg := real) rfl rfl (by decide +kernel) (v := fun _ => some2) (fun _ => by decide +kernel)
  (d := fun _ => [("obs", .tensor 7)]) (fun _ => rfl) (st := fun _ => state) (real := fun _ => .data [("obs", .tensor 3)]) (fun _ => by decide +kernel)
  (fun _ => by simp [model, Dict.set, real, loader]) (by norm_num [real]) (by norm_num [real]) (fun k => k % 2 = 0) 3

example : ∀ᵐ u ∂(Measure.infinitePi fun _ : Nat => unit),
    Tendsto (fun n => (Spec.share (fun k => some (model real (fun _ => [("obs", .tensor 7)]) k)) (provided real (fun _ => some2) (fun _ => state) u) n : ℝ) / n)
      atTop (𝓝 (3 / 4)) :=
  C93_share_partial (cfg := real) rfl rfl (by decide +kernel) (v := fun _ => some2) (fun _ => by decide +kernel)
    (d := fun _ => [("obs", .tensor 7)]) (fun _ => rfl) (st := fun _ => state) (real := fun _ => .data [("obs", .tensor 3)]) (fun _ => by decide +kernel)
    (fun _ => by simp [model, Dict.set, real, loader]) (by norm_num [real]) (by norm_num [real])

end Ex

end Sampler

end Verif
