import Verif.Props.RealDraws
import Mathlib.Probability.StrongLaw
import Mathlib.Probability.Independence.Basic
import Mathlib.Probability.Moments.Variance

/-!
# C151: what is averaged over a sampled batch estimates the average over the memory
-/

namespace Verif.Props

namespace BatchMean

open Verif Verif.Spec MeasureTheory ProbabilityTheory RealDraws
open Verif.RealDraws (cumsum searchRight npChoice)
open scoped ENNReal Topology

/-! ## Specification -/

/-- All windows of `tc` transitions in the memory: identity, beginning and end -/
def windows (l : Dict Int Nat) (tc : Nat) : List SamplePoint :=
  l.flatMap fun p => (List.range (p.2 + 1 - tc)).map fun k : Nat => (p.1, (k : Int), (k : Int) + tc)

/-- The average of `f` over all windows in the memory, with the probabilities of C150 -/
noncomputable def memoryMean (l : Dict Int Nat) (tc : Nat) (f : SamplePoint → ℝ) : ℝ :=
  ((windows l tc).map fun p => windowLaw l tc p * f p).sum

/-- The average of `f` over a batch -/
noncomputable def batchMean (f : SamplePoint → ℝ) (r : Res Uniform (List SamplePoint)) : ℝ :=
  match r.2 with
  | .ok out => (out.map f).sum / out.length
  | .error _ => 0

/-- The average of `f` over all windows of some batches -/
noncomputable def batchesMean (f : SamplePoint → ℝ) (r : Except Err (List (List SamplePoint))) : ℝ :=
  match r with
  | .ok out => (out.flatten.map f).sum / out.flatten.length
  | .error _ => 0

/-! ## Proofs -/

instance : IsProbabilityMeasure generators := by unfold generators; infer_instance

/-- The numbers for window `k` -/
def pair (k : Nat) (w : (Nat → ℝ) × (Nat → ℝ)) : ℝ × ℝ := (w.1 k, w.2 k)

theorem measurable_pair (k : Nat) : Measurable (pair k) := by
  unfold pair
  fun_prop

theorem map_pair (k : Nat) : generators.map (pair k) = unit.prod unit := by
  have : pair k = Prod.map (fun u : Nat → ℝ => u k) (fun v : Nat → ℝ => v k) := rfl
  rw [this, generators, ← Measure.map_prod_map _ _ (measurable_pi_apply k) (measurable_pi_apply k)]
  simp only [Measure.infinitePi_map_eval]

theorem indep_pair : iIndepFun pair generators := by
  refine iIndepSets.iIndep (m := fun k => MeasurableSpace.comap (pair k) inferInstance) (fun k => (measurable_pair k).comap_le)
    (fun k => {S | ∃ A B : Set ℝ, MeasurableSet A ∧ MeasurableSet B ∧ S = pair k ⁻¹' (A ×ˢ B)}) ?_ ?_ ?_
  · rintro k S ⟨A, B, hA, hB, rfl⟩ T ⟨A', B', hA', hB', rfl⟩ _
    exact ⟨A ∩ A', B ∩ B', hA.inter hA', hB.inter hB', by rw [← Set.preimage_inter, Set.prod_inter_prod]⟩
  · intro k
    rw [← generateFrom_prod, MeasurableSpace.comap_generateFrom]
    congr 1
    ext S
    simp only [Set.mem_image, Set.mem_image2, Set.mem_ofPred_eq]
    constructor
    · rintro ⟨_, ⟨A, hA, B, hB, rfl⟩, rfl⟩; exact ⟨A, B, hA, hB, rfl⟩
    · rintro ⟨A, B, hA, hB, rfl⟩; exact ⟨_, ⟨A, hA, B, hB, rfl⟩, rfl⟩
  · rw [iIndepSets_iff]
    intro t S hS
    choose! A B hA hB hAB using hS
    have hset : (⋂ k ∈ t, S k) = Set.pi t A ×ˢ Set.pi t B := by
      ext w
      simp only [Set.mem_iInter, Set.mem_prod, Set.mem_pi, Finset.mem_coe]
      constructor
      · intro h
        refine ⟨fun k hk => ?_, fun k hk => ?_⟩ <;> have := h k hk <;> rw [hAB k hk] at this
        · exact this.1
        · exact this.2
      · rintro ⟨h1, h2⟩ k hk
        rw [hAB k hk]
        exact ⟨h1 k hk, h2 k hk⟩
    rw [hset, generators, Measure.prod_prod, Measure.infinitePi_pi _ hA, Measure.infinitePi_pi _ hB, ← Finset.prod_mul_distrib]
    refine Finset.prod_congr rfl fun k hk => ?_
    rw [hAB k hk]
    change _ = generators (pair k ⁻¹' (A k ×ˢ B k))
    rw [← Measure.map_apply (measurable_pair k) ((hA k hk).prod (hB k hk)), map_pair, Measure.prod_prod]

/-- The window that two numbers give -/
noncomputable def win (s : Uniform) (tc : Int) (x : ℝ × ℝ) : SamplePoint :=
  match s.ids[searchRight (cumsum 0 s.weights) x.1]? with
  | none => (0, 0, 0)
  | some id =>
    match s.idents.get? id with
    | none => (0, 0, 0)
    | some len =>
      (id, pyInt (x.2 * (((len : Int) - (tc - 1) : Int) : ℝ)), pyInt (x.2 * (((len : Int) - (tc - 1) : Int) : ℝ)) + tc)

theorem measurable_win (s : Uniform) (tc : Int) : Measurable (win s tc) := by
  let F : ℕ × ℝ → SamplePoint := fun y =>
    match s.ids[y.1]? with
    | none => (0, 0, 0)
    | some id =>
      match s.idents.get? id with
      | none => (0, 0, 0)
      | some len =>
        (id, pyInt (y.2 * (((len : Int) - (tc - 1) : Int) : ℝ)), pyInt (y.2 * (((len : Int) - (tc - 1) : Int) : ℝ)) + tc)
  have hF : Measurable F := by
    refine measurable_from_prod_countable_right fun n => ?_
    simp only [F]
    cases s.ids[n]? with
    | none => exact measurable_const
    | some id =>
      simp only
      cases s.idents.get? id with
      | none => exact measurable_const
      | some len =>
        simp only
        have h := measurable_pyInt.comp (measurable_id.mul_const ((((len : Int) - (tc - 1) : Int) : ℝ)))
        exact measurable_const.prodMk (h.prodMk (h.add_const tc))
  exact hF.comp (((searchRight_mono (cumsum 0 s.weights)).measurable.comp measurable_fst).prodMk measurable_snd)

theorem ae_unit : ∀ᵐ x ∂unit, x ∈ Set.Ico (0 : ℝ) 1 := ae_restrict_mem measurableSet_Ico

theorem ae_generators : ∀ᵐ w ∂generators, ∀ k, w.1 k ∈ Set.Ico (0 : ℝ) 1 ∧ w.2 k ∈ Set.Ico (0 : ℝ) 1 := by
  rw [ae_all_iff]
  intro k
  have h : ∀ᵐ x ∂(unit.prod unit), x.1 ∈ Set.Ico (0 : ℝ) 1 ∧ x.2 ∈ Set.Ico (0 : ℝ) 1 := by
    rw [Filter.eventually_and]
    exact ⟨Measure.quasiMeasurePreserving_fst.ae ae_unit, Measure.quasiMeasurePreserving_snd.ae ae_unit⟩
  rw [← map_pair k] at h
  exact ae_of_ae_map (measurable_pair k).aemeasurable h

section
variable {s s' : Uniform} {l : Dict Int Nat} (h : Tracked (.uniform s) l) (hr : s.refresh = (s', .ok ()))
  (hpos : 0 < trackedTotal l)
include h hr hpos

theorem hit_win {u v : ℝ} (hu : u ∈ Set.Ico (0 : ℝ) 1) (tc : Int) :
    Hit s' tc (win s' tc (u, v)) u v := by
  obtain ⟨h1, h2, h3, h4, h5⟩ := C17_weights h hr hpos
  obtain ⟨_, g1, g2, g3⟩ := Strategy.refresh_uniform h.tracks.1 hr
  obtain ⟨id, hid⟩ := pick_some s'.ids s'.weights 0 u h1.symm h2 (by rw [h3]; linarith [hu.2]) hu.1
  have hp := pick_pos id s'.ids s'.weights 0 u h1.symm h2 hu.1 hid
  have hget : ∃ len, s'.idents.get? id = some len := by
    rw [g3]
    cases hl : l.get? id with
    | none => rw [h5 id hl] at hp; exact absurd hp (lt_irrefl _)
    | some len => exact ⟨len, rfl⟩
  obtain ⟨len, hlen⟩ := hget
  have hw : win s' tc (u, v) = (id, pyInt (v * (((len : Int) - (tc - 1) : Int) : ℝ)),
      pyInt (v * (((len : Int) - (tc - 1) : Int) : ℝ)) + tc) := by
    simp only [win, hid, hlen]
  rw [hw]
  refine ⟨?_, len, hlen, rfl, rfl⟩
  unfold npChoice
  rw [if_neg (by simpa using h1.symm), if_neg (by
    rintro (⟨w, ha, hb⟩ | hb)
    · exact absurd hb (not_lt.2 (h2 w ha))
    · exact hb h3), hid]

theorem win_mem {u v : ℝ} (hu : u ∈ Set.Ico (0 : ℝ) 1) (hv : v ∈ Set.Ico (0 : ℝ) 1) {tc : Nat} (hlong : ∀ p ∈ l, tc ≤ p.2) :
    win s' tc (u, v) ∈ windows l tc := by
  obtain ⟨_, len, h1, h2, h3⟩ := hit_win h hr hpos (v := v) hu tc
  obtain ⟨_, g1, g2, g3⟩ := Strategy.refresh_uniform h.tracks.1 hr
  rw [g3] at h1
  have hmem := Dict.mem_of_get? h1
  have hle := hlong _ hmem
  simp only at hle
  have hn : ((len : Int) - ((tc : Int) - 1)) = ((len + 1 - tc : ℕ) : Int) := by omega
  rw [hn] at h2
  have hnpos : 0 < len + 1 - tc := by omega
  have hnR : (0 : ℝ) < ((len + 1 - tc : ℕ) : ℝ) := by exact_mod_cast hnpos
  have hnn : 0 ≤ v * (((len + 1 - tc : ℕ) : Int) : ℝ) := mul_nonneg hv.1 (by push_cast; exact hnR.le)
  rw [pyInt, if_pos hnn] at h2
  have hge : 0 ≤ ⌊v * (((len + 1 - tc : ℕ) : Int) : ℝ)⌋ := Int.floor_nonneg.2 hnn
  have hlt : ⌊v * (((len + 1 - tc : ℕ) : Int) : ℝ)⌋ < ((len + 1 - tc : ℕ) : Int) := by
    refine Int.floor_lt.2 ?_
    have : (((len + 1 - tc : ℕ) : Int) : ℝ) = ((len + 1 - tc : ℕ) : ℝ) := by push_cast; rfl
    rw [this]
    nlinarith [hv.2]
  rw [h2] at hge hlt
  refine List.mem_flatMap.2 ⟨_, hmem, List.mem_map.2 ⟨(win s' tc (u, v)).2.1.toNat, List.mem_range.2 ?_, ?_⟩⟩
  · simp only
    omega
  · rw [Int.toNat_of_nonneg hge, ← h3]

theorem sample_eq {u v : Nat → ℝ} (hu : ∀ k, u k ∈ Set.Ico (0 : ℝ) 1) (count : Nat) (tc : Int) (i : Nat) :
    Verif.RealDraws.sample s count tc u v i = (s', .ok ((List.range count).map fun k => win s' tc (u (i + k), v (i + k)))) := by
  refine (sample_ok hr count tc u v i _).2 ⟨by simp, fun k p hk => ?_⟩
  simp only [List.getElem?_map, Option.map_eq_some_iff] at hk
  obtain ⟨k', hk', rfl⟩ := hk
  obtain ⟨hlt, rfl⟩ := List.getElem?_eq_some_iff.1 hk'
  simp only [List.getElem_range]
  exact hit_win h hr hpos (hu _) tc

omit h hr hpos in
theorem flatten_blocks {α : Type} (g : Nat → α) (count : Nat) : ∀ m,
    ((List.range m).map fun j => (List.range count).map fun k => g (j * count + k)).flatten = (List.range (m * count)).map g := by
  intro m
  induction m with
  | zero => simp
  | succ m ih =>
    rw [List.range_succ, List.map_append, List.flatten_append, ih, Nat.succ_mul, List.range_add, List.map_append]
    simp

theorem samples_eq {u v : Nat → ℝ} (hu : ∀ k, u k ∈ Set.Ico (0 : ℝ) 1) (count m : Nat) (tc : Int) (i : Nat) :
    ∃ out, Verif.RealDraws.samples count tc u v m s i = .ok out ∧
      out.flatten = (List.range (m * count)).map fun k => win s' tc (u (i + k), v (i + k)) := by
  refine ⟨(List.range m).map fun j => (List.range count).map fun k => win s' tc (u (i + (j * count + k)), v (i + (j * count + k))),
    ?_, flatten_blocks (fun k => win s' tc (u (i + k), v (i + k))) count m⟩
  refine (samples_ok count tc u v m hr i _).2 ⟨⟨by simp, by simp⟩, fun k p hk => ?_⟩
  rw [flatten_blocks (fun k => win s' tc (u (i + k), v (i + k))) count m] at hk
  simp only [List.getElem?_map, Option.map_eq_some_iff] at hk
  obtain ⟨k', hk', rfl⟩ := hk
  obtain ⟨hlt, rfl⟩ := List.getElem?_eq_some_iff.1 hk'
  simp only [List.getElem_range]
  exact hit_win h hr hpos (hu _) tc

/-- The law of one window -/
theorem win_law {tc : Nat} (hlong : ∀ p ∈ l, tc ≤ p.2) (k : Nat) (p : SamplePoint) :
    generators {w | win s' tc (pair k w) = p} = ENNReal.ofReal (windowLaw l tc p) := by
  have h1 := C150 h hr hpos hlong (count := 1) (m := 1) k (out := [[p]]) rfl (by simp)
  simp only [List.flatten_cons, List.flatten_nil, List.append_nil, List.map_cons, List.map_nil, List.prod_cons, List.prod_nil,
    mul_one] at h1
  rw [← h1]
  refine measure_congr ?_
  filter_upwards [ae_generators] with w hw
  refine propext ?_
  change win s' tc (w.1 k, w.2 k) = p ↔ Verif.RealDraws.samples 1 tc w.1 w.2 1 s k = .ok [[p]]
  simp only [Verif.RealDraws.samples, sample_eq h hr hpos (fun k => (hw k).1)]
  simp

theorem win_bound {tc : Nat} (hlong : ∀ p ∈ l, tc ≤ p.2) (f : SamplePoint → ℝ) (k : Nat) :
    MemLp (fun w => f (win s' tc (pair k w))) 2 generators := by
  refine MemLp.of_bound ?_ (∑ p ∈ (windows l tc).toFinset, |f p|) ?_
  · exact ((measurable_of_countable f).comp ((measurable_win s' tc).comp (measurable_pair k))).aestronglyMeasurable
  · filter_upwards [ae_generators] with w hw
    exact Finset.single_le_sum (f := fun p => |f p|) (fun p _ => abs_nonneg _)
      (List.mem_toFinset.2 (win_mem h hr hpos (hw k).1 (hw k).2 hlong))

omit hr hpos in
theorem windows_nodup (tc : Nat) : (windows l tc).Nodup := by
  have hk : (l.map Prod.fst).Nodup := h.tracks.2
  unfold windows
  rw [List.nodup_flatMap]
  refine ⟨fun p _ => ?_, ?_⟩
  · refine List.Nodup.map ?_ List.nodup_range
    intro a b hab
    simp only [Prod.mk.injEq] at hab
    omega
  · rw [List.Nodup, List.pairwise_map] at hk
    refine hk.imp fun {a b} hab => ?_
    rw [Function.onFun, List.disjoint_left]
    rintro x hx hy
    obtain ⟨_, _, rfl⟩ := List.mem_map.1 hx
    obtain ⟨_, _, hy⟩ := List.mem_map.1 hy
    exact hab (Prod.mk.inj hy).1.symm

theorem win_mean {tc : Nat} (hlong : ∀ p ∈ l, tc ≤ p.2) (f : SamplePoint → ℝ) (k : Nat) :
    ∫ w, f (win s' tc (pair k w)) ∂generators = memoryMean l tc f := by
  have hm : ∀ p, MeasurableSet {w | win s' tc (pair k w) = p} := fun p =>
    ((measurable_win s' tc).comp (measurable_pair k)) (MeasurableSet.singleton p)
  have heq : (fun w => f (win s' tc (pair k w))) =ᵐ[generators]
      fun w => ∑ p ∈ (windows l tc).toFinset, Set.indicator {w | win s' tc (pair k w) = p} (fun _ => f p) w := by
    filter_upwards [ae_generators] with w hw
    have hmem := List.mem_toFinset.2 (win_mem h hr hpos (hw k).1 (hw k).2 hlong)
    rw [Finset.sum_eq_single (win s' tc (w.1 k, w.2 k))]
    · rw [Set.indicator_of_mem (by rfl)]; rfl
    · intro p _ hp
      exact Set.indicator_of_notMem (fun hh => hp hh.symm) _
    · exact fun hn => absurd hmem hn
  rw [integral_congr_ae heq, integral_finsetSum _ (fun p _ => (integrable_const (f p)).indicator (hm p))]
  have hnn : ∀ p, 0 ≤ windowLaw l tc p := by
    intro p
    unfold windowLaw
    split
    · exact le_rfl
    · split <;> positivity
  have hone : ∀ p, ∫ w, Set.indicator {w | win s' tc (pair k w) = p} (fun _ => f p) w ∂generators = windowLaw l tc p * f p := by
    intro p
    rw [integral_indicator_const _ (hm p), Measure.real, win_law h hr hpos hlong, ENNReal.toReal_ofReal (hnn p), smul_eq_mul]
  simp only [hone]
  rw [memoryMean, List.sum_toFinset _ (windows_nodup h tc)]

theorem batch_eq (f : SamplePoint → ℝ) {count : Nat} (tc : Int) (i : Nat) :
    (fun w => batchMean f (Verif.RealDraws.sample s count tc w.1 w.2 i)) =ᵐ[generators]
      fun w => (count : ℝ)⁻¹ * ∑ k ∈ Finset.range count, f (win s' tc (pair (i + k) w)) := by
  filter_upwards [ae_generators] with w hw
  rw [sample_eq h hr hpos (fun k => (hw k).1)]
  simp only [batchMean, List.map_map, List.length_map, List.length_range]
  rw [div_eq_inv_mul]
  congr 1

/-- **C151**: The average of anything over a batch is, on average, its average over the memory. -/
theorem C151 {tc : Nat} (hlong : ∀ p ∈ l, tc ≤ p.2) {count : Nat} (hc : 0 < count) (f : SamplePoint → ℝ) (i : Nat) :
    ∫ w, batchMean f (Verif.RealDraws.sample s count tc w.1 w.2 i) ∂generators = memoryMean l tc f := by
  rw [integral_congr_ae (batch_eq h hr hpos f tc i), integral_const_mul,
    integral_finsetSum _ (fun k _ => (win_bound h hr hpos hlong f (i + k)).integrable (by norm_num))]
  simp only [win_mean h hr hpos hlong f]
  rw [Finset.sum_const, Finset.card_range, nsmul_eq_mul, ← mul_assoc, inv_mul_cancel₀ (by positivity), one_mul]

/-- **C151**: its variance is the variance over the memory, divided by the size of the batch. -/
theorem C151_variance {tc : Nat} (hlong : ∀ p ∈ l, tc ≤ p.2) {count : Nat} (hc : 0 < count) (f : SamplePoint → ℝ) (i : Nat) :
    variance (fun w => batchMean f (Verif.RealDraws.sample s count tc w.1 w.2 i)) generators =
      (memoryMean l tc (fun p => f p ^ 2) - memoryMean l tc f ^ 2) / count := by
  have hsum : (fun w => ∑ k ∈ Finset.range count, f (win s' tc (pair (i + k) w))) =
      ∑ k ∈ Finset.range count, fun w => f (win s' tc (pair (i + k) w)) := by
    ext w; simp
  rw [variance_congr (batch_eq h hr hpos f tc i), variance_const_mul, hsum, IndepFun.variance_sum
    (fun k _ => win_bound h hr hpos hlong f (i + k))]
  · have hv : ∀ k, variance (fun w => f (win s' tc (pair (i + k) w))) generators =
        memoryMean l tc (fun p => f p ^ 2) - memoryMean l tc f ^ 2 := by
      intro k
      rw [variance_eq_sub (win_bound h hr hpos hlong f (i + k)), win_mean h hr hpos hlong f]
      congr 1
      exact win_mean h hr hpos hlong (fun p => f p ^ 2) (i + k)
    simp only [hv]
    rw [Finset.sum_const, Finset.card_range, nsmul_eq_mul]
    have : (count : ℝ) ≠ 0 := by positivity
    field_simp
  · intro j _ k _ hjk
    have hg : Measurable fun x => f (win s' tc x) := (measurable_of_countable f).comp (measurable_win s' tc)
    exact (indep_pair.indepFun (i := i + j) (j := i + k) (by omega)).comp hg hg

/-- **C151**: Over more and more batches, the average tends to that over the memory, almost surely. -/
theorem C151_limit {tc : Nat} (hlong : ∀ p ∈ l, tc ≤ p.2) {count : Nat} (hc : 0 < count) (f : SamplePoint → ℝ) (i : Nat) :
    ∀ᵐ w ∂generators, Filter.Tendsto (fun m => batchesMean f (Verif.RealDraws.samples count tc w.1 w.2 m s i)) Filter.atTop
      (𝓝 (memoryMean l tc f)) := by
  have hg : Measurable fun x => f (win s' tc x) := (measurable_of_countable f).comp (measurable_win s' tc)
  have hlaw := strong_law_ae_real (μ := generators) (fun k w => f (win s' tc (pair (i + k) w)))
    ((win_bound h hr hpos hlong f (i + 0)).integrable (by norm_num))
    (fun j k hjk => (indep_pair.indepFun (i := i + j) (j := i + k) (by omega)).comp hg hg)
    (fun k => by
      have : IdentDistrib (pair (i + k)) (pair (i + 0)) generators generators :=
        ⟨(measurable_pair _).aemeasurable, (measurable_pair _).aemeasurable, by rw [map_pair, map_pair]⟩
      exact this.comp hg)
  filter_upwards [hlaw, ae_generators] with w hw hu
  rw [win_mean h hr hpos hlong f] at hw
  have hsub : Filter.Tendsto (fun m : Nat => m * count) Filter.atTop Filter.atTop :=
    Filter.tendsto_atTop_mono (fun m => Nat.le_mul_of_pos_right m hc) Filter.tendsto_id
  refine (hw.comp hsub).congr fun m => ?_
  obtain ⟨out, h1, h2⟩ := samples_eq h hr hpos (v := w.2) (fun k => (hu k).1) count m tc i
  rw [h1]
  simp only [batchesMean, h2, List.map_map, List.length_map, List.length_range, Function.comp]
  congr 1

omit hr in
/-- The average over the memory for single transitions: every stored transition counts the same. -/
theorem C151_transitions (hlong : ∀ p ∈ l, 1 ≤ p.2) (f : SamplePoint → ℝ) :
    memoryMean l 1 f = ((windows l 1).map f).sum / trackedTotal l ∧ (windows l 1).length = trackedTotal l := by
  constructor
  · rw [memoryMean, div_eq_inv_mul, ← List.sum_map_mul_left]
    congr 1
    refine List.map_congr_left fun p hp => ?_
    congr 1
    obtain ⟨⟨id, len⟩, hq, hp⟩ := List.mem_flatMap.1 hp
    obtain ⟨k, hk, rfl⟩ := List.mem_map.1 hp
    rw [List.mem_range] at hk
    simp only at hk
    have hl : 1 ≤ len := hlong _ hq
    have hget : l.get? id = some len := Dict.get?_of_mem h.tracks.2 hq
    unfold windowLaw
    simp only [hget]
    rw [if_pos ⟨by positivity, by push_cast; omega, by simp⟩, show len - 1 + 1 = len by omega]
    have : (0 : ℝ) < len := by exact_mod_cast hl
    field_simp
  · unfold windows trackedTotal
    rw [List.length_flatMap]
    simp

end

namespace Ex

/-- Sequence 1 has one transition and sequence 2 has three. Something that is 10 for the first transition of sequence 2 and 2 for
that of sequence 1 is 3 on average, and batches of 8 transitions estimate it. -/
noncomputable def f : SamplePoint → ℝ := fun p => if p = (2, 0, 1) then 10 else if p = (1, 0, 1) then 2 else 0

theorem mean : memoryMean [(1, 1), (2, 3)] 1 f = 3 := by
  rw [(C151_transitions ExU.tracked (by decide) (by decide) f).1]
  simp [windows, f, trackedTotal, List.range_succ]
  norm_num

example (i : Nat) : ∫ w, batchMean f (Verif.RealDraws.sample ExU.u 8 1 w.1 w.2 i) ∂generators = 3 := by
  have := C151 ExU.tracked (s' := ExU.u.refresh.1) (by decide +kernel) (by decide) (tc := 1) (by decide) (count := 8) (by decide) f i
  rw [Nat.cast_one] at this
  rw [this]
  exact mean

example (i : Nat) : variance (fun w => batchMean f (Verif.RealDraws.sample ExU.u 8 1 w.1 w.2 i)) generators = 17 / 8 := by
  have := C151_variance ExU.tracked (s' := ExU.u.refresh.1) (by decide +kernel) (by decide) (tc := 1) (by decide) (count := 8)
    (by decide) f i
  rw [Nat.cast_one] at this
  have h2 := (C151_transitions ExU.tracked (by decide) (by decide) (fun p => f p ^ 2)).1
  rw [this, mean, h2]
  simp [windows, f, trackedTotal, List.range_succ]
  norm_num

example := C151_limit ExU.tracked (s' := ExU.u.refresh.1) (by decide +kernel) (by decide) (tc := 1) (by decide) (count := 8)
  (by decide) f 0

end Ex

end BatchMean

end Verif.Props
