import Verif.Model.Truncated
import Mathlib.Probability.ProductMeasure
import Mathlib.Probability.ConditionalProbability
import Mathlib.Probability.Distributions.Gaussian.Real

/-!
# C102: truncated normal numbers
-/

namespace Verif

namespace Trunc

open MeasureTheory ProbabilityTheory

section Loop

variable {R : Type} [Field R] [LinearOrder R]

/-- Every entry has its own sequence of numbers: in round `k` entry `i` gets `noise i k`, if it gets a new number. -/
def Labelled (cond : R → Bool) (draw : Nat → List R → Nat → R) (noise : Nat → Nat → R) : Prop :=
  (∀ i, draw 0 [] i = noise i 0) ∧
    ∀ (k : Nat) (xs : List R) (i : Nat) (x : R), 1 ≤ k → xs[i]? = some x → cond x = true →
      draw k xs ((xs.take i).filter cond).length = noise i k

omit [Field R] [LinearOrder R] in
theorem fill_length (cond : R → Bool) (d : Nat → R) (j : Nat) (xs : List R) : (fill cond d j xs).length = xs.length := by
  induction xs generalizing j with
  | nil => rfl
  | cons x xs ih => rw [fill]; split <;> simp [ih]

omit [Field R] [LinearOrder R] in
theorem fill_get (cond : R → Bool) (d : Nat → R) (j : Nat) (xs : List R) (i : Nat) (x : R) (h : xs[i]? = some x) :
    (fill cond d j xs)[i]? = some (if cond x = true then d (j + ((xs.take i).filter cond).length) else x) := by
  induction xs generalizing j i with
  | nil => simp at h
  | cons y xs ih =>
    cases i with
    | zero =>
      simp only [List.getElem?_cons_zero, Option.some.injEq] at h
      subst h
      rw [fill]
      split <;> simp
    | succ i =>
      simp only [List.getElem?_cons_succ] at h
      rw [fill]
      by_cases hy : cond y = true
      · simp only [hy, if_true, List.getElem?_cons_succ, ih (j + 1) i h, List.take_succ_cons, List.filter_cons,
          List.length_cons, Option.some.injEq]
        rw [show j + 1 + ((xs.take i).filter cond).length = j + (((xs.take i).filter cond).length + 1) by omega]
      · simp only [hy, if_false, List.getElem?_cons_succ, ih j i h, List.take_succ_cons, List.filter_cons, Bool.false_eq_true]

omit [Field R] [LinearOrder R] in
theorem loop_ok (cond : R → Bool) (draw : Nat → List R → Nat → R) (fuel k : Nat) (xs ys : List R)
    (h : loop cond draw fuel k xs = some ys) : ys.length = xs.length ∧ ∀ y ∈ ys, cond y = false := by
  induction fuel generalizing k xs with
  | zero => cases h
  | succ fuel ih =>
    rw [loop] at h
    split at h
    · next hz =>
      cases h
      refine ⟨rfl, fun y hy => ?_⟩
      rw [List.length_eq_zero_iff, List.filter_eq_nil_iff] at hz
      simpa using hz y hy
    · obtain ⟨h1, h2⟩ := ih _ _ h
      exact ⟨by rw [h1, fill_length], h2⟩

/-- **C102** Whatever numbers are drawn: the result has as many entries as the tensor, all within two standard deviations of the
mean. -/
theorem C102_bounds (mean std : R) (n : Nat) (draw : Nat → List R → Nat → R) (fuel : Nat) (ys : List R)
    (h : truncatedNormal mean std n draw fuel = some ys) :
    ys.length = n ∧ ∀ y ∈ ys, mean - 2 * std ≤ y ∧ y ≤ mean + 2 * std := by
  obtain ⟨h1, h2⟩ := loop_ok _ _ _ _ _ _ h
  refine ⟨by simpa using h1, fun y hy => ?_⟩
  have := h2 y hy
  simpa [violates] using this

omit [Field R] [LinearOrder R] in
/-- What an entry holds at the beginning of round `k + 1`. -/
theorem loop_first (cond : R → Bool) (draw : Nat → List R → Nat → R) (noise : Nat → Nat → R) (hl : Labelled cond draw noise)
    (fuel k : Nat) (xs ys : List R) (h : loop cond draw fuel (k + 1) xs = some ys)
    (hxs : ∀ (i : Nat) x, xs[i]? = some x → ∃ m, m ≤ k ∧ x = noise i m ∧ (∀ l, l < m → cond (noise i l) = true) ∧
      (cond x = true → m = k)) :
    ∀ (i : Nat) y, ys[i]? = some y → ∃ m, y = noise i m ∧ cond y = false ∧ ∀ l, l < m → cond (noise i l) = true := by
  induction fuel generalizing k xs with
  | zero => cases h
  | succ fuel ih =>
    have h0 := h
    rw [loop] at h
    split at h
    · cases h
      intro i y hy
      obtain ⟨m, _, e, hm, _⟩ := hxs i y hy
      exact ⟨m, e, (loop_ok _ _ _ _ _ _ h0).2 y (List.mem_of_getElem? hy), hm⟩
    · refine ih (k + 1) _ h ?_
      intro i x hx
      have hi : i < xs.length := by
        have := (List.getElem?_eq_some_iff.1 hx).1
        rwa [fill_length] at this
      have hg := List.getElem?_eq_getElem hi
      rw [fill_get _ _ _ _ _ _ hg] at hx
      obtain ⟨m, hm, e, hm2, hm3⟩ := hxs i _ hg
      by_cases hv : cond xs[i] = true
      · simp only [hv, if_true, Option.some.injEq, Nat.zero_add] at hx
        rw [hl.2 (k + 1) xs i _ (by omega) hg hv] at hx
        refine ⟨k + 1, by omega, hx.symm, ?_, fun _ => rfl⟩
        intro l hlt
        have hmk := hm3 hv
        subst hmk
        rcases Nat.lt_or_ge l m with h1 | h1
        · exact hm2 l h1
        · have : l = m := by omega
          subst this
          rw [← e]; exact hv
      · simp only [hv, if_false, Option.some.injEq, Bool.false_eq_true] at hx
        subst hx
        exact ⟨m, by omega, e, hm2, fun hc => absurd hc hv⟩

/-- **C102** Every entry is the first number within the bounds that it got. -/
theorem C102_first (mean std : R) (n : Nat) (draw : Nat → List R → Nat → R) (noise : Nat → Nat → R)
    (hl : Labelled (violates mean std) draw noise) (fuel : Nat) (ys : List R)
    (h : truncatedNormal mean std n draw fuel = some ys) (i : Nat) (y : R) (hy : ys[i]? = some y) :
    ∃ k, y = noise i k ∧ (mean - 2 * std ≤ y ∧ y ≤ mean + 2 * std) ∧
      ∀ l, l < k → noise i l < mean - 2 * std ∨ mean + 2 * std < noise i l := by
  have := loop_first _ draw noise hl fuel 0 _ ys h (by
    intro i x hx
    rw [List.getElem?_map] at hx
    rcases hr : (List.range n)[i]? with _ | r
    · rw [hr] at hx; cases hx
    · rw [hr, Option.map_some, Option.some.injEq] at hx
      have hr2 : r = i := by
        obtain ⟨hlt, e⟩ := List.getElem?_eq_some_iff.1 hr
        rw [← e, List.getElem_range]
      subst hr2
      exact ⟨0, Nat.le_refl _, by rw [← hx, hl.1], by omega, fun _ => rfl⟩) i y hy
  obtain ⟨k, e, hv, hk⟩ := this
  refine ⟨k, e, by simpa [violates] using hv, fun l hlt => by simpa [violates] using hk l hlt⟩

omit [Field R] [LinearOrder R] in
theorem loop_ends (cond : R → Bool) (draw : Nat → List R → Nat → R) (noise : Nat → Nat → R) (hl : Labelled cond draw noise)
    (K : Nat) (c k : Nat) (xs : List R) (hc : K = c + k)
    (hxs : ∀ (i : Nat) x, xs[i]? = some x → cond x = true → x = noise i k ∧ ∀ l, l ≤ k → cond (noise i l) = true)
    (hK : ∀ (i : Nat), i < xs.length → ∃ m, m ≤ K ∧ cond (noise i m) = false) :
    ∃ fuel ys, loop cond draw fuel (k + 1) xs = some ys := by
  induction c generalizing k xs with
  | zero =>
    refine ⟨1, xs, ?_⟩
    rw [loop, if_pos]
    rw [List.length_eq_zero_iff, List.filter_eq_nil_iff]
    intro x hx hv
    obtain ⟨i, hi⟩ := List.mem_iff_getElem?.1 hx
    obtain ⟨m, hm, hv2⟩ := hK i (List.getElem?_eq_some_iff.1 hi).1
    have := (hxs i x hi hv).2 m (by omega)
    rw [hv2] at this
    cases this
  | succ c ih =>
    by_cases hz : (xs.filter cond).length = 0
    · exact ⟨1, xs, by rw [loop, if_pos hz]⟩
    · obtain ⟨fuel, ys, h⟩ := ih (k + 1) (fill cond (draw (k + 1) xs) 0 xs) (by omega) (by
        intro i x hx hv
        have hi : i < xs.length := by
          have := (List.getElem?_eq_some_iff.1 hx).1
          rwa [fill_length] at this
        have hg := List.getElem?_eq_getElem hi
        rw [fill_get _ _ _ _ _ _ hg] at hx
        by_cases hw : cond xs[i] = true
        · simp only [hw, if_true, Option.some.injEq, Nat.zero_add] at hx
          rw [hl.2 (k + 1) xs i _ (by omega) hg hw] at hx
          refine ⟨hx.symm, fun l hlk => ?_⟩
          rcases Nat.lt_or_ge l (k + 1) with h1 | h1
          · exact (hxs i _ hg hw).2 l (by omega)
          · have : l = k + 1 := by omega
            rw [this, hx]; exact hv
        · simp only [hw, if_false, Option.some.injEq, Bool.false_eq_true] at hx
          subst hx
          exact absurd hv hw) (by
        intro i hi
        rw [fill_length] at hi
        exact hK i hi)
      exact ⟨fuel + 1, ys, by rw [loop, if_neg hz]; exact h⟩

/-- **C102** It ends as soon as every entry has got a number within the bounds. -/
theorem C102_ends (mean std : R) (n : Nat) (draw : Nat → List R → Nat → R) (noise : Nat → Nat → R)
    (hl : Labelled (violates mean std) draw noise)
    (h : ∀ i, i < n → ∃ k, mean - 2 * std ≤ noise i k ∧ noise i k ≤ mean + 2 * std) :
    ∃ fuel ys, truncatedNormal mean std n draw fuel = some ys := by
  have hK : ∃ K, ∀ i, i < n → ∃ m, m ≤ K ∧ violates mean std (noise i m) = false := by
    induction n with
    | zero => exact ⟨0, fun i hi => by omega⟩
    | succ n ih =>
      obtain ⟨K, hK⟩ := ih fun i hi => h i (by omega)
      obtain ⟨k, hk⟩ := h n (by omega)
      refine ⟨max K k, fun i hi => ?_⟩
      rcases Nat.lt_or_ge i n with h1 | h1
      · obtain ⟨m, hm, hv⟩ := hK i h1
        exact ⟨m, by omega, hv⟩
      · have : i = n := by omega
        subst this
        exact ⟨k, by omega, by simpa [violates] using hk⟩
  obtain ⟨K, hK⟩ := hK
  refine loop_ends _ draw noise hl K K 0 _ (by omega) ?_ (by simpa using hK)
  intro i x hx hv
  rw [List.getElem?_map] at hx
  rcases hr : (List.range n)[i]? with _ | r
  · rw [hr] at hx; cases hx
  · rw [hr, Option.map_some, Option.some.injEq] at hx
    have hr2 : r = i := by
      obtain ⟨hlt, e⟩ := List.getElem?_eq_some_iff.1 hr
      rw [← e, List.getElem_range]
    subst hr2
    rw [hl.1] at hx
    refine ⟨hx.symm, fun l hlk => ?_⟩
    have : l = 0 := by omega
    rw [this, hx]; exact hv

/-- Such a generator: the `j`-th number of a round goes to the `j`-th entry that is out of bounds. -/
def deliver (cond : R → Bool) (noise : Nat → Nat → R) (k : Nat) (xs : List R) (j : Nat) : R :=
  if k = 0 then noise j 0
  else match (((List.range xs.length).filter fun i => match xs[i]? with
      | some x => cond x
      | none => false))[j]? with
    | some i => noise i k
    | none => noise j k

omit [Field R] [LinearOrder R] in
theorem deliver_labelled (cond : R → Bool) (noise : Nat → Nat → R) : Labelled cond (deliver cond noise) noise := by
  refine ⟨fun i => by simp [deliver], ?_⟩
  intro k xs i x hk hx hv
  have hi := (List.getElem?_eq_some_iff.1 hx).1
  have hsplit : List.range xs.length = List.range i ++ i :: (List.range (xs.length - i - 1)).map (i + 1 + ·) := by
    have h1 : xs.length = i + (1 + (xs.length - i - 1)) := by omega
    conv_lhs => rw [h1, List.range_add, List.range_add]
    simp [List.range_succ, Function.comp_def, Nat.add_assoc]
  have hlen : ((List.range i).filter fun i => match xs[i]? with
      | some x => cond x
      | none => false).length = ((xs.take i).filter cond).length := by
    clear hsplit hx
    have hle : i ≤ xs.length := by omega
    clear hi
    induction i with
    | zero => simp
    | succ i ih =>
      have h2 : i < xs.length := by omega
      rw [List.range_succ, List.filter_append, List.length_append, ih (by omega), List.take_add_one,
        List.getElem?_eq_getElem h2, List.filter_append, List.length_append]
      simp only [Option.toList_some, List.filter_cons, List.filter_nil, List.getElem?_eq_getElem h2]
      split <;> rfl
  unfold deliver
  rw [if_neg (by omega), hsplit, List.filter_append, List.getElem?_append_right (by rw [hlen]), hlen,
    Nat.sub_self, List.filter_cons]
  simp only [hx, hv, if_true, List.getElem?_cons_zero]

end Loop

/-! ### The law of the result -/

section Law

/-- The first number of a sequence that is in a set, or 0. -/
noncomputable def first (S : Set ℝ) (w : ℕ → ℝ) : ℝ := by
  classical exact if h : ∃ k, w k ∈ S then w (Nat.find h) else 0

theorem first_eq {S : Set ℝ} {w : ℕ → ℝ} {k : ℕ} (h : w k ∈ S) (hl : ∀ l, l < k → w l ∉ S) : first S w = w k := by
  classical
  have hex : ∃ k, w k ∈ S := ⟨k, h⟩
  unfold first
  rw [dif_pos hex]
  have : Nat.find hex = k := (Nat.find_eq_iff hex).2 ⟨h, hl⟩
  rw [this]

/-- The sequences that reach the set first at `k`, with a number in `A`. -/
def hit (S A : Set ℝ) (k : ℕ) : Set (ℕ → ℝ) :=
  Set.pi (Finset.range (k + 1)) fun l => if l = k then S ∩ A else Sᶜ

theorem mem_hit {S A : Set ℝ} {k : ℕ} {w : ℕ → ℝ} : w ∈ hit S A k ↔ (w k ∈ S ∧ w k ∈ A) ∧ ∀ l, l < k → w l ∉ S := by
  unfold hit
  rw [Set.mem_pi]
  constructor
  · intro h
    refine ⟨?_, fun l hl => ?_⟩
    · have := h k (by simp)
      rwa [if_pos rfl] at this
    · have := h l (by simp; omega)
      rwa [if_neg (by omega)] at this
  · rintro ⟨h1, h2⟩ l hl
    split
    · next h => subst h; exact h1
    · next h => exact h2 l (by simp at hl; omega)

theorem measurableSet_hit {S A : Set ℝ} (hS : MeasurableSet S) (hA : MeasurableSet A) (k : ℕ) : MeasurableSet (hit S A k) := by
  refine MeasurableSet.pi (Finset.countable_toSet _) fun l _ => ?_
  split
  · exact hS.inter hA
  · exact hS.compl

theorem hit_disjoint (S A : Set ℝ) : Pairwise (Function.onFun Disjoint (hit S A)) := by
  intro i j hij
  rw [Function.onFun, Set.disjoint_left]
  intro w h1 h2
  rw [mem_hit] at h1 h2
  rcases Nat.lt_or_gt_of_ne hij with h | h
  · exact h2.2 i h h1.1.1
  · exact h1.2 j h h2.1.1

variable (μ : Measure ℝ) [IsProbabilityMeasure μ]

theorem measure_hit {S A : Set ℝ} (hS : MeasurableSet S) (hA : MeasurableSet A) (k : ℕ) :
    Measure.infinitePi (fun _ : ℕ => μ) (hit S A k) = μ Sᶜ ^ k * μ (S ∩ A) := by
  unfold hit
  rw [Measure.infinitePi_pi]
  · rw [Finset.prod_range_succ, if_pos rfl]
    congr 1
    rw [Finset.prod_congr rfl (g := fun _ => μ Sᶜ)]
    · simp
    · intro l hl
      rw [if_neg (by simp at hl; omega)]
  · intro l _
    split
    · exact hS.inter hA
    · exact hS.compl

theorem measure_hits {S A : Set ℝ} (hS : MeasurableSet S) (hA : MeasurableSet A) :
    Measure.infinitePi (fun _ : ℕ => μ) (⋃ k, hit S A k) = (μ S)⁻¹ * μ (S ∩ A) := by
  rw [measure_iUnion (hit_disjoint S A) fun k => measurableSet_hit hS hA k]
  simp_rw [measure_hit μ hS hA]
  rw [ENNReal.tsum_mul_right, ENNReal.tsum_geometric, prob_compl_eq_one_sub hS,
    ENNReal.sub_sub_cancel ENNReal.one_ne_top prob_le_one]

theorem ae_hits {S : Set ℝ} (hS : MeasurableSet S) (h0 : μ S ≠ 0) :
    ∀ᵐ w ∂Measure.infinitePi (fun _ : ℕ => μ), ∃ k, w k ∈ S := by
  have h1 : Measure.infinitePi (fun _ : ℕ => μ) (⋃ k, hit S Set.univ k) = 1 := by
    rw [measure_hits μ hS MeasurableSet.univ, Set.inter_univ, ENNReal.inv_mul_cancel h0 (measure_ne_top μ S)]
  have h2 := (prob_compl_eq_zero_iff (MeasurableSet.iUnion fun k => measurableSet_hit hS MeasurableSet.univ k)).2 h1
  rw [ae_iff]
  refine measure_mono_null ?_ h2
  intro w hw hc
  obtain ⟨k, hk⟩ := Set.mem_iUnion.1 hc
  exact hw ⟨k, (mem_hit.1 hk).1.1⟩

theorem preimage_first {S A : Set ℝ} : first S ⁻¹' A ∩ {w | ∃ k, w k ∈ S} = ⋃ k, hit S A k := by
  classical
  ext w
  rw [Set.mem_iUnion]
  constructor
  · rintro ⟨h1, h2⟩
    refine ⟨Nat.find h2, mem_hit.2 ⟨⟨Nat.find_spec h2, ?_⟩, fun l hl => Nat.find_min h2 hl⟩⟩
    have := first_eq (Nat.find_spec h2) fun l hl => Nat.find_min h2 hl
    rw [Set.mem_preimage, this] at h1
    exact h1
  · rintro ⟨k, hk⟩
    obtain ⟨⟨h1, h2⟩, h3⟩ := mem_hit.1 hk
    refine ⟨?_, ⟨k, h1⟩⟩
    rw [Set.mem_preimage, first_eq h1 h3]
    exact h2

theorem measurable_first {S : Set ℝ} (hS : MeasurableSet S) : Measurable (first S) := by
  intro A hA
  have hN : MeasurableSet {w : ℕ → ℝ | ∃ k, w k ∈ S} := by
    rw [Set.ofPred_exists]
    exact MeasurableSet.iUnion fun k => (measurable_pi_apply k) hS
  have h1 : MeasurableSet (first S ⁻¹' A ∩ {w | ∃ k, w k ∈ S}) := by
    rw [preimage_first]
    exact MeasurableSet.iUnion fun k => measurableSet_hit hS hA k
  have h2 : MeasurableSet (first S ⁻¹' A ∩ {w | ∃ k, w k ∈ S}ᶜ) := by
    by_cases h0 : (0 : ℝ) ∈ A
    · have : first S ⁻¹' A ∩ {w | ∃ k, w k ∈ S}ᶜ = {w | ∃ k, w k ∈ S}ᶜ := by
        refine Set.inter_eq_right.2 fun w hw => ?_
        have hw' : ¬ ∃ k, w k ∈ S := hw
        rw [Set.mem_preimage, first, dif_neg hw']
        exact h0
      rw [this]
      exact hN.compl
    · have : first S ⁻¹' A ∩ {w | ∃ k, w k ∈ S}ᶜ = ∅ := by
        refine Set.eq_empty_of_forall_notMem fun w hw => ?_
        have h3 := hw.1
        have hw' : ¬ ∃ k, w k ∈ S := hw.2
        rw [Set.mem_preimage, first, dif_neg hw'] at h3
        exact h0 h3
      rw [this]
      exact MeasurableSet.empty
  rw [← Set.inter_union_compl (first S ⁻¹' A) {w | ∃ k, w k ∈ S}]
  exact h1.union h2

/-- Rejection sampling: the first number in a set has the conditional law. -/
theorem map_first {S : Set ℝ} (hS : MeasurableSet S) (h0 : μ S ≠ 0) :
    (Measure.infinitePi (fun _ : ℕ => μ)).map (first S) = μ[|S] := by
  ext A hA
  rw [Measure.map_apply (measurable_first hS) hA, cond_apply hS, ← measure_hits μ hS hA, ← preimage_first]
  refine measure_congr ?_
  filter_upwards [ae_hits μ hS h0] with w hw
  refine propext ⟨fun h => ⟨h, hw⟩, fun h => h.1⟩

/-- **C102** If each entry gets independent normal numbers, the loop ends almost surely, and the entries of the result are
independent and have the normal law conditioned to lie within two standard deviations of the mean. -/
theorem C102_law (mean std : ℝ) (hstd : 0 < std) (n : ℕ) :
    ∃ out : (Fin n → ℕ → ℝ) → Fin n → ℝ,
      (∀ᵐ w ∂Measure.pi fun _ : Fin n => Measure.infinitePi fun _ : ℕ => gaussianReal mean (NNReal.mk (std ^ 2) (sq_nonneg _)),
        ∀ draw, Labelled (violates mean std) draw (fun i k => if h : i < n then w ⟨i, h⟩ k else 0) →
          ∃ fuel, truncatedNormal mean std n draw fuel = some (List.ofFn (out w))) ∧
      (Measure.pi fun _ : Fin n => Measure.infinitePi fun _ : ℕ => gaussianReal mean (NNReal.mk (std ^ 2) (sq_nonneg _))).map out =
        Measure.pi fun _ : Fin n => (gaussianReal mean (NNReal.mk (std ^ 2) (sq_nonneg _)))[|Set.Icc (mean - 2 * std) (mean + 2 * std)] := by
  have hv : NNReal.mk (std ^ 2) (sq_nonneg _) ≠ 0 := by
    intro h
    have := congrArg NNReal.toReal h
    simp only [NNReal.coe_mk, NNReal.coe_zero] at this
    nlinarith [sq_pos_of_pos hstd]
  have hS : MeasurableSet (Set.Icc (mean - 2 * std) (mean + 2 * std)) := measurableSet_Icc
  have h0 : gaussianReal mean (NNReal.mk (std ^ 2) (sq_nonneg _)) (Set.Icc (mean - 2 * std) (mean + 2 * std)) ≠ 0 := by
    intro h
    have := gaussianReal_absolutelyContinuous' mean hv h
    rw [Real.volume_Icc] at this
    simp at this
    linarith
  refine ⟨fun w i => first (Set.Icc (mean - 2 * std) (mean + 2 * std)) (w i), ?_, ?_⟩
  · have hall : ∀ᵐ w ∂Measure.pi fun _ : Fin n => Measure.infinitePi fun _ : ℕ => gaussianReal mean (NNReal.mk (std ^ 2) (sq_nonneg _)),
        ∀ i, ∃ k, w i k ∈ Set.Icc (mean - 2 * std) (mean + 2 * std) := by
      rw [ae_all_iff]
      intro i
      exact (Measure.quasiMeasurePreserving_eval (μ := fun _ : Fin n => Measure.infinitePi fun _ : ℕ =>
        gaussianReal mean (NNReal.mk (std ^ 2) (sq_nonneg _))) i).ae (ae_hits _ hS h0)
    filter_upwards [hall] with w hw draw hl
    obtain ⟨fuel, ys, h⟩ := C102_ends mean std n draw _ hl (by
      intro i hi
      obtain ⟨k, hk⟩ := hw ⟨i, hi⟩
      exact ⟨k, by simpa [hi] using hk⟩)
    refine ⟨fuel, ?_⟩
    rw [h]
    congr 1
    have hlen := (C102_bounds mean std n draw fuel ys h).1
    refine List.ext_getElem (by simp [hlen]) fun i h1 h2 => ?_
    obtain ⟨k, e, hb, hk⟩ := C102_first mean std n draw _ hl fuel ys h i ys[i] (List.getElem?_eq_getElem h1)
    have hi : i < n := by omega
    simp only [hi, dif_pos] at e hk
    rw [List.getElem_ofFn, e]
    refine (first_eq (by rw [← e]; exact hb) fun l hl => ?_).symm
    rw [Set.mem_Icc, not_and_or, not_le, not_le]
    exact hk l hl
  · rw [Measure.pi_map_pi fun _ => (measurable_first hS).aemeasurable]
    simp_rw [map_first _ hS h0]

end Law

namespace Ex

/-- Two entries: 5, then 1/2; and -1. -/
def noise (i k : Nat) : ℚ := if i = 0 then (if k = 0 then 5 else 1 / 2) else -1

example : truncatedNormal (0 : ℚ) 1 2 (deliver (violates 0 1) noise) 3 = some [1 / 2, -1] := by decide +kernel
example : truncatedNormal (0 : ℚ) 1 2 (deliver (violates 0 1) noise) 1 = none := by decide +kernel
example := C102_bounds (0 : ℚ) 1 2 (deliver (violates 0 1) noise) 3 [1 / 2, -1] (by decide +kernel)
example := C102_first (0 : ℚ) 1 2 (deliver (violates 0 1) noise) noise (deliver_labelled _ _) 3 [1 / 2, -1] (by decide +kernel) 0
  (1 / 2) (by decide +kernel)
example := C102_ends (0 : ℚ) 1 2 (deliver (violates 0 1) noise) noise (deliver_labelled _ _) (by
  intro i _
  refine ⟨1, ?_⟩
  unfold noise
  split <;> norm_num)
example := C102_law 1 2 (by norm_num) 3

end Ex

end Trunc

end Verif
