import Verif.Model.RealDraws
import Verif.Props.Weights
import Mathlib.Probability.ProductMeasure
import Mathlib.MeasureTheory.Function.Floor

/-!
# C150: the windows of sampled batches are independent, with the probabilities of C17
-/

namespace Verif.Props

namespace RealDraws

open Verif Verif.Spec MeasureTheory
open Verif.RealDraws (cumsum searchRight npChoice)
open scoped ENNReal

/-! ## Specification -/

/-- What a generator gives: uniform in `[0, 1)` -/
noncomputable def unit : Measure ℝ := volume.restrict (Set.Ico 0 1)

instance : IsProbabilityMeasure unit := ⟨by simp [unit]⟩

/-- What the two generators give, all independent -/
noncomputable def generators : Measure ((Nat → ℝ) × (Nat → ℝ)) :=
  (Measure.infinitePi fun _ : Nat => unit).prod (Measure.infinitePi fun _ : Nat => unit)

/-- The probability of a window of `tc` transitions (identity, beginning and end): its sequence is chosen in proportion to its
length, and then one of the windows in it, each equally likely. -/
noncomputable def windowLaw (l : Dict Int Nat) (tc : Nat) (p : SamplePoint) : ℝ :=
  match l.get? p.1 with
  | none => 0
  | some len =>
    if 0 ≤ p.2.1 ∧ p.2.1 + tc ≤ len ∧ p.2.2 = p.2.1 + tc
    then (len : ℝ) / (trackedTotal l : ℝ) * (1 / ((len - tc + 1 : ℕ) : ℝ)) else 0

/-! ## Proofs -/

theorem searchRight_mono (cdf : List ℝ) : Monotone (searchRight cdf) := by
  intro a b hab
  unfold searchRight
  refine (List.monotone_filter_right cdf ?_).length_le
  intro x hx
  simp only [decide_eq_true_eq] at hx ⊢
  linarith

theorem cumsum_ge {ws : List ℝ} (h : ∀ w ∈ ws, 0 ≤ w) : ∀ acc x, x ∈ cumsum acc ws → acc ≤ x := by
  induction ws with
  | nil => intro acc x hx; simp [cumsum] at hx
  | cons w ws ih =>
    intro acc x hx
    have h0 := h w (by simp)
    rcases List.mem_cons.1 hx with rfl | hx
    · linarith
    · have := ih (fun w hw => h w (by simp [hw])) (acc + w) x hx
      linarith

theorem search_cons_lt {w : ℝ} {ws : List ℝ} (h : ∀ x ∈ ws, 0 ≤ x) {acc u : ℝ} (hu : u < acc + w) :
    searchRight (cumsum acc (w :: ws)) u = 0 := by
  unfold searchRight
  rw [List.length_eq_zero_iff, List.filter_eq_nil_iff]
  intro x hx
  simp only [decide_eq_true_eq, not_le]
  rcases List.mem_cons.1 hx with rfl | hx
  · exact hu
  · exact lt_of_lt_of_le hu (cumsum_ge h _ _ hx)

theorem search_cons_ge {w : ℝ} {ws : List ℝ} {acc u : ℝ} (hu : acc + w ≤ u) :
    searchRight (cumsum acc (w :: ws)) u = searchRight (cumsum (acc + w) ws) u + 1 := by
  unfold searchRight
  rw [cumsum, List.filter_cons_of_pos (by simpa using hu), List.length_cons]

theorem measurable_pick (ids : List Int) (cdf : List ℝ) (id : Int) : MeasurableSet {u | ids[searchRight cdf u]? = some id} :=
  (searchRight_mono cdf).measurable (MeasurableSet.of_discrete (s := {n | ids[n]? = some id}))

theorem pick_law (id : Int) : ∀ (ids : List Int) (ws : List ℝ) (acc : ℝ), ids.length = ws.length → (∀ w ∈ ws, 0 ≤ w) →
    volume {u | u ∈ Set.Ico acc (acc + ws.sum) ∧ ids[searchRight (cumsum acc ws) u]? = some id} =
      ENNReal.ofReal (choiceProb ids ws id) := by
  intro ids
  induction ids with
  | nil =>
    intro ws acc hl _
    have : ws = [] := List.length_eq_zero_iff.1 hl.symm
    subst this
    simp [choiceProb]
  | cons a ids ih =>
    intro ws acc hl hw
    cases ws with
    | nil => simp at hl
    | cons w ws =>
      have hw0 := hw w (by simp)
      have hws : ∀ x ∈ ws, 0 ≤ x := fun x hx => hw x (by simp [hx])
      have hsum : 0 ≤ ws.sum := List.sum_nonneg hws
      have hset : {u | u ∈ Set.Ico acc (acc + (w :: ws).sum) ∧ (a :: ids)[searchRight (cumsum acc (w :: ws)) u]? = some id} =
          {u | u ∈ Set.Ico acc (acc + w) ∧ a = id} ∪
            {u | u ∈ Set.Ico (acc + w) (acc + w + ws.sum) ∧ ids[searchRight (cumsum (acc + w) ws) u]? = some id} := by
        ext u
        simp only [Set.mem_ofPred_eq, Set.mem_union, Set.mem_Ico, List.sum_cons]
        rcases lt_or_ge u (acc + w) with h | h
        · rw [search_cons_lt hws h]
          simp only [List.getElem?_cons_zero, Option.some.injEq]
          constructor
          · rintro ⟨⟨h1, _⟩, h2⟩; exact .inl ⟨⟨h1, h⟩, h2⟩
          · rintro (⟨⟨h1, _⟩, h2⟩ | ⟨⟨h1, _⟩, _⟩)
            · exact ⟨⟨h1, by linarith⟩, h2⟩
            · exact absurd h (not_lt.2 h1)
        · rw [search_cons_ge h, List.getElem?_cons_succ]
          constructor
          · rintro ⟨⟨_, h1⟩, h2⟩; exact .inr ⟨⟨h, by linarith⟩, h2⟩
          · rintro (⟨⟨_, h1⟩, _⟩ | ⟨⟨_, h1⟩, h2⟩)
            · exact absurd h1 (not_lt.2 h)
            · exact ⟨⟨by linarith, by linarith⟩, h2⟩
      have hdis : Disjoint {u | u ∈ Set.Ico acc (acc + w) ∧ a = id}
          {u | u ∈ Set.Ico (acc + w) (acc + w + ws.sum) ∧ ids[searchRight (cumsum (acc + w) ws) u]? = some id} := by
        rw [Set.disjoint_left]
        rintro u ⟨⟨_, h1⟩, _⟩ ⟨⟨h2, _⟩, _⟩
        exact absurd h1 (not_lt.2 h2)
      have hfst : volume {u | u ∈ Set.Ico acc (acc + w) ∧ a = id} = ENNReal.ofReal (if a = id then w else 0) := by
        by_cases h : a = id
        · rw [show {u | u ∈ Set.Ico acc (acc + w) ∧ a = id} = Set.Ico acc (acc + w) by ext u; simp [h], if_pos h]
          simp
        · simp [h]
      have hnn : 0 ≤ choiceProb ids ws id := by
        unfold choiceProb
        refine List.sum_nonneg ?_
        intro x hx
        obtain ⟨⟨_, y⟩, hy, rfl⟩ := List.mem_map.1 hx
        exact hws _ (List.of_mem_zip (List.mem_filter.1 hy).1).2
      rw [hset, measure_union hdis (measurableSet_Ico.inter (measurable_pick ids _ id)), hfst,
        ih ws (acc + w) (by simpa using hl) hws, ← ENNReal.ofReal_add (by split <;> simp [hw0]) hnn]
      congr 1
      by_cases h : a = id
      · simp [choiceProb, h]
      · simp [choiceProb, h]

/-- One draw of the identity -/
theorem choice_law {ids : List Int} {ws : List ℝ} (hl : ids.length = ws.length) (hw : ∀ w ∈ ws, 0 ≤ w) (hs : ws.sum = 1) (id : Int) :
    unit {u | npChoice ids ws u = .ok id} = ENNReal.ofReal (choiceProb ids ws id) ∧
      MeasurableSet {u | npChoice ids ws u = .ok id} := by
  have hset : {u | npChoice ids ws u = .ok id} = {u | ids[searchRight (cumsum 0 ws) u]? = some id} := by
    ext u
    simp only [Set.mem_ofPred_eq, npChoice]
    rw [if_neg (by simpa using hl), if_neg (by
      rintro (⟨w, h1, h2⟩ | h)
      · exact absurd h2 (not_lt.2 (hw w h1))
      · exact h hs)]
    cases ids[searchRight (cumsum 0 ws) u]? <;> simp
  have hm := measurable_pick ids (cumsum 0 ws) id
  rw [hset]
  refine ⟨?_, hm⟩
  rw [unit, Measure.restrict_apply hm, ← pick_law id ids ws 0 hl hw, hs, zero_add]
  congr 1
  ext u
  simp [and_comm]

theorem measurable_pyInt : Measurable pyInt := by
  refine Measurable.ite (measurableSet_le measurable_const measurable_id) Int.measurable_floor Int.measurable_ceil

/-- One draw of the offset -/
theorem offset_law (n k : Int) : unit {v | pyInt (v * n) = k} = ENNReal.ofReal (offsetProb n k) ∧
    MeasurableSet {v : ℝ | pyInt (v * n) = k} := by
  have hm : MeasurableSet {v : ℝ | pyInt (v * n) = k} :=
    (measurable_pyInt.comp (measurable_id.mul_const _)) (MeasurableSet.of_discrete (s := {k}))
  refine ⟨?_, hm⟩
  rw [unit, Measure.restrict_apply hm, offsetProb, ENNReal.ofReal_toReal]
  · congr 1
    ext v
    simp [and_comm]
  · refine ne_top_of_le_ne_top (b := volume (Set.Ico (0 : ℝ) 1)) (by simp) (measure_mono fun x hx => hx.1)

/-- The numbers give this window. -/
def Hit (s : Uniform) (tc : Int) (p : SamplePoint) (u v : ℝ) : Prop :=
  npChoice s.ids s.weights u = .ok p.1 ∧ ∃ len, s.idents.get? p.1 = some len ∧
    pyInt (v * (((len : Int) - (tc - 1) : Int) : ℝ)) = p.2.1 ∧ p.2.2 = p.2.1 + tc

theorem choices_ok (ids : List Int) (ws : List ℝ) (u : Nat → ℝ) : ∀ (n i : Nat) (out : List Int),
    Verif.RealDraws.choices ids ws u n i = .ok out ↔
      out.length = n ∧ ∀ (k : Nat) id, out[k]? = some id → npChoice ids ws (u (i + k)) = .ok id := by
  intro n
  induction n with
  | zero =>
    intro i out
    simp only [Verif.RealDraws.choices, Except.ok.injEq]
    constructor
    · rintro rfl; simp
    · rintro ⟨h, _⟩; exact (List.length_eq_zero_iff.1 h).symm
  | succ n ih =>
    intro i out
    simp only [Verif.RealDraws.choices]
    constructor
    · intro h
      split at h
      · simp at h
      · rename_i id hid
        split at h
        · simp at h
        · rename_i rest hrest
          injection h with h
          subst h
          obtain ⟨h1, h2⟩ := (ih _ _).1 hrest
          refine ⟨by simp [h1], fun k id' hk => ?_⟩
          cases k with
          | zero => simp at hk; subst hk; exact hid
          | succ k =>
            rw [List.getElem?_cons_succ] at hk
            rw [show i + (k + 1) = i + 1 + k by omega]
            exact h2 k id' hk
    · rintro ⟨h1, h2⟩
      cases out with
      | nil => simp at h1
      | cons id rest =>
        have h3 := h2 0 id rfl
        rw [Nat.add_zero] at h3
        have h4 := (ih (i + 1) rest).2 ⟨by simpa using h1, fun k id' hk => by
          rw [show i + 1 + k = i + (k + 1) by omega]; exact h2 (k + 1) id' (by rw [List.getElem?_cons_succ]; exact hk)⟩
        rw [h3]
        simp only
        rw [h4]

theorem points_ok (idents : Dict Int Nat) (tc : Int) (v : Nat → ℝ) : ∀ (ids : List Int) (i : Nat) (out : List SamplePoint),
    Verif.RealDraws.points idents tc v ids i = .ok out ↔
      out.map Prod.fst = ids ∧ ∀ (k : Nat) p, out[k]? = some p → ∃ len, idents.get? p.1 = some len ∧
        pyInt (v (i + k) * (((len : Int) - (tc - 1) : Int) : ℝ)) = p.2.1 ∧ p.2.2 = p.2.1 + tc := by
  intro ids
  induction ids with
  | nil =>
    intro i out
    simp only [Verif.RealDraws.points, Except.ok.injEq]
    constructor
    · rintro rfl; simp
    · rintro ⟨h, _⟩; exact (List.map_eq_nil_iff.1 h).symm
  | cons id ids ih =>
    intro i out
    simp only [Verif.RealDraws.points]
    constructor
    · intro h
      split at h
      · simp at h
      · rename_i len hlen
        split at h
        · simp at h
        · rename_i rest hrest
          injection h with h
          subst h
          obtain ⟨h1, h2⟩ := (ih _ _).1 hrest
          refine ⟨by simp [h1], fun k p hk => ?_⟩
          cases k with
          | zero =>
            rw [List.getElem?_cons_zero] at hk
            injection hk with hk
            subst hk
            exact ⟨len, hlen, rfl, rfl⟩
          | succ k =>
            rw [List.getElem?_cons_succ] at hk
            rw [show i + (k + 1) = i + 1 + k by omega]
            exact h2 k p hk
    · rintro ⟨h1, h2⟩
      cases out with
      | nil => simp at h1
      | cons p rest =>
        simp only [List.map_cons, List.cons.injEq] at h1
        obtain ⟨rfl, h1⟩ := h1
        obtain ⟨len, h3, h5, h6⟩ := h2 0 p rfl
        rw [Nat.add_zero] at h5
        have h4 := (ih (i + 1) rest).2 ⟨h1, fun k q hk => by
          rw [show i + 1 + k = i + (k + 1) by omega]; exact h2 (k + 1) q (by rw [List.getElem?_cons_succ]; exact hk)⟩
        rw [h3]
        simp only
        rw [h4]
        simp only [h5, ← h6]

theorem sample_ok {s s' : Uniform} (hr : s.refresh = (s', .ok ())) (count : Nat) (tc : Int) (u v : Nat → ℝ) (i : Nat)
    (out : List SamplePoint) : Verif.RealDraws.sample s count tc u v i = (s', .ok out) ↔
      out.length = count ∧ ∀ (k : Nat) p, out[k]? = some p → Hit s' tc p (u (i + k)) (v (i + k)) := by
  unfold Verif.RealDraws.sample
  rw [hr]
  simp only [Res.andThen_ok, Prod.mk.injEq, true_and]
  constructor
  · intro h
    split at h
    · simp at h
    · rename_i chosen hc
      obtain ⟨h1, h2⟩ := (choices_ok _ _ _ _ _ _).1 hc
      obtain ⟨h3, h4⟩ := (points_ok _ _ _ _ _ _).1 h
      subst h3
      refine ⟨by simpa using h1, fun k p hk => ⟨h2 k p.1 (by simp [hk]), h4 k p hk⟩⟩
  · rintro ⟨h1, h2⟩
    rw [(choices_ok _ _ _ _ _ (out.map Prod.fst)).2 ⟨by simpa using h1, fun k id hk => by
      rw [List.getElem?_map, Option.map_eq_some_iff] at hk
      obtain ⟨p, hp, rfl⟩ := hk
      exact (h2 k p hp).1⟩]
    exact (points_ok _ _ _ _ _ _).2 ⟨rfl, fun k p hk => (h2 k p hk).2⟩

theorem sample_state {s s' : Uniform} (hr : s.refresh = (s', .ok ())) (count : Nat) (tc : Int) (u v : Nat → ℝ) (i : Nat) :
    (Verif.RealDraws.sample s count tc u v i).1 = s' := by
  unfold Verif.RealDraws.sample
  rw [hr]
  rfl

theorem refresh_again {s s' : Uniform} (hr : s.refresh = (s', .ok ())) : s'.refresh = (s', .ok ()) := by
  have hd : s'.dirty = false := by
    unfold Uniform.refresh at hr
    split at hr
    · unfold Uniform.rebalance at hr
      simp only at hr
      split at hr
      · rw [← (Prod.mk.inj hr).1]
      · simp at hr
    · rename_i h
      rw [← (Prod.mk.inj hr).1]
      simpa using h
  unfold Uniform.refresh
  rw [hd]
  rfl

theorem samples_ok (count : Nat) (tc : Int) (u v : Nat → ℝ) (m : Nat) : ∀ {s s' : Uniform} (_ : s.refresh = (s', .ok ())) (i : Nat)
    (out : List (List SamplePoint)), Verif.RealDraws.samples count tc u v m s i = .ok out ↔
      (out.length = m ∧ ∀ b ∈ out, b.length = count) ∧
        ∀ (k : Nat) p, out.flatten[k]? = some p → Hit s' tc p (u (i + k)) (v (i + k)) := by
  induction m with
  | zero =>
    intro s s' hr i out
    simp only [Verif.RealDraws.samples, Except.ok.injEq]
    constructor
    · rintro rfl; simp
    · rintro ⟨⟨h, _⟩, _⟩; exact (List.length_eq_zero_iff.1 h).symm
  | succ m ih =>
    intro s s' hr i out
    simp only [Verif.RealDraws.samples]
    constructor
    · intro h
      split at h
      · simp at h
      · rename_i s1 pts hpts
        have hs1 : s1 = s' := by rw [← sample_state hr count tc u v i, hpts]
        subst hs1
        split at h
        · simp at h
        · rename_i rest hrest
          injection h with h
          subst h
          obtain ⟨h1, h2⟩ := (sample_ok hr _ _ _ _ _ _).1 hpts
          obtain ⟨⟨h3, h4⟩, h5⟩ := (ih (refresh_again hr) _ _).1 hrest
          refine ⟨⟨by simp [h3], by simpa using ⟨h1, h4⟩⟩, fun k p hk => ?_⟩
          rw [List.flatten_cons] at hk
          by_cases hlt : k < pts.length
          · rw [List.getElem?_append_left hlt] at hk
            exact h2 k p hk
          · rw [List.getElem?_append_right (by omega)] at hk
            have := h5 _ p hk
            rwa [show i + count + (k - pts.length) = i + k by omega] at this
    · rintro ⟨⟨h1, h2⟩, h3⟩
      cases out with
      | nil => simp at h1
      | cons pts rest =>
        have hlen : pts.length = count := h2 pts (by simp)
        rw [List.flatten_cons] at h3
        rw [(sample_ok hr count tc u v i pts).2 ⟨hlen, fun k p hk => h3 k p (by
          rw [List.getElem?_append_left]
          · exact hk
          · by_contra hn
            rw [List.getElem?_eq_none (by omega)] at hk
            simp at hk)⟩]
        simp only
        rw [(ih (refresh_again hr) (i + count) rest).2 ⟨⟨by simpa using h1, fun b hb => h2 b (by simp [hb])⟩, fun k p hk => by
          have := h3 (pts.length + k) p (by rw [List.getElem?_append_right (by omega)]; simpa using hk)
          rwa [show i + (pts.length + k) = i + count + k by omega] at this⟩]

theorem hits_law {s' : Uniform} {tc : Int} (hl : s'.ids.length = s'.weights.length) (hw : ∀ w ∈ s'.weights, 0 ≤ w)
    (hs : s'.weights.sum = 1) (i : Nat) (flat : List SamplePoint) (hend : ∀ p ∈ flat, p.2.2 = p.2.1 + tc) :
    generators {w | ∀ (k : Nat) p, flat[k]? = some p → Hit s' tc p (w.1 (i + k)) (w.2 (i + k))} =
      (flat.map fun p => ENNReal.ofReal (s'.windowProb tc p.1 p.2.1)).prod := by
  let A : Nat → Set ℝ := fun j => {x | ∀ p, flat[j - i]? = some p → npChoice s'.ids s'.weights x = .ok p.1}
  let B : Nat → Set ℝ := fun j => {x | ∀ p, flat[j - i]? = some p → ∃ len, s'.idents.get? p.1 = some len ∧
    pyInt (x * (((len : Int) - (tc - 1) : Int) : ℝ)) = p.2.1}
  let t := Finset.Ico i (i + flat.length)
  have hset : {w : (Nat → ℝ) × (Nat → ℝ) | ∀ (k : Nat) p, flat[k]? = some p → Hit s' tc p (w.1 (i + k)) (w.2 (i + k))} =
      Set.pi t A ×ˢ Set.pi t B := by
    ext ⟨u, v⟩
    simp only [Set.mem_ofPred_eq, Set.mem_prod, Set.mem_pi, Finset.mem_coe, A, B, Hit, t, Finset.mem_Ico]
    constructor
    · intro h
      refine ⟨fun j hj p hp => ?_, fun j hj p hp => ?_⟩
      · have := (h (j - i) p hp).1
        rwa [show i + (j - i) = j by omega] at this
      · obtain ⟨len, h1, h2, _⟩ := (h (j - i) p hp).2
        rw [show i + (j - i) = j by omega] at h2
        exact ⟨len, h1, h2⟩
    · rintro ⟨h1, h2⟩ k p hk
      have hlt : k < flat.length := by
        by_contra hn
        rw [List.getElem?_eq_none (by omega)] at hk
        simp at hk
      have hk' : flat[i + k - i]? = some p := by rw [Nat.add_sub_cancel_left]; exact hk
      obtain ⟨len, h3, h4⟩ := h2 (i + k) ⟨by omega, by omega⟩ p hk'
      exact ⟨h1 (i + k) ⟨by omega, by omega⟩ p hk', len, h3, h4, hend p (List.mem_of_getElem? hk)⟩
  have hA : ∀ (k : Nat) p, flat[k]? = some p → A (i + k) = {x | npChoice s'.ids s'.weights x = .ok p.1} := by
    intro k p hk
    ext x
    simp only [A, Nat.add_sub_cancel_left, hk, Option.some.injEq, forall_eq', Set.mem_ofPred_eq]
  have hB : ∀ (k : Nat) p, flat[k]? = some p → B (i + k) = {x | ∃ len, s'.idents.get? p.1 = some len ∧
      pyInt (x * (((len : Int) - (tc - 1) : Int) : ℝ)) = p.2.1} := by
    intro k p hk
    ext x
    simp only [B, Nat.add_sub_cancel_left, hk, Option.some.injEq, forall_eq', Set.mem_ofPred_eq]
  have hBm : ∀ p : SamplePoint, MeasurableSet {x : ℝ | ∃ len, s'.idents.get? p.1 = some len ∧
      pyInt (x * (((len : Int) - (tc - 1) : Int) : ℝ)) = p.2.1} ∧
      unit {x : ℝ | ∃ len, s'.idents.get? p.1 = some len ∧ pyInt (x * (((len : Int) - (tc - 1) : Int) : ℝ)) = p.2.1} =
        ENNReal.ofReal (match s'.idents.get? p.1 with | none => 0 | some len => offsetProb ((len : Int) - (tc - 1)) p.2.1) := by
    intro p
    cases s'.idents.get? p.1 with
    | none => simp
    | some len =>
      simp only [Option.some.injEq, exists_eq_left']
      exact ⟨(offset_law _ _).2, (offset_law _ _).1⟩
  have hmeas : ∀ j ∈ t, ∃ (k : Nat) (p : SamplePoint), j = i + k ∧ flat[k]? = some p := by
    intro j hj
    rw [Finset.mem_Ico] at hj
    exact ⟨j - i, flat[j - i], by omega, List.getElem?_eq_getElem _⟩
  rw [hset, generators, Measure.prod_prod, Measure.infinitePi_pi _ (fun j hj => by
      obtain ⟨k, p, rfl, hk⟩ := hmeas j hj
      rw [hA k p hk]
      exact (choice_law hl hw hs p.1).2), Measure.infinitePi_pi _ (fun j hj => by
      obtain ⟨k, p, rfl, hk⟩ := hmeas j hj
      rw [hB k p hk]
      exact (hBm p).1), ← Finset.prod_mul_distrib, Finset.prod_Ico_eq_prod_range, Nat.add_sub_cancel_left, Finset.prod_range,
    ← Fin.prod_univ_fun_getElem]
  refine Finset.prod_congr rfl fun k _ => ?_
  have hk : flat[(k : Nat)]? = some flat[k] := List.getElem?_eq_getElem k.2
  rw [hA k _ hk, hB k _ hk, (choice_law hl hw hs _).1, (hBm _).2, Uniform.windowProb, ← ENNReal.ofReal_mul]
  · rfl
  · unfold choiceProb
    refine List.sum_nonneg ?_
    intro x hx
    obtain ⟨⟨_, y⟩, hy, rfl⟩ := List.mem_map.1 hx
    exact hw _ (List.of_mem_zip (List.mem_filter.1 hy).1).2

/-- **C150**: The probability of what some calls of the uniform sampler in a row return, with nothing added or ejected in between,
is the product of the probabilities of all the windows in it: they are independent, within each batch and from batch to batch. -/
theorem C150 {s s' : Uniform} {l : Dict Int Nat} (h : Tracked (.uniform s) l) (hr : s.refresh = (s', .ok ()))
    (hpos : 0 < trackedTotal l) {tc : Nat} (hlong : ∀ p ∈ l, tc ≤ p.2) {count m : Nat} (i : Nat) {out : List (List SamplePoint)}
    (hm : out.length = m) (hcount : ∀ b ∈ out, b.length = count) :
    generators {w | Verif.RealDraws.samples count tc w.1 w.2 m s i = .ok out} =
      (out.flatten.map fun p => ENNReal.ofReal (windowLaw l tc p)).prod := by
  obtain ⟨h1, h2, h3, h4, h5⟩ := C17_weights h hr hpos
  by_cases hend : ∀ p ∈ out.flatten, p.2.2 = p.2.1 + tc
  · have hset : {w : (Nat → ℝ) × (Nat → ℝ) | Verif.RealDraws.samples count tc w.1 w.2 m s i = .ok out} =
        {w | ∀ (k : Nat) p, out.flatten[k]? = some p → Hit s' tc p (w.1 (i + k)) (w.2 (i + k))} := by
      ext w
      simp only [Set.mem_ofPred_eq]
      rw [samples_ok count tc w.1 w.2 m hr]
      exact ⟨fun hh => hh.2, fun hh => ⟨⟨hm, hcount⟩, hh⟩⟩
    rw [hset, hits_law h1.symm h2 h3 i _ hend]
    congr 1
    refine List.map_congr_left fun p hp => ?_
    congr 1
    unfold windowLaw
    cases hl : l.get? p.1 with
    | none =>
      simp only
      rw [Uniform.windowProb, h5 _ hl, zero_mul]
    | some len =>
      simp only
      rw [C17_windows h hr hpos hl (hlong _ (Dict.mem_of_get? hl))]
      have := hend p hp
      by_cases hc : 0 ≤ p.2.1 ∧ p.2.1 + tc ≤ len
      · rw [if_pos hc, if_pos ⟨hc.1, hc.2, this⟩]
      · rw [if_neg hc, if_neg (fun h => hc ⟨h.1, h.2.1⟩)]
  · have hset : {w : (Nat → ℝ) × (Nat → ℝ) | Verif.RealDraws.samples count tc w.1 w.2 m s i = .ok out} = ∅ := by
      ext w
      simp only [Set.mem_ofPred_eq, Set.mem_empty_iff_false, iff_false]
      rw [samples_ok count tc w.1 w.2 m hr]
      rintro ⟨_, hh⟩
      apply hend
      intro p hp
      obtain ⟨k, hk⟩ := List.mem_iff_getElem?.1 hp
      obtain ⟨_, _, _, _, he⟩ := hh k p hk
      exact he
    push Not at hend
    obtain ⟨p, hp, he⟩ := hend
    rw [hset, measure_empty, eq_comm]
    refine List.prod_eq_zero (List.mem_map.2 ⟨p, hp, ?_⟩)
    unfold windowLaw
    cases l.get? p.1 with
    | none => simp
    | some len => simp only; rw [if_neg (fun h => he h.2.2)]; simp

/-- **C150** for single transitions: each is one of the stored ones, all equally likely and independent of all others. -/
theorem C150_transitions {s s' : Uniform} {l : Dict Int Nat} (h : Tracked (.uniform s) l) (hr : s.refresh = (s', .ok ()))
    (hpos : 0 < trackedTotal l) (hlong : ∀ p ∈ l, 1 ≤ p.2) {count m : Nat} (i : Nat) {out : List (List SamplePoint)}
    (hm : out.length = m) (hcount : ∀ b ∈ out, b.length = count)
    (hin : ∀ b ∈ out, ∀ p ∈ b, ∃ len, l.get? p.1 = some len ∧ 0 ≤ p.2.1 ∧ p.2.1 < len ∧ p.2.2 = p.2.1 + 1) :
    generators {w | Verif.RealDraws.samples count 1 w.1 w.2 m s i = .ok out} =
      ENNReal.ofReal (1 / (trackedTotal l : ℝ)) ^ (m * count) := by
  have hlen : out.flatten.length = m * count := by
    rw [List.length_flatten, List.map_congr_left hcount, List.map_const', List.sum_replicate, hm, smul_eq_mul]
  have := C150 h hr hpos (tc := 1) hlong i hm hcount
  rw [Nat.cast_one] at this
  rw [this, ← hlen, ← List.prod_replicate, ← List.map_const']
  congr 1
  refine List.map_congr_left fun p hp => ?_
  obtain ⟨b, hb, hpb⟩ := List.mem_flatten.1 hp
  obtain ⟨len, h1, h2, h3, h4⟩ := hin b hb p hpb
  congr 1
  unfold windowLaw
  rw [h1]
  simp only
  rw [if_pos ⟨h2, by push_cast; omega, by push_cast; exact h4⟩]
  have hl : 1 ≤ len := hlong _ (Dict.mem_of_get? h1)
  rw [show len - 1 + 1 = len by omega]
  have : (0 : ℝ) < len := by exact_mod_cast hl
  field_simp

/-- What is picked has a positive weight. -/
theorem pick_pos (id : Int) : ∀ (ids : List Int) (ws : List ℝ) (acc u : ℝ), ids.length = ws.length → (∀ w ∈ ws, 0 ≤ w) → acc ≤ u →
    ids[searchRight (cumsum acc ws) u]? = some id → 0 < choiceProb ids ws id := by
  intro ids
  induction ids with
  | nil => intro ws acc u hl _ _ h; simp at h
  | cons a ids ih =>
    intro ws acc u hl hw hu h
    cases ws with
    | nil => simp at hl
    | cons w ws =>
      have hw0 := hw w (by simp)
      have hws : ∀ x ∈ ws, 0 ≤ x := fun x hx => hw x (by simp [hx])
      have hnn : 0 ≤ choiceProb ids ws id := by
        unfold choiceProb
        refine List.sum_nonneg ?_
        intro x hx
        obtain ⟨⟨_, y⟩, hy, rfl⟩ := List.mem_map.1 hx
        exact hws _ (List.of_mem_zip (List.mem_filter.1 hy).1).2
      have hstep : choiceProb (a :: ids) (w :: ws) id = (if a = id then w else 0) + choiceProb ids ws id := by
        by_cases h : a = id
        · simp [choiceProb, h]
        · simp [choiceProb, h]
      rw [hstep]
      rcases lt_or_ge u (acc + w) with hlt | hge
      · rw [search_cons_lt hws hlt] at h
        simp only [List.getElem?_cons_zero, Option.some.injEq] at h
        rw [if_pos h]
        linarith
      · rw [search_cons_ge hge, List.getElem?_cons_succ] at h
        have := ih ws (acc + w) u (by simpa using hl) hws hge h
        have : 0 ≤ (if a = id then w else 0) := by split <;> simp [hw0]
        linarith

theorem pick_some : ∀ (ids : List Int) (ws : List ℝ) (acc u : ℝ), ids.length = ws.length → (∀ w ∈ ws, 0 ≤ w) →
    u < acc + ws.sum → acc ≤ u → ∃ id, ids[searchRight (cumsum acc ws) u]? = some id := by
  intro ids
  induction ids with
  | nil =>
    intro ws acc u hl _ h1 h2
    have : ws = [] := List.length_eq_zero_iff.1 hl.symm
    subst this
    simp at h1
    linarith
  | cons a ids ih =>
    intro ws acc u hl hw h1 h2
    cases ws with
    | nil => simp at hl
    | cons w ws =>
      have hws : ∀ x ∈ ws, 0 ≤ x := fun x hx => hw x (by simp [hx])
      rcases lt_or_ge u (acc + w) with hlt | hge
      · exact ⟨a, by rw [search_cons_lt hws hlt]; rfl⟩
      · rw [search_cons_ge hge]
        rw [List.sum_cons] at h1
        exact ih ws (acc + w) u (by simpa using hl) hws (by linarith) hge

theorem pyInt_reached {v : ℝ} (h0 : 0 ≤ v) (h1 : v < 1) (n : Int) : ∃ d, truncDraw d n = pyInt (v * n) := by
  rcases lt_trichotomy n 0 with hn | hn | hn
  · have hn' : (n : ℝ) < 0 := by exact_mod_cast hn
    rcases h0.eq_or_lt with rfl | hv
    · exact ⟨0, by simp [truncDraw, hn, pyInt, not_lt.2 hn.le]⟩
    · have hneg : ¬ (0 ≤ v * n) := by
        rw [not_le]
        exact mul_neg_of_pos_of_neg hv hn'
      have hle : ⌈v * n⌉ ≤ 0 := Int.ceil_le.2 (by push_cast; linarith)
      have hgt : n < ⌈v * n⌉ := Int.lt_ceil.2 (by nlinarith)
      refine ⟨(-⌈v * n⌉).toNat, ?_⟩
      unfold truncDraw pyInt
      rw [if_neg (by omega), if_pos hn, if_neg hneg, Int.toNat_of_nonneg (by omega), Int.emod_eq_of_lt (by omega) (by omega)]
      omega
  · subst hn
    exact ⟨0, by simp [truncDraw, pyInt]⟩
  · have hn' : (0 : ℝ) < n := by exact_mod_cast hn
    have hnn : 0 ≤ v * n := by positivity
    have hge : 0 ≤ ⌊v * n⌋ := Int.floor_nonneg.2 hnn
    have hlt : ⌊v * n⌋ < n := Int.floor_lt.2 (by nlinarith)
    refine ⟨⌊v * n⌋.toNat, ?_⟩
    unfold truncDraw pyInt
    rw [if_pos hn, if_pos hnn, Int.toNat_of_nonneg hge, Int.emod_eq_of_lt hge hlt]

/-- **C150**: Whatever numbers the generators give, sampling succeeds, and it returns something that the model of C17, which
leaves open what the numbers are, can return. -/
theorem C150_possible {s s' : Uniform} {l : Dict Int Nat} (h : Tracked (.uniform s) l) (hr : s.refresh = (s', .ok ()))
    (hpos : 0 < trackedTotal l) (count : Nat) (tc : Int) {u v : Nat → ℝ} (hu : ∀ k, u k ∈ Set.Ico 0 1) (hv : ∀ k, v k ∈ Set.Ico 0 1)
    (i : Nat) : ∃ out c r, Verif.RealDraws.sample s count tc u v i = (s', .ok out) ∧ s.sample count tc c r = (s', .ok out) := by
  obtain ⟨h1, h2, h3, h4, h5⟩ := C17_weights h hr hpos
  obtain ⟨_, g1, g2, g3⟩ := Strategy.refresh_uniform h.tracks.1 hr
  have hone : ∀ k, ∃ id len d, npChoice s'.ids s'.weights (u k) = .ok id ∧ s'.idents.get? id = some len ∧
      choice s'.ids s'.prios d = .ok id := by
    intro k
    obtain ⟨id, hid⟩ := pick_some s'.ids s'.weights 0 (u k) h1.symm h2 (by rw [h3]; linarith [(hu k).2]) (hu k).1
    have hp := pick_pos id s'.ids s'.weights 0 (u k) h1.symm h2 (hu k).1 hid
    obtain ⟨d, hd⟩ := (C17_support h hr hpos id).2 hp
    have hget : ∃ len, s'.idents.get? id = some len := by
      rw [g3]
      cases hl : l.get? id with
      | none => rw [h5 id hl] at hp; exact absurd hp (lt_irrefl _)
      | some len => exact ⟨len, rfl⟩
    obtain ⟨len, hlen⟩ := hget
    refine ⟨id, len, d, ?_, hlen, hd⟩
    unfold npChoice
    rw [if_neg (by simpa using h1.symm), if_neg (by
      rintro (⟨w, ha, hb⟩ | hb)
      · exact absurd hb (not_lt.2 (h2 w ha))
      · exact hb h3), hid]
  choose id len d hid hlen hd using hone
  choose e he using fun k => pyInt_reached (hv k).1 (hv k).2 ((len k : Int) - (tc - 1))
  let out : List SamplePoint := (List.range count).map fun k =>
    (id (i + k), pyInt (v (i + k) * (((len (i + k) : Int) - (tc - 1) : Int) : ℝ)),
      pyInt (v (i + k) * (((len (i + k) : Int) - (tc - 1) : Int) : ℝ)) + tc)
  refine ⟨out, fun k => d (i + k), fun k => e (i + k), ?_, ?_⟩
  · refine (sample_ok hr count tc u v i out).2 ⟨by simp [out], fun k p hk => ?_⟩
    simp only [out, List.getElem?_map, Option.map_eq_some_iff] at hk
    obtain ⟨k', hk', rfl⟩ := hk
    obtain ⟨hlt, rfl⟩ := List.getElem?_eq_some_iff.1 hk'
    simp only [List.getElem_range]
    exact ⟨hid _, _, hlen _, rfl, rfl⟩
  · have hc : ∀ (n k : Nat), Uniform.choices s'.ids s'.prios (fun k => d (i + k)) n k =
        .ok ((List.range' k n).map fun k => id (i + k)) := by
      intro n
      induction n with
      | zero => intro k; rfl
      | succ n ih =>
        intro k
        simp only [Uniform.choices, hd, ih (k + 1), List.range'_succ, List.map_cons]
        rfl
    have hp : ∀ (n k : Nat), Uniform.points s'.idents tc (fun k => e (i + k)) ((List.range' k n).map fun k => id (i + k)) k =
        .ok ((List.range' k n).map fun k => (id (i + k), pyInt (v (i + k) * (((len (i + k) : Int) - (tc - 1) : Int) : ℝ)),
          pyInt (v (i + k) * (((len (i + k) : Int) - (tc - 1) : Int) : ℝ)) + tc)) := by
      intro n
      induction n with
      | zero => intro k; rfl
      | succ n ih =>
        intro k
        simp only [List.range'_succ, List.map_cons, Uniform.points, hlen, ih (k + 1), he]
        rfl
    rw [Uniform.sample, hr]
    simp only [Res.andThen_ok, hc count 0]
    change (s', Uniform.points s'.idents tc (fun k => e (i + k)) ((List.range' 0 count).map fun k => id (i + k)) 0) = _
    rw [hp count 0, ← List.range_eq_range']

namespace Ex

/-- Sequence 1 has one transition and sequence 2 has three: each transition has probability 1/4. -/
example (i : Nat) : generators {w | Verif.RealDraws.samples 2 1 w.1 w.2 2 ExU.u i =
    .ok [[(1, 0, 1), (2, 2, 3)], [(2, 0, 1), (2, 2, 3)]]} = ENNReal.ofReal (1 / 4) ^ 4 :=
  C150_transitions ExU.tracked (s' := ExU.u.refresh.1) (by decide +kernel) (by decide) (by decide) i rfl (by decide)
    (by intro b hb p hp; simp at hb; rcases hb with rfl | rfl <;> simp at hp <;> rcases hp with rfl | rfl <;> simp [Dict.get?])

/-- A window that does not exist is never returned. -/
example (i : Nat) : generators {w | Verif.RealDraws.samples 1 1 w.1 w.2 1 ExU.u i = .ok [[(2, 3, 4)]]} = 0 := by
  have := C150 ExU.tracked (s' := ExU.u.refresh.1) (by decide +kernel) (by decide) (tc := 1) (by decide) (count := 1) (m := 1) i
    (out := [[(2, 3, 4)]]) rfl (by decide)
  rw [Nat.cast_one] at this
  rw [this]
  simp [windowLaw, Dict.get?]

example := C150_possible ExU.tracked (s' := ExU.u.refresh.1) (by decide +kernel) (by decide) 5 2 (u := fun k => 1 / (k + 2))
  (v := fun _ => 1 / 2) (fun k => ⟨by positivity, by rw [div_lt_one (by positivity)]; linarith [k.cast_nonneg (α := ℝ)]⟩)
  (fun _ => ⟨by norm_num, by norm_num⟩) 0

end Ex

end RealDraws

end Verif.Props
