import Verif.Props.RealDraws
import Verif.Props.EjectLaw

/-!
# C149 with the numbers that the generator gives
-/

namespace Verif.Props

namespace EjectLaw

open Verif Verif.Spec MeasureTheory
open Verif.RealDraws (cumsum searchRight npChoice)
open Verif.Props.RealDraws (unit)
open scoped ENNReal

/-- The draw that stands for the sequence which is chosen with that number -/
noncomputable def nth (l : Dict Int Nat) (ws : List ℝ) (u : ℝ) : Nat :=
  match l.keys[searchRight (cumsum 0 ws) u]? with
  | none => 0
  | some id => (stored l).idxOf id

theorem measurable_nth (l : Dict Int Nat) (ws : List ℝ) : Measurable (nth l ws) := by
  have : Measurable fun n : Nat => match l.keys[n]? with | none => 0 | some id => (stored l).idxOf id := .of_discrete
  exact this.comp (RealDraws.searchRight_mono _).measurable

/-- Weights that fit the lengths of the sequences -/
structure Fit (l : Dict Int Nat) (ws : List ℝ) : Prop where
  length : l.keys.length = ws.length
  nonneg : ∀ w ∈ ws, 0 ≤ w
  sum : ws.sum = 1
  pos : ∀ id, 0 < choiceProb l.keys ws id ↔ id ∈ stored l

theorem Fit.choose {l : Dict Int Nat} {ws : List ℝ} (h : Fit l ws) {u : ℝ} (hu : u ∈ Set.Ico 0 1) :
    ∃ id, npChoice l.keys ws u = .ok id ∧ id ∈ stored l ∧ choice l.keys l.values (nth l ws u) = .ok id := by
  obtain ⟨id, hid⟩ := RealDraws.pick_some l.keys ws 0 u h.length h.nonneg (by rw [h.sum]; linarith [hu.2]) hu.1
  have hst := (h.pos id).1 (RealDraws.pick_pos id l.keys ws 0 u h.length h.nonneg hu.1 hid)
  refine ⟨id, ?_, hst, choice_eq l _ ?_⟩
  · unfold npChoice
    rw [if_neg (by simpa using h.length), if_neg (by
      rintro (⟨w, ha, hb⟩ | hb)
      · exact absurd hb (not_lt.2 (h.nonneg w ha))
      · exact hb h.sum), hid]
  · have hlt := List.idxOf_lt_length_of_mem hst
    rw [show nth l ws u = (stored l).idxOf id by simp [nth, hid], Nat.mod_eq_of_lt hlt, List.getElem?_eq_getElem hlt, List.getElem_idxOf]

theorem Fit.loop {l : Dict Int Nat} {ws : List ℝ} (h : Fit l ws) (us : List ℝ) (hu : ∀ u ∈ us, u ∈ Set.Ico 0 1) :
    ∀ (count : Int) (acc : List Int), Verif.RealDraws.ejectLoop l.keys ws l us count acc =
      Uniform.ejectLoop l.keys l.values l (us.map (nth l ws)) count acc := by
  induction us with
  | nil => intro count acc; unfold Verif.RealDraws.ejectLoop Uniform.ejectLoop; rfl
  | cons u us ih =>
    intro count acc
    obtain ⟨id, h1, _, h2⟩ := h.choose (hu u (by simp))
    have ih := ih fun x hx => hu x (by simp [hx])
    unfold Verif.RealDraws.ejectLoop Uniform.ejectLoop
    simp only [List.map_cons, h1, h2, ih]
    rfl

theorem ae_unit : ∀ᵐ w ∂(Measure.infinitePi fun _ : Nat => unit), ∀ k, w k ∈ Set.Ico (0 : ℝ) 1 := by
  rw [ae_all_iff]
  intro k
  have h1 : ∀ᵐ x ∂unit, x ∈ Set.Ico (0 : ℝ) 1 := by
    rw [unit]; exact ae_restrict_mem measurableSet_Ico
  exact (measurePreserving_eval_infinitePi (fun _ : Nat => unit) k).quasiMeasurePreserving.ae h1

theorem Fit.map {l : Dict Int Nat} {ws : List ℝ} (h : Fit l ws) (count : Int) (ids : List Int) :
    (Measure.infinitePi fun _ : Nat => unit)
        {w | ∃ n, Verif.RealDraws.ejectLoop l.keys ws l ((List.range n).map w) count [] = .ok ids} =
      (Measure.infinitePi fun _ : Nat => unit.map (nth l ws)) (gives l count [] ids) := by
  have hp := Measure.isProbabilityMeasure_map (μ := unit) (measurable_nth l ws).aemeasurable
  have hmap := Measure.infinitePi_map_pi (μ := fun _ : Nat => unit) (f := fun _ => nth l ws) (fun _ => measurable_nth l ws)
  rw [← hmap, Measure.map_apply (by
    exact measurable_pi_lambda _ fun k => (measurable_nth l ws).comp (measurable_pi_apply k)) (measurable_gives _ _ _ _)]
  refine measure_congr ?_
  filter_upwards [ae_unit] with w hw
  refine propext (exists_congr fun n => ?_)
  rw [h.loop _ (by intro u hu; obtain ⟨k, _, rfl⟩ := List.mem_map.1 hu; exact hw k), List.map_map]
  rfl

theorem Fit.drawn {l : Dict Int Nat} {ws : List ℝ} (h : Fit l ws) (id : Int) :
    unit.map (nth l ws) (EjectLaw.drawn l id) = ENNReal.ofReal (choiceProb l.keys ws id) := by
  rw [Measure.map_apply (measurable_nth l ws) .of_discrete, ← (RealDraws.choice_law h.length h.nonneg h.sum id).1]
  refine measure_congr ?_
  have h1 : ∀ᵐ x ∂unit, x ∈ Set.Ico (0 : ℝ) 1 := by
    rw [unit]; exact ae_restrict_mem measurableSet_Ico
  filter_upwards [h1] with u hu
  obtain ⟨x, hx1, _, hx2⟩ := h.choose hu
  refine propext ?_
  change nth l ws u ∈ EjectLaw.drawn l id ↔ npChoice l.keys ws u = .ok id
  rw [← choice_drawn, hx1, hx2]

theorem choiceProb_keys {ids : List Int} {ws : List ℝ} (hn : ids.Nodup) (hl : ids.length = ws.length) :
    ids.map (choiceProb ids ws) = ws := by
  apply List.ext_getElem
  · simpa using hl
  · intro k h1 h2
    rw [List.getElem_map]
    exact choiceProb_get hn (List.getElem?_eq_getElem _) (List.getElem?_eq_getElem _)

theorem Fit.total {l : Dict Int Nat} {ws : List ℝ} (h : Fit l ws) (hn : l.keys.Nodup) :
    ((stored l).map (choiceProb l.keys ws)).sum = 1 := by
  have hz : ∀ p ∈ l, ¬ 0 < p.2 → choiceProb l.keys ws p.1 = 0 := by
    intro p hp hnot
    have hnn : 0 ≤ choiceProb l.keys ws p.1 := by
      unfold choiceProb
      refine List.sum_nonneg ?_
      intro x hx
      obtain ⟨⟨_, y⟩, hy, rfl⟩ := List.mem_map.1 hx
      exact h.nonneg _ (List.of_mem_zip (List.mem_filter.1 hy).1).2
    rcases hnn.eq_or_lt with h0 | h0
    · exact h0.symm
    · obtain ⟨n, hn1, hn2⟩ := stored_get hn ((h.pos _).1 h0)
      rw [Dict.get?_of_mem hn hp] at hn1
      injection hn1 with hn1
      omega
  have hsum : ∀ l' : Dict Int Nat, (∀ p ∈ l', p ∈ l) →
      (((l'.filter fun p => 0 < p.2).map Prod.fst).map (choiceProb l.keys ws)).sum = ((l'.map Prod.fst).map (choiceProb l.keys ws)).sum := by
    intro l'
    induction l' with
    | nil => intro _; rfl
    | cons p l' ih =>
      intro hsub
      have ih := ih fun q hq => hsub q (by simp [hq])
      by_cases hp : 0 < p.2
      · rw [List.filter_cons_of_pos (by simpa using hp)]
        simp only [List.map_cons, List.sum_cons, ih]
      · rw [List.filter_cons_of_neg (by simpa using hp)]
        simp only [List.map_cons, List.sum_cons, ih, hz p (hsub p (by simp)) hp, zero_add]
  rw [stored, hsum l fun _ hp => hp]
  rw [← h.sum]
  conv_rhs => rw [← choiceProb_keys hn h.length]
  rfl

theorem Fit.uniform {s s' : Uniform} {l : Dict Int Nat} (h : Tracked (.uniform s) l) (hr : s.refresh = (s', .ok ()))
    (hpos : 0 < trackedTotal l) : Fit l s'.weights ∧ s'.ids = l.keys ∧ s'.idents = l := by
  obtain ⟨h1, h2, h3, h4, h5⟩ := C17_weights h hr hpos
  obtain ⟨_, g1, g2, g3⟩ := Strategy.refresh_uniform h.tracks.1 hr
  have hT : (0 : ℝ) < trackedTotal l := by exact_mod_cast hpos
  refine ⟨⟨by rw [← g1, h1], h2, h3, fun id => ?_⟩, g1, g3⟩
  rw [← g1]
  constructor
  · intro hp
    cases hl : l.get? id with
    | none => rw [h5 id hl] at hp; exact absurd hp (lt_irrefl _)
    | some n =>
      rw [h4 id n hl] at hp
      have hn : 0 < n := by
        rcases Nat.eq_zero_or_pos n with rfl | h
        · simp at hp
        · exact h
      exact List.mem_map.2 ⟨(id, n), List.mem_filter.2 ⟨Dict.mem_of_get? hl, by simpa using hn⟩, rfl⟩
  · intro hp
    obtain ⟨n, hn, hpos⟩ := stored_get h.tracks.2 hp
    rw [h4 id n hn]
    have : (0 : ℝ) < n := by exact_mod_cast hpos
    positivity

/-- **C149** with the numbers that the generator gives: if they are independent and uniform in `[0, 1)`, uniform ejection picks one
by one, without putting any back, in proportion to how many transitions a sequence has. -/
theorem C149_generator {s s' : Uniform} {l : Dict Int Nat} (h : Tracked (.uniform s) l) (hr : s.refresh = (s', .ok ()))
    (hpos : 0 < trackedTotal l) {count : Int} {ids : List Int} (hf : Frees l count ids) (hs : ∀ id ∈ ids, id ∈ stored l) :
    (Measure.infinitePi fun _ : Nat => unit)
        {w | ∃ n, Verif.RealDraws.ejectUniform s count ((List.range n).map w) = (s', .ok ids)} =
      ENNReal.ofReal (oneByOne (amount l) (trackedTotal l) ids) := by
  obtain ⟨hfit, g1, g2⟩ := Fit.uniform h hr hpos
  have hp := Measure.isProbabilityMeasure_map (μ := unit) (measurable_nth l s'.weights).aemeasurable
  have hset : {w : Nat → ℝ | ∃ n, Verif.RealDraws.ejectUniform s count ((List.range n).map w) = (s', .ok ids)} =
      {w | ∃ n, Verif.RealDraws.ejectLoop l.keys s'.weights l ((List.range n).map w) count [] = .ok ids} := by
    ext w
    simp only [Set.mem_ofPred_eq, Verif.RealDraws.ejectUniform, hr, Res.andThen_ok, g1, g2, Prod.mk.injEq, true_and]
  rw [hset, hfit.map, ← sum_amount h.tracks.2]
  have hnd := h.tracks.2
  have hw : Weighted l (amount l) (unit.map (nth l s'.weights)) := by
    intro id hid
    obtain ⟨n, hn, hn0⟩ := stored_get hnd hid
    have ha : amount l id = n := by simp [amount, hn]
    refine ⟨by rw [ha]; exact_mod_cast hn0, ?_⟩
    rw [hfit.drawn, ← g1, (C17_weights h hr hpos).2.2.2.1 id n hn, sum_amount hnd, ha]
  have := (gives_law hnd hw ids [] count (by simpa using hf.distinct) (by simpa using hs)
    (by rw [← pickedTotal_eq hnd hf.distinct]; exact hf.enough)
    (by
      intro pre last he
      rw [← pickedTotal_eq hnd (List.nodup_append.1 (he ▸ hf.distinct)).1]
      exact hf.needed pre last he)).1
  simpa using this

theorem Fit.coverage {s s' : Coverage} {l : Dict Int Nat} (h : Tracked (.coverage s) l) (hr : s.refresh = (s', .ok ()))
    (hpos : 0 < trackedTotal l) (alpha : ℝ) : Fit l (s'.weights alpha) ∧ s'.ids = l.keys ∧ s'.idents = l := by
  obtain ⟨h1, h2, h3, h4⟩ := C18_weights h hr hpos alpha
  obtain ⟨_, g1, g2, g3, _⟩ := Strategy.refresh_coverage h.tracks.1 hr
  obtain ⟨h5, _⟩ := Coverage.snap_refresh h.snap hr (Coverage.refresh_visits hr).1
  have hlen : s'.prios.length = s'.visits.length := by rw [h5, g1, g2]; simp [Dict.keys, Dict.values]
  have hsum : 0 < s'.prios.sum := by rw [g2]; exact hpos
  have hsum' : (0 : ℝ) < ((s'.prios.sum : ℕ) : ℝ) := by exact_mod_cast hsum
  have hc := Coverage.combined_sum_pos (alpha := alpha) hlen hsum
  have hnd : s'.ids.Nodup := by rw [g1]; exact h.tracks.2
  have hval : ∀ id n, l.get? id = some n → ∃ c : ℝ, 0 < c ∧ choiceProb s'.ids (s'.weights alpha) id = n * c := by
    intro id n hl
    obtain ⟨i, hi1, hi2⟩ := index_of_get? hl
    rw [← g1] at hi1
    rw [← g2] at hi2
    have hlt : i < s'.visits.length := by
      rw [← hlen]
      by_contra hh
      rw [List.getElem?_eq_none (by omega)] at hi2
      simp at hi2
    have e2 : s'.visits[i]? = some s'.visits[i] := List.getElem?_eq_getElem hlt
    rw [choiceProb_get hnd hi1 (Coverage.weights_get hi2 e2)]
    refine ⟨1 / ((s'.prios.sum : ℕ) : ℝ) * (1 / ((s'.visits[i] : ℝ) + 1) ^ alpha) / (s'.combined alpha).sum, by positivity, ?_⟩
    ring
  refine ⟨⟨by rw [← g1, h1], h3, h4, fun id => ?_⟩, g1, g3⟩
  rw [← g1]
  constructor
  · intro hp
    cases hl : l.get? id with
    | none =>
      have : choiceProb s'.ids (s'.weights alpha) id = 0 := by
        have : (s'.ids.zip (s'.weights alpha)).filter (fun p => p.1 = id) = [] := by
          rw [List.filter_eq_nil_iff]
          rintro ⟨a, b⟩ hab
          have := (List.of_mem_zip hab).1
          simp only [decide_eq_true_eq]
          rintro rfl
          rw [g1] at this
          obtain ⟨n, hn⟩ := Dict.get?_isSome_of_mem this
          rw [hl] at hn; simp at hn
        rw [choiceProb, this]; rfl
      rw [this] at hp
      exact absurd hp (lt_irrefl _)
    | some n =>
      obtain ⟨c, hc1, hc2⟩ := hval id n hl
      rw [hc2] at hp
      have hn : 0 < n := by
        rcases Nat.eq_zero_or_pos n with rfl | h
        · simp at hp
        · exact h
      exact List.mem_map.2 ⟨(id, n), List.mem_filter.2 ⟨Dict.mem_of_get? hl, by simpa using hn⟩, rfl⟩
  · intro hp
    obtain ⟨n, hn, hpos⟩ := stored_get h.tracks.2 hp
    obtain ⟨c, hc1, hc2⟩ := hval id n hn
    rw [hc2]
    have : (0 : ℝ) < n := by exact_mod_cast hpos
    positivity

/-- **C149** for coverage based ejection: the weights are those of C18. -/
theorem C149_coverage {s s' : Coverage} {l : Dict Int Nat} (h : Tracked (.coverage s) l) (hr : s.refresh = (s', .ok ()))
    (hpos : 0 < trackedTotal l) (alpha : ℝ) {count : Int} {ids : List Int} (hf : Frees l count ids)
    (hs : ∀ id ∈ ids, id ∈ stored l) :
    (Measure.infinitePi fun _ : Nat => unit)
        {w | ∃ n, Verif.RealDraws.ejectCoverage alpha s count ((List.range n).map w) = (s', .ok ids)} =
      ENNReal.ofReal (oneByOne (choiceProb s'.ids (s'.weights alpha)) 1 ids) := by
  obtain ⟨hfit, g1, g2⟩ := Fit.coverage h hr hpos alpha
  have hp := Measure.isProbabilityMeasure_map (μ := unit) (measurable_nth l (s'.weights alpha)).aemeasurable
  have hset : {w : Nat → ℝ | ∃ n, Verif.RealDraws.ejectCoverage alpha s count ((List.range n).map w) = (s', .ok ids)} =
      {w | ∃ n, Verif.RealDraws.ejectLoop l.keys (s'.weights alpha) l ((List.range n).map w) count [] = .ok ids} := by
    ext w
    simp only [Set.mem_ofPred_eq, Verif.RealDraws.ejectCoverage, hr, Res.andThen_ok, g1, g2, Prod.mk.injEq, true_and]
  have hnd := h.tracks.2
  rw [hset, hfit.map, g1, ← hfit.total hnd]
  have hw : Weighted l (choiceProb l.keys (s'.weights alpha)) (unit.map (nth l (s'.weights alpha))) := by
    intro id hid
    refine ⟨(hfit.pos id).2 hid, ?_⟩
    rw [hfit.drawn, hfit.total hnd, div_one]
  have := (gives_law hnd hw ids [] count (by simpa using hf.distinct) (by simpa using hs)
    (by rw [← pickedTotal_eq hnd hf.distinct]; exact hf.enough)
    (by
      intro pre last he
      rw [← pickedTotal_eq hnd (List.nodup_append.1 (he ▸ hf.distinct)).1]
      exact hf.needed pre last he)).1
  simpa using this

namespace Ex

/-- Sequence 1 has one transition and sequence 2 has three. To free two transitions, sequence 1 may be picked first, which is
not enough. -/
example : (Measure.infinitePi fun _ : Nat => unit)
    {w | ∃ n, Verif.RealDraws.ejectUniform ExU.u 2 ((List.range n).map w) = (ExU.u.refresh.1, .ok [1, 2])} =
      ENNReal.ofReal (1 / 4) := by
  rw [C149_generator ExU.tracked (s' := ExU.u.refresh.1) (by decide +kernel) (by decide)
    ⟨by decide, by simp, by decide, by
      intro pre last h
      have : pre = [1] := by
        rcases pre with _ | ⟨x, _ | ⟨y, pre⟩⟩ <;> simp at h ⊢
        exact h.1.symm
      subst this
      decide⟩ (by decide +kernel)]
  congr 1
  norm_num [oneByOne, amount, trackedTotal, Dict.get?]

/-- Sequence 1 was sampled once before the third was added, so that it is less likely. -/
example := C149_coverage ExC.tracked2 (s' := ExC.c2) (by decide +kernel) (by decide) 1 (count := 1) (ids := [2])
    ⟨by decide, by simp, by decide, by
      intro pre last h
      have : pre = [] := by
        rcases pre with _ | ⟨x, pre⟩ <;> simp at h ⊢
      subst this
      decide⟩ (by decide +kernel)

end Ex

end EjectLaw

end Verif.Props
