import Verif.Props.DqnRun
import Verif.Props.SacEnv
import Verif.Props.Starve

/-!
# C171: Q-learning from a memory that changes, with coverage-based batches
-/

namespace Verif.Props

namespace DqnCoverage

open Verif MeasureTheory Filter
open Verif.Props.RealDraws (generators)
open Verif.Props.CoverageRun (Valid)
open Verif.Props.Starve (sizes often first)
open Verif.CoverageRun (Event run)
open Verif.DqnRun (Setup Learner train)
open Verif.DqnRun.Spec (rowOf Usual Made Tried)
open Verif.Dqn.Spec (Env Best table)
open Verif.Dqn (Sample)
open scoped Topology

variable {n m : Nat}

/-- The rows that the windows of a batch stand for: in step `o` of the sequence with identity `id`, the observation was
`(what id o).1` and the action `(what id o).2`. -/
noncomputable def rowsOf (e : Env n m) (what : Int → Nat → Fin n × Fin (m + 1)) (b : List SamplePoint) : List (Sample ℝ) :=
  b.map fun p => rowOf e (what p.1 p.2.1.toNat).1 (what p.1 p.2.1.toNat).2

theorem sizes_append (l l' : List Event) : sizes (l ++ l') = sizes l ++ sizes l' := by simp [sizes]

/-- Every number of batches is reached. -/
theorem sizes_at (ev : Nat → Event) {j k : Nat} (h : j ≤ (sizes (first ev k)).length) : ∃ k', (sizes (first ev k')).length = j := by
  induction k with
  | zero => exact ⟨0, by simp [first, sizes] at h ⊢; omega⟩
  | succ k ih =>
    by_cases hj : j ≤ (sizes (first ev k)).length
    · exact ih hj
    · refine ⟨k + 1, ?_⟩
      rw [Starve.first_succ] at h ⊢
      rw [sizes_append, List.length_append] at h ⊢
      have : (sizes [ev k]).length ≤ 1 := List.length_filterMap_le _ _
      omega

/-- Every pair that stays is drawn again and again, in batches of positive, bounded size. -/
theorem drawn_all {alpha : ℝ} (ha : 0 ≤ alpha) {ev : Nat → Event} (hv : ∀ k, Valid 1 ((List.range k).map ev) []) {C N : Nat}
    (hC : ∀ k, (Starve.Spec.after ((List.range k).map ev) []).values.sum ≤ C) (hinf : ∃ᶠ k in atTop, ∃ count, ev k = .batch count)
    (hN : ∀ k count, ev k = .batch count → 0 < count ∧ count ≤ N) {what : Int → Nat → Fin n × Fin (m + 1)}
    (hall : ∀ s a, ∃ (id : Int) (len o : Nat), (∀ᶠ k in atTop, (Starve.Spec.after ((List.range k).map ev) []).get? id = some len) ∧ o < len ∧
      what id o = (s, a)) :
    ∀ᵐ x ∂generators, ∃ batches : Nat → List SamplePoint,
      (∀ k, ∃ j, run alpha 1 x.1 x.2 ((List.range k).map ev) {} 0 = .ok ((List.range j).map batches)) ∧
      (∀ j, ∃ k, run alpha 1 x.1 x.2 ((List.range k).map ev) {} 0 = .ok ((List.range j).map batches)) ∧
      (∀ j, batches j ≠ [] ∧ (batches j).length ≤ N) ∧
      ∀ y, ∃ᶠ j in atTop, ∃ p ∈ batches j, what p.1 p.2.1.toNat = y := by
  have hinf' : ∃ᶠ k in atTop, ∃ count, 0 < count ∧ ev k = .batch count :=
    hinf.mono fun k ⟨count, h⟩ => ⟨count, (hN k count h).1, h⟩
  filter_upwards [Starve.C167 ha hv hC hinf'] with x ⟨batches, h1, h2⟩
  have hsz : ∀ k, ∀ z ∈ sizes ((List.range k).map ev), 0 < z ∧ z ≤ N := by
    intro k z hz
    simp only [sizes, List.mem_filterMap, List.mem_map] at hz
    obtain ⟨_, ⟨i, -, rfl⟩, hi⟩ := hz
    refine hN i z ?_
    cases hev : ev i <;> rw [hev] at hi <;> simp at hi
    rw [hi]
  have hbig : ∀ j, ∃ k l, j ≤ l ∧ run alpha 1 x.1 x.2 ((List.range k).map ev) {} 0 = .ok ((List.range l).map batches) ∧
      ((List.range l).map batches).map List.length = sizes ((List.range k).map ev) := by
    intro j
    obtain ⟨k, -, hk, -⟩ := often hinf' j
    obtain ⟨l, hl1, hl2⟩ := h1 k
    refine ⟨k, l, ?_, hl1, hl2⟩
    have := congrArg List.length hl2
    simp only [List.length_map, List.length_range] at this
    rw [first] at hk
    omega
  refine ⟨batches, fun k => (h1 k).imp fun _ h => h.1, fun j => ?_, fun j => ?_, fun y => ?_⟩
  · obtain ⟨k, -, hk, -⟩ := often hinf' j
    obtain ⟨k', hk'⟩ := sizes_at ev hk
    obtain ⟨l, hl1, hl2⟩ := h1 k'
    have := congrArg List.length hl2
    rw [first] at hk'
    simp only [List.length_map, List.length_range] at this
    rw [this, hk'] at hl1
    exact ⟨k', hl1⟩
  · obtain ⟨k, l, hl, -, h⟩ := hbig (j + 1)
    have h3 := hsz k (batches j).length (by
      rw [← h]
      exact List.mem_map_of_mem (List.mem_map_of_mem (List.mem_range.2 (by omega))))
    exact ⟨List.length_pos_iff.1 h3.1, h3.2⟩
  · obtain ⟨id, len, o, hid, ho, hw⟩ := hall y.1 y.2
    exact (h2 id len hid o (by omega)).mono fun j hj => ⟨_, hj, hw⟩

/-- **C171**: Sequences come and go in a bounded memory. If all pairs of an observation and an action occur in sequences that stay, then learning from
batches that the coverage-based sampler draws tends, with probability one, to the best values. -/
theorem C171 {alpha : ℝ} (ha : 0 ≤ alpha) {ev : Nat → Event} (hv : ∀ k, Valid 1 ((List.range k).map ev) []) {C N : Nat}
    (hC : ∀ k, (Starve.Spec.after ((List.range k).map ev) []).values.sum ≤ C) (hinf : ∃ᶠ k in atTop, ∃ count, ev k = .batch count)
    (hN : ∀ k count, ev k = .batch count → 0 < count ∧ count ≤ N)
    (e : Env n m) {c : Setup} (hc : Usual c) {x0 : Learner n m} {t0 : Fin n → Fin (m + 1) → ℝ} (h0 : x0.target = table t0)
    {what : Int → Nat → Fin n × Fin (m + 1)}
    (hall : ∀ s a, ∃ (id : Int) (len o : Nat), (∀ᶠ k in atTop, (Starve.Spec.after ((List.range k).map ev) []).get? id = some len) ∧ o < len ∧
      what id o = (s, a)) :
    ∀ᵐ x ∂generators, ∃ (learner : Nat → Learner n m) (t : Nat → Fin n → Fin (m + 1) → ℝ) (batches : Nat → List SamplePoint),
      (∀ k, ∃ j, run alpha 1 x.1 x.2 ((List.range k).map ev) {} 0 = .ok ((List.range j).map batches) ∧
        train c (((List.range j).map batches).map (rowsOf e what)) x0 = .ok (learner j) ∧ (learner j).target = table (t j)) ∧
      (∀ j, ∃ k, run alpha 1 x.1 x.2 ((List.range k).map ev) {} 0 = .ok ((List.range j).map batches)) ∧
      ∀ s a v, Best (e.scale c.scale) c.gamma s a v →
        Tendsto (fun j => (learner j).net.value (s, a)) atTop (𝓝 v) ∧ Tendsto (fun j => t j s a) atTop (𝓝 v) := by
  filter_upwards [drawn_all ha hv hC hinf hN hall] with x ⟨batches, h1, h2, h3, h4⟩
  obtain ⟨learner, t, g1, g2⟩ := DqnRun.C157 e hc h0 (b := fun j => rowsOf e what (batches j))
    (fun j y hy => by
      obtain ⟨p, -, rfl⟩ := List.mem_map.1 hy
      exact ⟨_, _, rfl⟩)
    (N := N) (fun j => ⟨by simpa [rowsOf] using (h3 j).1, by simpa [rowsOf] using (h3 j).2⟩)
    (fun s a => (h4 (s, a)).mono fun j ⟨p, hp, hw⟩ => ⟨_, List.mem_map_of_mem hp, by simp [rowOf, hw], by simp [rowOf, hw]⟩)
  refine ⟨learner, t, batches, fun k => ?_, h2, g2⟩
  obtain ⟨j, hj⟩ := h1 k
  refine ⟨j, hj, ?_, (g1 j).2⟩
  rw [List.map_map]
  exact (g1 j).1

/-- The steps that the windows of a batch stand for -/
noncomputable def stepsOf (e : Env n m) (what : Int → Nat → Fin n × Fin (m + 1)) (b : List SamplePoint) :
    List (SacCritics.Spec.Rollout (Fin n) (Fin (m + 1))) :=
  b.map fun p => SacCritics.Spec.stepOf e (what p.1 p.2.1.toNat)

/-- C171 for the critics of soft actor-critic: they and their targets tend to the soft value of the policy. -/
theorem C171_sac {alpha : ℝ} (ha : 0 ≤ alpha) {ev : Nat → Event} (hv : ∀ k, Valid 1 ((List.range k).map ev) []) {C N : Nat}
    (hC : ∀ k, (Starve.Spec.after ((List.range k).map ev) []).values.sum ≤ C) (hinf : ∃ᶠ k in atTop, ∃ count, ev k = .batch count)
    (hN : ∀ k count, ev k = .batch count → 0 < count ∧ count ≤ N)
    (e : Env n m) {c : SacCritics.Setup (Fin n) (Fin (m + 1)) n m} (hc : SacCritics.Spec.Usual c) (hp : SacCritics.Spec.Plain c)
    {x0 : SacCritics.Learner n m} {t1 t2 : Fin n → Fin (m + 1) → ℝ} (ht1 : x0.q1t = table t1) (ht2 : x0.q2t = table t2)
    {what : Int → Nat → Fin n × Fin (m + 1)}
    (hall : ∀ s a, ∃ (id : Int) (len o : Nat), (∀ᶠ k in atTop, (Starve.Spec.after ((List.range k).map ev) []).get? id = some len) ∧ o < len ∧
      what id o = (s, a)) :
    ∀ᵐ x ∂generators, ∃ (learner : Nat → SacCritics.Learner n m) (u1 u2 : Nat → Fin n → Fin (m + 1) → ℝ) (batches : Nat → List SamplePoint),
      (∀ k, ∃ j, run alpha 1 x.1 x.2 ((List.range k).map ev) {} 0 = .ok ((List.range j).map batches) ∧
        SacCritics.train c (((List.range j).map batches).map fun b => SacCritics.Spec.batchOf (stepsOf e what b)) x0 = .ok (learner j) ∧
        (learner j).q1t = table (u1 j) ∧ (learner j).q2t = table (u2 j)) ∧
      (∀ j, ∃ k, run alpha 1 x.1 x.2 ((List.range k).map ev) {} 0 = .ok ((List.range j).map batches)) ∧
      ∀ s a, ∃ v, SacCritics.Spec.Value e c s a v ∧
        Tendsto (fun j => (learner j).q1.value (s, a)) atTop (𝓝 v) ∧ Tendsto (fun j => (learner j).q2.value (s, a)) atTop (𝓝 v) ∧
        Tendsto (fun j => u1 j s a) atTop (𝓝 v) ∧ Tendsto (fun j => u2 j s a) atTop (𝓝 v) := by
  filter_upwards [drawn_all ha hv hC hinf hN hall] with x ⟨batches, h1, h2, h3, h4⟩
  obtain ⟨learner, u1, u2, g1, g2⟩ := SacCritics.C164 e hc hp ht1 ht2 (l := fun j => (batches j).map fun p => what p.1 p.2.1.toNat)
    (N := N) (fun j => ⟨by simpa using (h3 j).1, by simpa using (h3 j).2⟩)
    (fun y => (h4 y).mono fun j ⟨p, hp, hw⟩ => List.mem_map.2 ⟨p, hp, hw⟩)
  refine ⟨learner, u1, u2, batches, fun k => ?_, h2, g2⟩
  obtain ⟨j, hj⟩ := h1 k
  refine ⟨j, hj, ?_, (g1 j).2⟩
  rw [List.map_map, ← (g1 j).1]
  congr 1
  refine List.map_congr_left fun i _ => ?_
  simp [stepsOf, List.map_map, Function.comp_def]

/-! ## A concrete case -/

namespace Ex

/-- A sequence of five steps stays; its last four steps show all pairs. Another one comes and goes. -/
def what (id : Int) (o : Nat) : Fin 2 × Fin 2 :=
  if id = 7 then (if o = 1 then (0, 0) else if o = 2 then (0, 1) else if o = 3 then (1, 0) else (1, 1)) else (0, 0)

/-- The table learns that action 0 in the first observation is worth 1/4 and action 1 is worth 1/2. -/
example : ∀ᵐ x ∂generators, ∃ (learner : Nat → Learner 2 1) (batches : Nat → List SamplePoint),
    (∀ k, ∃ j, run 2 1 x.1 x.2 ((List.range k).map Starve.Ex.ev) {} 0 = .ok ((List.range j).map batches) ∧
      train DqnRun.Ex.setup (((List.range j).map batches).map (rowsOf Dqn.Ex.env what)) DqnRun.Ex.start = .ok (learner j)) ∧
    Tendsto (fun j => (learner j).net.value (0, 0)) atTop (𝓝 (1 / 4)) ∧ Tendsto (fun j => (learner j).net.value (0, 1)) atTop (𝓝 (1 / 2)) := by
  have hinv := fun k => Starve.Ex.invariant (tc := 1) (by norm_num) k
  simp only [first] at hinv
  have hstay : ∀ᶠ k in atTop, (Starve.Spec.after ((List.range k).map Starve.Ex.ev) []).get? 7 = some 5 := by
    filter_upwards [eventually_ge_atTop 1] with k hk
    rw [(hinv k).2, if_neg (by omega)]
    split <;> simp [Dict.get?]
  filter_upwards [C171 (alpha := 2) (by norm_num) (ev := Starve.Ex.ev) (fun k => (hinv k).1) (C := 8) (N := 1)
    (fun k => by
      rw [(hinv k).2]
      split
      · simp [Dict.values]
      · split <;> simp [Dict.values])
    (by
      rw [frequently_atTop]
      exact fun k => ⟨3 * k + 2, by omega, 1, by
        rw [Starve.Ex.ev, if_neg (by omega), show (3 * k + 2) % 3 = 2 by omega]; rfl⟩)
    (fun k count h => by
      unfold Starve.Ex.ev at h
      split at h
      · simp at h
      · split at h <;> simp at h
        omega)
    Dqn.Ex.env DqnRun.Ex.usual (show DqnRun.Ex.start.target = table (fun (_ : Fin 2) (_ : Fin 2) => (-5 : ℝ)) from rfl) (what := what)
    (fun s a => by
      fin_cases s <;> fin_cases a
      · exact ⟨7, 5, 1, hstay, by norm_num, by decide +kernel⟩
      · exact ⟨7, 5, 2, hstay, by norm_num, by decide +kernel⟩
      · exact ⟨7, 5, 3, hstay, by norm_num, by decide +kernel⟩
      · exact ⟨7, 5, 4, hstay, by norm_num, by decide +kernel⟩)] with x hx
  obtain ⟨learner, t, batches, h1, -, h2⟩ := hx
  have he : Dqn.Ex.env.scale DqnRun.Ex.setup.scale = Dqn.Ex.env := by simp [Env.scale, DqnRun.Ex.setup]
  rw [he] at h2
  refine ⟨learner, batches, fun k => ?_, (h2 0 0 _ ?_).1, (h2 0 1 _ ?_).1⟩
  · obtain ⟨j, g1, g2, -⟩ := h1 k
    exact ⟨j, g1, g2⟩
  · simpa [Dqn.Ex.best, DqnRun.Ex.setup] using Dqn.fixed_best Dqn.Ex.env (g := 1 / 2) (by norm_num) (by norm_num) Dqn.Ex.fixed 0 0
  · simpa [Dqn.Ex.best, DqnRun.Ex.setup] using Dqn.fixed_best Dqn.Ex.env (g := 1 / 2) (by norm_num) (by norm_num) Dqn.Ex.fixed 0 1

/-- Both critics learn that action 0 is worth 3 and action 1 is worth 11. -/
example : ∀ᵐ x ∂generators, ∃ (learner : Nat → SacCritics.Learner 1 1) (batches : Nat → List SamplePoint),
    (∀ k, ∃ j, run 2 1 x.1 x.2 ((List.range k).map Starve.Ex.ev) {} 0 = .ok ((List.range j).map batches) ∧
      SacCritics.train SacCritics.ExEnv.setup (((List.range j).map batches).map fun b =>
        SacCritics.Spec.batchOf (stepsOf SacCritics.ExEnv.env (fun id o => (0, (what id o).2)) b)) SacCritics.ExEnv.start = .ok (learner j)) ∧
    Tendsto (fun j => (learner j).q1.value (0, 0)) atTop (𝓝 3) ∧ Tendsto (fun j => (learner j).q2.value (0, 1)) atTop (𝓝 11) := by
  have hinv := fun k => Starve.Ex.invariant (tc := 1) (by norm_num) k
  simp only [first] at hinv
  have hstay : ∀ᶠ k in atTop, (Starve.Spec.after ((List.range k).map Starve.Ex.ev) []).get? 7 = some 5 := by
    filter_upwards [eventually_ge_atTop 1] with k hk
    rw [(hinv k).2, if_neg (by omega)]
    split <;> simp [Dict.get?]
  filter_upwards [C171_sac (alpha := 2) (by norm_num) (ev := Starve.Ex.ev) (fun k => (hinv k).1) (C := 8) (N := 1)
    (fun k => by
      rw [(hinv k).2]
      split
      · simp [Dict.values]
      · split <;> simp [Dict.values])
    (by
      rw [frequently_atTop]
      exact fun k => ⟨3 * k + 2, by omega, 1, by
        rw [Starve.Ex.ev, if_neg (by omega), show (3 * k + 2) % 3 = 2 by omega]; rfl⟩)
    (fun k count h => by
      unfold Starve.Ex.ev at h
      split at h
      · simp at h
      · split at h <;> simp at h
        omega)
    SacCritics.ExEnv.env SacCritics.ExEnv.usual ⟨fun _ _ => rfl, fun _ _ => rfl, rfl⟩ (x0 := SacCritics.ExEnv.start) (t1 := fun _ _ => -5)
    (t2 := fun _ _ => 8) rfl rfl (what := fun id o => (0, (what id o).2))
    (fun s a => by
      fin_cases s
      fin_cases a
      · exact ⟨7, 5, 1, hstay, by norm_num, by decide +kernel⟩
      · exact ⟨7, 5, 2, hstay, by norm_num, by decide +kernel⟩)] with x hx
  obtain ⟨learner, u1, u2, batches, h1, -, h2⟩ := hx
  refine ⟨learner, batches, fun k => ?_, ?_, ?_⟩
  · obtain ⟨j, g1, g2, -⟩ := h1 k
    exact ⟨j, g1, g2⟩
  · obtain ⟨x, hx, h1, -⟩ := h2 0 0
    rw [tendsto_nhds_unique hx (SacCritics.ExEnv.values 0 0)] at h1
    simpa using h1
  · obtain ⟨x, hx, -, h2, -⟩ := h2 0 1
    rw [tendsto_nhds_unique hx (SacCritics.ExEnv.values 0 1)] at h2
    simpa using h2

end Ex

end DqnCoverage

end Verif.Props
