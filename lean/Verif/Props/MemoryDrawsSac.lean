import Verif.Props.MemoryDraws
import Verif.Props.SacMemory

/-!
# C173 for soft actor-critic
-/

namespace Verif.Props

namespace MemoryDraws

open Verif Verif.Spec MeasureTheory Filter
open Verif.Props.RealDraws (generators)
open Verif.Props.RowMean
open Verif.MemoryDraws (Call run)
open Verif.SacCritics (Setup Learner train)
open Verif.SacCritics.Spec (Rollout stepOf Usual Plain Value)
open Verif.Dqn.Spec (Env table)
open Verif.Props.SacMemory (readBatch stepOf_injective)
open scoped Topology

/-- **C173**, for the critics of soft actor-critic while episodes come and go: they tend to the soft value of the policy. -/
theorem C173_sac {V : Type} {n m : Nat} {columns : List Column} {maxlen : Int} {lk : String} {t0 : Table V} (hc : Created columns maxlen lk t0) {f : Fifo}
    (hf : t0.ejector = .fifo f) {s : Uniform} (hs : t0.sampler = .uniform s) (hw : WellTargeted columns)
    {call : Nat → Call V} (hp : Proper columns maxlen lk t0 1 call) (junk : Nat → String → Nat → Cell V) {count : Nat} (hcount : 0 < count)
    (hsize : ∀ k c, call k = .batch c → c = count) (hinf : ∃ᶠ k in atTop, call k = .batch count)
    (e : Env n m) {c : Setup (Fin n) (Fin (m + 1)) n m} (hu : Usual c) (hpl : Plain c) {x0 : Learner n m}
    {t1 t2 : Fin n → Fin (m + 1) → ℝ} (h1 : x0.q1t = table t1) (h2 : x0.q2t = table t2)
    {read : Dict String (List (Cell V)) → Rollout (Fin n) (Fin (m + 1))}
    (hmade : ∀ k, call k = .batch count → ∀ ep ∈ held maxlen lk call k, ∀ i < ep.len, ∃ x, read (shown t0.columns ep i 1) = stepOf e x)
    (hall : ∀ x : Fin n × Fin (m + 1), ∃ᶠ k in atTop, call k = .batch count ∧ ∃ ep ∈ held maxlen lk call k, ∃ i < ep.len,
      read (shown t0.columns ep i 1) = stepOf e x) :
    ∀ᵐ w ∂generators, ∃ (learner : Nat → Learner n m) (u1 u2 : Nat → Fin n → Fin (m + 1) → ℝ),
      (∀ k, ∃ t outs, run 1 w.1 w.2 junk t0 call k = .ok (t, (drawn call k).sum, outs) ∧
        train c (outs.map (readBatch t0.columns count read)) x0 = .ok (learner k) ∧ (learner k).q1t = table (u1 k) ∧
        (learner k).q2t = table (u2 k)) ∧
      ∀ s a, ∃ x, Value e c s a x ∧
        Tendsto (fun k => (learner k).q1.value (s, a)) atTop (𝓝 x) ∧ Tendsto (fun k => (learner k).q2.value (s, a)) atTop (𝓝 x) ∧
        Tendsto (fun k => u1 k s a) atTop (𝓝 x) ∧ Tendsto (fun k => u2 k s a) atTop (𝓝 x) := by
  have hinf' : ∃ᶠ k in atTop, ∃ count, call k = .batch count := hinf.mono fun k hk => ⟨_, hk⟩
  filter_upwards [C173 hc hf hs hw Nat.one_pos hp junk (ι := Fin n × Fin (m + 1)) (P := fun i _ d => read d = stepOf e i)
    (fun i => (hall i).mono fun k ⟨h1, ep, h2, o, h3, h4⟩ => ⟨count, hcount, h1, ep, h2, o, h3, h4⟩)] with w hw'
  obtain ⟨batches, b1, b2, b3⟩ := hw'
  have hx : ∀ j k, ∃ x, k < count → read (part t0.columns 1 (batches j) k) = stepOf e x := by
    intro j k
    by_cases hk : k < count
    · obtain ⟨kk, c', hcall, rfl⟩ := exists_call hinf' j
      obtain rfl := hsize kk c' hcall
      obtain ⟨ep, hep, o, ho, hsh⟩ := b2 kk c' hcall k hk
      obtain ⟨x, hx⟩ := hmade kk hcall ep hep o ho
      exact ⟨x, fun _ => by rw [hsh, hx]⟩
    · obtain ⟨kk, c', hcall, rfl⟩ := exists_call hinf' j
      obtain rfl := hsize kk c' hcall
      obtain ⟨ep, hep, o, ho, -⟩ := b2 kk c' hcall 0 hcount
      obtain ⟨x, -⟩ := hmade kk hcall ep hep o ho
      exact ⟨x, fun h => absurd h hk⟩
  choose x hx using hx
  obtain ⟨learner, u1, u2, g1, g2⟩ := SacCritics.C164 e hu hpl h1 h2 (l := fun j => (List.range count).map fun k => x j k) (N := count)
    (fun j => ⟨by simp; omega, by simp⟩)
    (fun y => (b3 y).mono fun j ⟨kk, c', hcall, _, k, hk, hr⟩ => by
      obtain rfl := hsize kk c' hcall
      exact List.mem_map.2 ⟨k, List.mem_range.2 hk, stepOf_injective e ((hx j k hk).symm.trans hr)⟩)
  refine ⟨fun k => learner (drawn call k).length, fun k => u1 (drawn call k).length, fun k => u2 (drawn call k).length, fun k => ?_, fun s a => ?_⟩
  · obtain ⟨t, ht⟩ := b1 k
    refine ⟨t, _, ht, ?_, (g1 _).2⟩
    rw [← (g1 _).1, List.map_map]
    congr 1
    refine List.map_congr_left fun j _ => ?_
    simp only [Function.comp, readBatch, List.map_map]
    congr 1
    refine List.map_congr_left fun k' hk' => ?_
    rw [hx j k' (List.mem_range.1 hk')]
    rfl
  · obtain ⟨y, hy, k1, k2, k3, k4⟩ := g2 s a
    have ht := drawn_tendsto hinf'
    exact ⟨y, hy, k1.comp ht, k2.comp ht, k3.comp ht, k4.comp ht⟩

/-! ## A concrete case -/

namespace Ex

open Verif.SacCritics.ExEnv (env setup usual start values)

theorem reads_sac (e : Spec.Entry Nat) (s x : Nat) (l : List Nat) (hx : (e.rows "obs").drop s = x :: l) :
    SacMemory.Ex.read (shown ExW.t0.columns e s 1) = stepOf env (0, if x % 2 = 1 then 0 else 1) := by
  have : ExW.t0.columns = ExW.t2.columns := by decide +kernel
  rw [this]
  exact SacMemory.Ex.reads e s x l hx

/-- The memory never has more than one of the two episodes; the first critic learns that action 0 is worth 3. -/
example (junk : Nat → String → Nat → Cell Nat) : ∀ᵐ w ∂generators, ∃ learner : Nat → Learner 1 1,
    (∀ k, ∃ t outs, run 1 w.1 w.2 junk ExW.t0 call k = .ok (t, (drawn call k).sum, outs) ∧
      train setup (outs.map (readBatch ExW.t0.columns 2 SacMemory.Ex.read)) start = .ok (learner k)) ∧
    Tendsto (fun k => (learner k).q1.value (0, 0)) atTop (𝓝 3) := by
  have htwo : ∀ k c, call k = .batch c → c = 2 := by
    intro k c h
    unfold call at h
    split at h
    · cases h
    · split at h
      · cases h
      · cases h; rfl
  filter_upwards [C173_sac ExW.created (f := {}) (by decide +kernel) (s := _) rfl ExW.targeted proper junk (count := 2) (by decide) htwo
    ((often 1).mono fun k ⟨j, hj⟩ => by rw [hj, call1]) env usual ⟨fun _ _ => rfl, fun _ _ => rfl, rfl⟩ (x0 := start) (t1 := fun _ _ => -5)
    (t2 := fun _ _ => 8) rfl rfl (read := SacMemory.Ex.read) (by
      intro k h ep hep i hi
      have hor : ep = ea ∨ ep = eb := by
        obtain ⟨j, hj | hj | hj | hj⟩ : ∃ j, k = 4 * j ∨ k = 4 * j + 1 ∨ k = 4 * j + 2 ∨ k = 4 * j + 3 := ⟨k / 4, by omega⟩ <;> subst hj
        · rw [call0] at h; cases h
        · rw [(helds j).2.1] at hep; left; simpa using hep
        · rw [call2] at h; cases h
        · rw [(helds j).2.2.2] at hep; right; simpa using hep
      rcases hor with rfl | rfl
      · have hi' : i < 3 := hi
        interval_cases i
        · exact ⟨_, reads_sac _ 0 1 [2, 3, 9] rfl⟩
        · exact ⟨_, reads_sac _ 1 2 [3, 9] rfl⟩
        · exact ⟨_, reads_sac _ 2 3 [9] rfl⟩
      · have hi' : i < 3 := hi
        interval_cases i
        · exact ⟨_, reads_sac _ 0 4 [5, 6, 7] rfl⟩
        · exact ⟨_, reads_sac _ 1 5 [6, 7] rfl⟩
        · exact ⟨_, reads_sac _ 2 6 [7] rfl⟩) (by
      rintro ⟨s, a⟩
      have ha : ∀ j, ea ∈ held 5 "actions" call (4 * j + 1) := fun j => by rw [(helds j).2.1]; simp
      have hb : ∀ j, eb ∈ held 5 "actions" call (4 * j + 3) := fun j => by rw [(helds j).2.2.2]; simp
      fin_cases s
      fin_cases a
      · exact (often 1).mono fun k ⟨j, hj⟩ => by subst hj; exact ⟨call1 j, ea, ha j, 0, by decide, reads_sac ea 0 1 [2, 3, 9] rfl⟩
      · exact (often 3).mono fun k ⟨j, hj⟩ => by subst hj; exact ⟨call3 j, eb, hb j, 0, by decide, reads_sac eb 0 4 [5, 6, 7] rfl⟩)] with w hw
  obtain ⟨learner, u1, u2, hrun, hlim⟩ := hw
  refine ⟨learner, fun k => ?_, ?_⟩
  · obtain ⟨t, outs, g1, g2, -⟩ := hrun k
    exact ⟨t, outs, g1, g2⟩
  · obtain ⟨x, hx, h1, -⟩ := hlim 0 0
    rw [tendsto_nhds_unique hx (values 0 0)] at h1
    simpa using h1

end Ex

end MemoryDraws

end Verif.Props
