import Verif.Props.DqnMemory
import Verif.Props.SacEnv

/-!
# C164: soft actor-critic from a memory
-/

namespace Verif.Props

namespace SacMemory

open Verif Verif.Spec MeasureTheory Filter RealDraws BatchMean RowMean
open Verif.SacCritics (Setup Learner train Batch)
open Verif.SacCritics.Spec (Rollout batchOf stepOf Usual Plain Value)
open Verif.Dqn.Spec (Env table)
open DqnMemory (batches_of often)
open scoped Topology

variable {V : Type u} {n m : Nat}

/-! ## Specification -/

/-- What is trained with: the rows of a batch from the memory, each read by `read` -/
def readBatch (columns : Dict String ColKind) (count : Nat) (read : Dict String (List (Cell V)) → Rollout (Fin n) (Fin (m + 1)))
    (out : Dict String (List (Cell V))) : Batch (Fin n) (Fin (m + 1)) :=
  batchOf ((List.range count).map fun k => read (part columns 1 out k))

/-- All stored transitions were made in the environment, and each action is stored for each observation. -/
structure Covers (e : Env n m) (columns : Dict String ColKind) (read : Dict String (List (Cell V)) → Rollout (Fin n) (Fin (m + 1)))
    (q : List (Spec.Entry V)) : Prop where
  made : ∀ ep ∈ q, ∀ i < ep.len, ∃ x, read (shown columns ep i 1) = stepOf e x
  all : ∀ x : Fin n × Fin (m + 1), ∃ ep ∈ q, ∃ i < ep.len, read (shown columns ep i 1) = stepOf e x

/-! ## Proofs -/

theorem stepOf_injective (e : Env n m) {x y : Fin n × Fin (m + 1)} (h : stepOf e x = stepOf e y) : x = y := by
  simp only [stepOf, Rollout.mk.injEq, List.cons.injEq, SacCritics.Row.mk.injEq] at h
  exact Prod.ext h.1.1.1 h.1.1.2.1

section
variable {columns : List Column} {maxlen : Int} {lk : String} {ops : List (Op V)} {t : Table V} {q : List (Spec.Entry V)}
  (h : Hist columns maxlen lk ops t q) (hw : WellTargeted columns) (hep : ∀ e ∈ q, EpisodeOk columns e)
  (hlong : ∀ e ∈ q, 1 ≤ e.len) (hne : q ≠ [])
  {s : Uniform} (hs : t.sampler = .uniform s) (hfit : ∀ id ∈ t.lengths.keys, -2 ^ 63 ≤ id ∧ id < 2 ^ 63)
include h hw hep hlong hne hs hfit

theorem learns (e : Env n m) {c : Setup (Fin n) (Fin (m + 1)) n m} (hc : Usual c) (hp : Plain c) {x0 : Learner n m}
    {t1 t2 : Fin n → Fin (m + 1) → ℝ} (h1 : x0.q1t = table t1) (h2 : x0.q2t = table t2)
    {read : Dict String (List (Cell V)) → Rollout (Fin n) (Fin (m + 1))} (hcov : Covers e t.columns read q) {count : Nat}
    (hcount : 0 < count) (junk : Nat → String → Nat → Cell V) (i : Nat) :
    ∀ᵐ w ∂generators, ∃ (run : Nat → Learner n m) (u1 u2 : Nat → Fin n → Fin (m + 1) → ℝ),
      (∀ k, ∃ outs, Verif.RealDraws.tableSamples count 1 w.1 w.2 junk k t i = .ok outs ∧
        train c (outs.map (readBatch t.columns count read)) x0 = .ok (run k) ∧ (run k).q1t = table (u1 k) ∧
        (run k).q2t = table (u2 k)) ∧
      ∀ s a, ∃ x, Value e c s a x ∧
        Tendsto (fun k => (run k).q1.value (s, a)) atTop (𝓝 x) ∧ Tendsto (fun k => (run k).q2.value (s, a)) atTop (𝓝 x) ∧
        Tendsto (fun k => u1 k s a) atTop (𝓝 x) ∧ Tendsto (fun k => u2 k s a) atTop (𝓝 x) := by
  have hoft : ∀ᵐ w ∂generators, ∀ x : Fin n × Fin (m + 1), ∀ b : Nat → Nat → Dict String (List (Cell V)),
      (∀ mm, ∃ outs, Verif.RealDraws.tableSamples count 1 w.1 w.2 junk mm t i = .ok outs ∧ outs.length = mm ∧
        ∀ j (hj : j < outs.length), ∀ k < count, part t.columns 1 outs[j] k = b j k) →
      ∃ᶠ j in atTop, ∃ k < count, read (b j k) = stepOf e x :=
    ae_all_iff.2 fun x => often h hw hep hlong hne hs hfit hcount junk i (fun d => read d = stepOf e x) (hcov.all x)
  filter_upwards [hoft, ae_generators] with w hw1 hw2
  obtain ⟨b, hb1, hb2⟩ := batches_of h hw hep hlong hne hs hfit (fun k => (hw2 k).1) (fun k => (hw2 k).2) count junk i
  have hmade : ∀ j k, ∃ x, read (b j k) = stepOf e x := by
    intro j k
    obtain ⟨ep, hep', i, hi, hbe⟩ := hb1 j k
    rw [hbe]
    exact hcov.made ep hep' i hi
  choose x hx using hmade
  obtain ⟨run, u1, u2, g1, g2⟩ := SacCritics.C164 e hc hp h1 h2 (l := fun j => (List.range count).map fun k => x j k) (N := count)
    (fun j => ⟨by simp; omega, by simp⟩)
    (fun y => (hw1 y b hb2).mono fun j ⟨k, hk, hr⟩ =>
      List.mem_map.2 ⟨k, List.mem_range.2 hk, stepOf_injective e ((hx j k).symm.trans hr)⟩)
  refine ⟨run, u1, u2, fun k => ?_, g2⟩
  obtain ⟨outs, f1, f2, f3⟩ := hb2 k
  refine ⟨outs, f1, ?_, (g1 k).2⟩
  rw [← (g1 k).1]
  congr 1
  refine List.ext_getElem (by simp [f2]) fun j hj hj' => ?_
  simp only [List.getElem_map, List.getElem_range, readBatch, List.map_map]
  congr 1
  refine List.map_congr_left fun k' hk' => ?_
  rw [f3 j (by simpa using hj) k' (List.mem_range.1 hk'), hx]
  rfl

end

/-- C164: trained on batches that the uniform sampler draws from a memory which holds each action for each observation, the critics and
their targets tend almost surely to the soft value of the policy, whatever they begin with and however the memory was filled. -/
theorem C164_memory {columns : List Column} {maxlen : Int} {lk : String} {t0 t : Table V} {ops : List (Op V)}
    (hc : Created columns maxlen lk t0) (hr : Run t0 ops t) (hw : WellTargeted columns)
    (hep : ∀ e ∈ added (acts lk ops), EpisodeOk columns e) {s : Uniform} (hs : t.sampler = .uniform s) {count : Nat}
    (hcount : 0 < count) (hne : t.lengths ≠ []) (hlong : ∀ p ∈ t.lengths, 1 ≤ p.2)
    (hfit : ∀ id ∈ t.lengths.keys, -2 ^ 63 ≤ id ∧ id < 2 ^ 63)
    (e : Env n m) {c : Setup (Fin n) (Fin (m + 1)) n m} (hu : Usual c) (hp : Plain c) {x0 : Learner n m}
    {t1 t2 : Fin n → Fin (m + 1) → ℝ} (h1 : x0.q1t = table t1) (h2 : x0.q2t = table t2)
    {read : Dict String (List (Cell V)) → Rollout (Fin n) (Fin (m + 1))} (junk : Nat → String → Nat → Cell V) (i : Nat) :
    ∃ q : List (Spec.Entry V), q.Sublist (added (acts lk ops)) ∧ q.map (fun e => (e.id, e.len)) = t.lengths ∧ (∀ e ∈ q, Holds t e) ∧
      (Covers e t.columns read q → ∀ᵐ w ∂generators, ∃ (run : Nat → Learner n m) (u1 u2 : Nat → Fin n → Fin (m + 1) → ℝ),
      (∀ k, ∃ outs, Verif.RealDraws.tableSamples count 1 w.1 w.2 junk k t i = .ok outs ∧
        train c (outs.map (readBatch t.columns count read)) x0 = .ok (run k) ∧ (run k).q1t = table (u1 k) ∧
        (run k).q2t = table (u2 k)) ∧
      ∀ s a, ∃ x, Value e c s a x ∧
        Tendsto (fun k => (run k).q1.value (s, a)) atTop (𝓝 x) ∧ Tendsto (fun k => (run k).q2.value (s, a)) atTop (𝓝 x) ∧
        Tendsto (fun k => u1 k s a) atTop (𝓝 x) ∧ Tendsto (fun k => u2 k s a) atTop (𝓝 x)) := by
  obtain ⟨q, h⟩ := run_hist hc hr
  have hq : q ≠ [] := by
    rintro rfl
    exact hne h.inv.lengths
  have hep' : ∀ e ∈ q, EpisodeOk columns e := fun e he => hep e (h.sub.subset he)
  exact ⟨q, h.sub, h.inv.lengths.symm, fun e he => holds_of_mem h he, fun hcov =>
    learns h hw hep' (long_of_stored h hlong) hq hs hfit e hu hp h1 h2 hcov hcount junk i⟩

/-- C164 with FIFO ejection: the memory holds the latest episodes that fit. -/
theorem C164_fifo {columns : List Column} {maxlen : Int} {lk : String} {t0 t : Table V} {ops : List (Op V)}
    (hc : Created columns maxlen lk t0) {f : Fifo} (hf : t0.ejector = .fifo f) (hr : Run t0 ops t) (hw : WellTargeted columns)
    (hep : ∀ e ∈ added (acts lk ops), EpisodeOk columns e) {s : Uniform} (hs : t.sampler = .uniform s) {count : Nat}
    (hcount : 0 < count) (hne : t.lengths ≠ []) (hlong : ∀ p ∈ t.lengths, 1 ≤ p.2)
    (hfit : ∀ id ∈ t.lengths.keys, -2 ^ 63 ≤ id ∧ id < 2 ^ 63)
    (e : Env n m) {c : Setup (Fin n) (Fin (m + 1)) n m} (hu : Usual c) (hp : Plain c) {x0 : Learner n m}
    {t1 t2 : Fin n → Fin (m + 1) → ℝ} (h1 : x0.q1t = table t1) (h2 : x0.q2t = table t2)
    {read : Dict String (List (Cell V)) → Rollout (Fin n) (Fin (m + 1))} (junk : Nat → String → Nat → Cell V) (i : Nat)
    (hcov : Covers e t.columns read (queueAfter maxlen (acts lk ops)).2) :
    ∀ᵐ w ∂generators, ∃ (run : Nat → Learner n m) (u1 u2 : Nat → Fin n → Fin (m + 1) → ℝ),
      (∀ k, ∃ outs, Verif.RealDraws.tableSamples count 1 w.1 w.2 junk k t i = .ok outs ∧
        train c (outs.map (readBatch t.columns count read)) x0 = .ok (run k) ∧ (run k).q1t = table (u1 k) ∧
        (run k).q2t = table (u2 k)) ∧
      ∀ s a, ∃ x, Value e c s a x ∧
        Tendsto (fun k => (run k).q1.value (s, a)) atTop (𝓝 x) ∧ Tendsto (fun k => (run k).q2.value (s, a)) atTop (𝓝 x) ∧
        Tendsto (fun k => u1 k s a) atTop (𝓝 x) ∧ Tendsto (fun k => u2 k s a) atTop (𝓝 x) := by
  have h := (run_fifo hc (by rw [hf]; rfl) hr).1
  have hq : (queueAfter maxlen (acts lk ops)).2 ≠ [] := by
    intro hq
    apply hne
    rw [h.inv.lengths, hq]
    rfl
  have hep' : ∀ e ∈ (queueAfter maxlen (acts lk ops)).2, EpisodeOk columns e := fun e he => hep e (h.sub.subset he)
  exact learns h hw hep' (long_of_stored h hlong) hq hs hfit e hu hp h1 h2 hcov hcount junk i

namespace Ex

open Verif.SacCritics.ExEnv (env setup usual start values)

/-- A stored number stands for action 0 if it is odd, and for action 1 otherwise. -/
noncomputable def read (d : Dict String (List (Cell Nat))) : Rollout (Fin 1) (Fin 2) :=
  match d.get? "obs" with
  | some (.row x :: _) => stepOf env (0, if x % 2 = 1 then 0 else 1)
  | _ => stepOf env (0, 0)

theorem reads (e : Spec.Entry Nat) (s x : Nat) (l : List Nat) (hx : (e.rows "obs").drop s = x :: l) :
    read (shown ExW.t2.columns e s 1) = stepOf env (0, if x % 2 = 1 then 0 else 1) := by
  have hcol : ExW.t2.columns = ExW.cols.map fun c => (c.name, c.kind) := by decide +kernel
  have : (shown ExW.t2.columns e s 1).get? "obs" = some ((((e.rows "obs").drop s).take 1).map .row) := by
    rw [hcol]
    rfl
  unfold read
  rw [this, hx]
  rfl

theorem covers : Covers env ExW.t2.columns read (queueAfter 5 (acts "actions" ExW.ops)).2 := by
  rw [RowMean.Ex.stored]
  constructor
  · intro ep hep i hi
    simp only [List.mem_cons, List.not_mem_nil, or_false] at hep
    rcases hep with rfl | rfl
    · simp only [entryOf] at hi
      interval_cases i
      · exact ⟨_, reads _ 0 1 [2, 3] rfl⟩
      · exact ⟨_, reads _ 1 2 [3] rfl⟩
    · simp only [entryOf] at hi
      interval_cases i
      · exact ⟨_, reads _ 0 4 [5, 6, 7] rfl⟩
      · exact ⟨_, reads _ 1 5 [6, 7] rfl⟩
      · exact ⟨_, reads _ 2 6 [7] rfl⟩
  · rintro ⟨s, a⟩
    fin_cases s
    fin_cases a
    · exact ⟨_, by simp, 0, by decide, reads (entryOf 7 2 (ExW.ep [10, 11] [1, 2, 3])) 0 1 [2, 3] rfl⟩
    · exact ⟨_, by simp, 1, by decide, reads (entryOf 7 2 (ExW.ep [10, 11] [1, 2, 3])) 1 2 [3] rfl⟩

/-- With a memory of two episodes, both critics learn that action 0 is worth 3 and action 1 is worth 11. -/
example (count : Nat) (hc : 0 < count) (i : Nat) (junk : Nat → String → Nat → Cell Nat) :
    ∀ᵐ w ∂generators, ∃ run : Nat → Learner 1 1,
      (∀ k, ∃ outs, Verif.RealDraws.tableSamples count 1 w.1 w.2 junk k ExW.t2 i = .ok outs ∧
        train setup (outs.map (readBatch ExW.t2.columns count read)) start = .ok (run k)) ∧
      Tendsto (fun k => (run k).q1.value (0, 0)) atTop (𝓝 3) ∧ Tendsto (fun k => (run k).q2.value (0, 1)) atTop (𝓝 11) := by
  filter_upwards [C164_fifo ExW.created (f := {}) (by decide +kernel) ExW.run ExW.targeted ExW.episodes (s := _) rfl hc (by decide +kernel)
    (by decide +kernel) (by decide +kernel) env usual ⟨fun _ _ => rfl, fun _ _ => rfl, rfl⟩ (x0 := start) (t1 := fun _ _ => -5)
    (t2 := fun _ _ => 8) rfl rfl junk i covers] with w hw
  obtain ⟨run, u1, u2, hrun, hlim⟩ := hw
  refine ⟨run, fun k => ?_, ?_, ?_⟩
  · obtain ⟨outs, g1, g2, -⟩ := hrun k
    exact ⟨outs, g1, g2⟩
  · obtain ⟨x, hx, h1, -⟩ := hlim 0 0
    rw [tendsto_nhds_unique hx (values 0 0)] at h1
    simpa using h1
  · obtain ⟨x, hx, -, h2, -⟩ := hlim 0 1
    rw [tendsto_nhds_unique hx (values 0 1)] at h2
    simpa using h2

example := C164_memory (n := 1) (m := 1) ExW.created ExW.run ExW.targeted ExW.episodes (s := _) rfl (count := 4) (by decide)
  (by decide +kernel) (by decide +kernel) (by decide +kernel) env usual ⟨fun _ _ => rfl, fun _ _ => rfl, rfl⟩ (x0 := start)
  (t1 := fun _ _ => -5) (t2 := fun _ _ => 8) rfl rfl (read := read) (fun _ _ _ => .row 0) 0

end Ex

end SacMemory

end Verif.Props
