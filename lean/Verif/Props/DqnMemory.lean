import Verif.Props.DqnRun
import Verif.Props.RowMean

/-!
# C157: Q-learning from a memory
-/

namespace Verif.Props

namespace DqnMemory

open Verif Verif.Spec MeasureTheory Filter RealDraws BatchMean RowMean
open Verif.DqnRun (Setup Learner train)
open Verif.DqnRun.Spec (rowOf Usual Made Tried)
open Verif.Dqn.Spec (Env Best table)
open Verif.Dqn (Sample)
open scoped Topology

variable {V : Type u} {n m : Nat}

/-! ## Specification -/

/-- What is trained with: the rows of a batch from the memory, each read by `read` -/
def batchOf (columns : Dict String ColKind) (count : Nat) (read : Dict String (List (Cell V)) → Sample ℝ)
    (out : Dict String (List (Cell V))) : List (Sample ℝ) := (List.range count).map fun k => read (part columns 1 out k)

/-- All stored transitions were made in the environment, and each action is stored for each observation. -/
structure Covers (e : Env n m) (columns : Dict String ColKind) (read : Dict String (List (Cell V)) → Sample ℝ)
    (q : List (Spec.Entry V)) : Prop where
  made : ∀ ep ∈ q, ∀ i < ep.len, ∃ s a, read (shown columns ep i 1) = rowOf e s a
  all : ∀ (s : Fin n) (a : Fin (m + 1)), ∃ ep ∈ q, ∃ i < ep.len, read (shown columns ep i 1) = rowOf e s a

/-! ## Proofs -/

section
variable {columns : List Column} {maxlen : Int} {lk : String} {ops : List (Op V)} {t : Table V} {q : List (Spec.Entry V)}
  (h : Hist columns maxlen lk ops t q) (hw : WellTargeted columns) (hep : ∀ e ∈ q, EpisodeOk columns e)
  (hlong : ∀ e ∈ q, 1 ≤ e.len) (hne : q ≠ [])
  {s : Uniform} (hs : t.sampler = .uniform s) (hfit : ∀ id ∈ t.lengths.keys, -2 ^ 63 ≤ id ∧ id < 2 ^ 63)
include h hw hep hlong hne hs hfit

/-- The batches, one after the other, and what is in them -/
theorem batches_of {u v : Nat → ℝ} (hu : ∀ k, u k ∈ Set.Ico (0 : ℝ) 1) (hv : ∀ k, v k ∈ Set.Ico (0 : ℝ) 1) (count : Nat)
    (junk : Nat → String → Nat → Cell V) (i : Nat) :
    ∃ b : Nat → Nat → Dict String (List (Cell V)), (∀ j k, ∃ e ∈ q, ∃ i < e.len, b j k = shown t.columns e i 1) ∧
      ∀ mm, ∃ outs, Verif.RealDraws.tableSamples count 1 u v junk mm t i = .ok outs ∧ outs.length = mm ∧
        ∀ j (hj : j < outs.length), ∀ k < count, part t.columns 1 outs[j] k = b j k := by
  rw [h.inv.lengths] at hfit
  have hpos := total_pos h Nat.one_pos hlong hne
  obtain ⟨s0, s0', h0, hr0, hsame⟩ := exists_tracked (lens_nodup h) hfit
  have ht : (Strategy.uniform s).Tracks (lensOf q) := hs ▸ h.inv.sampler
  have hmem : ∀ k, ∃ e ∈ q, ∃ i < e.len, ∀ g : Dict String (List (Cell V)) → ℝ,
      atPoint t.columns 1 g q (win s0' (1 : Nat) (u k, v k)) = g (shown t.columns e i 1) := by
    intro k
    have := win_mem h0 hr0 hpos (hu k) (hv k) (lens_long hlong)
    obtain ⟨x, hx, hp⟩ := List.mem_flatMap.1 this
    obtain ⟨e, he, rfl⟩ := List.mem_map.1 hx
    obtain ⟨i, hi, hp⟩ := List.mem_map.1 hp
    rw [List.mem_range] at hi
    refine ⟨e, he, i, by simpa using hi, fun g => ?_⟩
    rw [← hp]
    simp only [atPoint, find_entry h he, Int.toNat_natCast]
  choose ent hent pos hpos' hval using hmem
  refine ⟨fun j k => shown t.columns (ent (i + j * count + k)) (pos (i + j * count + k)) 1,
    fun j k => ⟨_, hent _, _, hpos' _, rfl⟩, fun mm => ?_⟩
  suffices hgen : ∀ mm i {t1 : Table V}, t1.data = t.data → t1.columns = t.columns → ∀ {s1 : Uniform}, t1.sampler = .uniform s1 →
      (Strategy.uniform s1).Tracks (lensOf q) → ∃ outs, Verif.RealDraws.tableSamples count 1 u v junk mm t1 i = .ok outs ∧
        outs.length = mm ∧ ∀ j (hj : j < outs.length), ∀ k < count, part t.columns 1 outs[j] k =
          shown t.columns (ent (i + j * count + k)) (pos (i + j * count + k)) 1 from hgen mm i rfl rfl hs ht
  intro mm
  induction mm with
  | zero => intro i t1 _ _ s1 _ _; exact ⟨[], rfl, rfl, fun j hj => absurd hj (by simp)⟩
  | succ mm ih =>
    intro i t1 hd hcol s1 hs1 ht1
    obtain ⟨t2, s2, out, g1, g2, g3, g4, g5, g6⟩ :=
      tableSample_eq h hw hep Nat.one_pos hlong hne h0 hr0 hsame hu hv count i (junk i) hd hcol hs1 ht1
    obtain ⟨outs, k1, k2, k3⟩ := ih (i + count) g2 g3 g4 g5
    refine ⟨out :: outs, by simp only [Verif.RealDraws.tableSamples, g1, k1], by simp [k2], fun j hj k hk => ?_⟩
    cases j with
    | zero =>
      rw [List.getElem_cons_zero, Nat.zero_mul, Nat.add_zero]
      classical
      have := g6 fun d => if d = shown t.columns (ent (i + k)) (pos (i + k)) 1 then 1 else 0
      have := List.map_inj_left.1 this k (List.mem_range.2 hk)
      simp only [hval] at this
      by_contra hne'
      rw [if_neg hne'] at this
      simp at this
    | succ j =>
      rw [List.getElem_cons_succ, k3 j (by simpa using hj) k hk]
      rw [show i + count + j * count + k = i + (j + 1) * count + k by ring]

/-- What is stored is drawn again and again. -/
theorem often {count : Nat} (hc : 0 < count) (junk : Nat → String → Nat → Cell V) (i : Nat) (P : Dict String (List (Cell V)) → Prop)
    (hP : ∃ e ∈ q, ∃ i < e.len, P (shown t.columns e i 1)) :
    ∀ᵐ w ∂generators, ∀ b : Nat → Nat → Dict String (List (Cell V)),
      (∀ mm, ∃ outs, Verif.RealDraws.tableSamples count 1 w.1 w.2 junk mm t i = .ok outs ∧ outs.length = mm ∧
        ∀ j (hj : j < outs.length), ∀ k < count, part t.columns 1 outs[j] k = b j k) →
      ∃ᶠ j in atTop, ∃ k < count, P (b j k) := by
  classical
  let g : Dict String (List (Cell V)) → ℝ := fun d => if P d then 1 else 0
  have hpos : 0 < storedAverage t.columns 1 g q := by
    rw [storedAverage_transitions _ _ hlong]
    obtain ⟨e, he, i, hi, hPi⟩ := hP
    have h1 : ∀ e' ∈ q, 0 ≤ ((List.range e'.len).map fun s => g (shown t.columns e' s 1)).sum := fun e' _ =>
      List.sum_nonneg fun x hx => by
        obtain ⟨k, -, rfl⟩ := List.mem_map.1 hx
        simp only [g]; split <;> norm_num
    have h2 : (1 : ℝ) ≤ ((List.range e.len).map fun s => g (shown t.columns e s 1)).sum := by
      have : g (shown t.columns e i 1) ∈ (List.range e.len).map fun s => g (shown t.columns e s 1) :=
        List.mem_map.2 ⟨i, List.mem_range.2 hi, rfl⟩
      have h3 := List.single_le_sum (l := (List.range e.len).map fun s => g (shown t.columns e s 1)) (fun x hx => by
        obtain ⟨k, -, rfl⟩ := List.mem_map.1 hx
        simp only [g]; split <;> norm_num) _ this
      simpa [g, hPi] using h3
    have h3 := List.single_le_sum (l := q.map fun e => ((List.range e.len).map fun s => g (shown t.columns e s 1)).sum)
      (fun x hx => by obtain ⟨k, hk, rfl⟩ := List.mem_map.1 hx; exact h1 k hk) _ (List.mem_map.2 ⟨e, he, rfl⟩)
    refine div_pos (by linarith) ?_
    have := total_pos h Nat.one_pos hlong hne
    have htot : trackedTotal (lensOf q) = total q := by simp [trackedTotal, lensOf, total, Function.comp_def]
    rw [htot] at this
    exact_mod_cast this
  filter_upwards [limit h hw hep Nat.one_pos hlong hne hs hfit hc junk g i] with w hl b hb
  by_contra hno
  rw [not_frequently, eventually_atTop] at hno
  obtain ⟨K, hK⟩ := hno
  have hsmall : ∀ mm : Nat, averageOver t.columns count 1 g (Verif.RealDraws.tableSamples count 1 w.1 w.2 junk mm t i) ≤ K / mm := by
    intro mm
    obtain ⟨outs, h1, h2, h3⟩ := hb mm
    rw [h1]
    simp only [averageOver, h2]
    refine div_le_div_of_nonneg_right ?_ (by positivity)
    have hone : ∀ j (hj : j < outs.length), batchAverage t.columns count 1 g outs[j] ≤ if j < K then 1 else 0 := by
      intro j hj
      unfold batchAverage
      by_cases hjK : j < K
      · rw [if_pos hjK]
        refine div_le_one_of_le₀ ?_ (by positivity)
        have := List.sum_le_card_nsmul ((List.range count).map fun k => g (part t.columns 1 outs[j] k)) (1 : ℝ) (by
          intro x hx
          obtain ⟨k, -, rfl⟩ := List.mem_map.1 hx
          simp only [g]; split <;> norm_num)
        simpa using this
      · rw [if_neg hjK, List.sum_eq_zero, zero_div]
        intro x hx
        obtain ⟨k, hk, rfl⟩ := List.mem_map.1 hx
        simp only [g]
        rw [if_neg]
        rw [h3 j hj k (List.mem_range.1 hk)]
        exact fun hp => hK j (not_lt.1 hjK) ⟨k, List.mem_range.1 hk, hp⟩
    have : ∀ (l : List (Dict String (List (Cell V)))) (K : Nat), (∀ j (hj : j < l.length), batchAverage t.columns count 1 g l[j] ≤
        if j < K then 1 else 0) → (l.map (batchAverage t.columns count 1 g)).sum ≤ K := by
      intro l
      induction l with
      | nil => intro K _; simp
      | cons x l ih =>
        intro K hj
        rw [List.map_cons, List.sum_cons]
        have h0 := hj 0 (by simp)
        rw [List.getElem_cons_zero] at h0
        have h1 := ih (K - 1) (fun j hj' => by
          have := hj (j + 1) (by simpa using hj')
          rw [List.getElem_cons_succ] at this
          refine this.trans (le_of_eq ?_)
          congr 1
          simp only [eq_iff_iff]; omega)
        cases K with
        | zero => simp at h0 h1 ⊢; linarith
        | succ K =>
          simp at h0 h1 ⊢; linarith
    exact this outs K hone
  have hz : Tendsto (fun mm : Nat => (K : ℝ) / mm) atTop (𝓝 0) := tendsto_const_div_atTop_nhds_zero_nat _
  exact absurd (le_of_tendsto_of_tendsto' hl hz hsmall) (not_le.2 hpos)

theorem learns (e : Env n m) {c : Setup} (hc : Usual c) {x0 : Learner n m} {t0 : Fin n → Fin (m + 1) → ℝ} (h0 : x0.target = table t0)
    {read : Dict String (List (Cell V)) → Sample ℝ} (hcov : Covers e t.columns read q) {count : Nat} (hcount : 0 < count)
    (junk : Nat → String → Nat → Cell V) (i : Nat) :
    ∀ᵐ w ∂generators, ∃ (run : Nat → Learner n m) (tt : Nat → Fin n → Fin (m + 1) → ℝ),
      (∀ k, ∃ outs, Verif.RealDraws.tableSamples count 1 w.1 w.2 junk k t i = .ok outs ∧
        train c (outs.map (batchOf t.columns count read)) x0 = .ok (run k) ∧ (run k).target = table (tt k)) ∧
      ∀ s a x, Best (e.scale c.scale) c.gamma s a x →
        Tendsto (fun k => (run k).net.value (s, a)) atTop (𝓝 x) ∧ Tendsto (fun k => tt k s a) atTop (𝓝 x) := by
  have hoft : ∀ᵐ w ∂generators, ∀ (s : Fin n) (a : Fin (m + 1)), ∀ b : Nat → Nat → Dict String (List (Cell V)),
      (∀ mm, ∃ outs, Verif.RealDraws.tableSamples count 1 w.1 w.2 junk mm t i = .ok outs ∧ outs.length = mm ∧
        ∀ j (hj : j < outs.length), ∀ k < count, part t.columns 1 outs[j] k = b j k) →
      ∃ᶠ j in atTop, ∃ k < count, read (b j k) = rowOf e s a :=
    ae_all_iff.2 fun s => ae_all_iff.2 fun a =>
      often h hw hep hlong hne hs hfit hcount junk i (fun d => read d = rowOf e s a) (hcov.all s a)
  filter_upwards [hoft, ae_generators] with w hw1 hw2
  obtain ⟨b, hb1, hb2⟩ := batches_of h hw hep hlong hne hs hfit (fun k => (hw2 k).1) (fun k => (hw2 k).2) count junk i
  have hmade : ∀ j k, ∃ s a, read (b j k) = rowOf e s a := by
    intro j k
    obtain ⟨ep, hep', i, hi, hbe⟩ := hb1 j k
    rw [hbe]
    exact hcov.made ep hep' i hi
  obtain ⟨run, tt, h1, h2⟩ := DqnRun.C157 e hc h0 (b := fun j => (List.range count).map fun k => read (b j k))
    (fun j x hx => by
      obtain ⟨k, -, rfl⟩ := List.mem_map.1 hx
      exact hmade j k) (N := count) (fun j => ⟨by simp; omega, by simp⟩)
    (fun s a => (hw1 s a b hb2).mono fun j ⟨k, hk, hr⟩ =>
      ⟨_, List.mem_map.2 ⟨k, List.mem_range.2 hk, rfl⟩, by rw [hr]; rfl, by rw [hr]; rfl⟩)
  refine ⟨run, tt, fun k => ?_, h2⟩
  obtain ⟨outs, g1, g2, g3⟩ := hb2 k
  refine ⟨outs, g1, ?_, (h1 k).2⟩
  rw [← (h1 k).1]
  congr 1
  refine List.ext_getElem (by simp [g2]) fun j hj hj' => ?_
  simp only [List.getElem_map, List.getElem_range, batchOf]
  refine List.map_congr_left fun k' hk' => ?_
  rw [g3 j (by simpa using hj) k' (List.mem_range.1 hk')]

end

/-- C157: trained on batches that the uniform sampler draws from a memory which holds each action for each observation, a table
tends almost surely to the best discounted returns, whatever it begins with and however the memory was filled. -/
theorem C157_memory {columns : List Column} {maxlen : Int} {lk : String} {t0 t : Table V} {ops : List (Op V)}
    (hc : Created columns maxlen lk t0) (hr : Run t0 ops t) (hw : WellTargeted columns)
    (hep : ∀ e ∈ added (acts lk ops), EpisodeOk columns e) {s : Uniform} (hs : t.sampler = .uniform s) {count : Nat}
    (hcount : 0 < count) (hne : t.lengths ≠ []) (hlong : ∀ p ∈ t.lengths, 1 ≤ p.2)
    (hfit : ∀ id ∈ t.lengths.keys, -2 ^ 63 ≤ id ∧ id < 2 ^ 63)
    (e : Env n m) {c : Setup} (hu : Usual c) {x0 : Learner n m} {tt0 : Fin n → Fin (m + 1) → ℝ} (h0 : x0.target = table tt0)
    {read : Dict String (List (Cell V)) → Sample ℝ} (junk : Nat → String → Nat → Cell V) (i : Nat) :
    ∃ q : List (Spec.Entry V), q.Sublist (added (acts lk ops)) ∧ q.map (fun e => (e.id, e.len)) = t.lengths ∧ (∀ e ∈ q, Holds t e) ∧
      (Covers e t.columns read q →
        ∀ᵐ w ∂generators, ∃ (run : Nat → Learner n m) (tt : Nat → Fin n → Fin (m + 1) → ℝ),
          (∀ k, ∃ outs, Verif.RealDraws.tableSamples count 1 w.1 w.2 junk k t i = .ok outs ∧
            train c (outs.map (batchOf t.columns count read)) x0 = .ok (run k) ∧ (run k).target = table (tt k)) ∧
          ∀ s a x, Best (e.scale c.scale) c.gamma s a x →
            Tendsto (fun k => (run k).net.value (s, a)) atTop (𝓝 x) ∧ Tendsto (fun k => tt k s a) atTop (𝓝 x)) := by
  obtain ⟨q, h⟩ := run_hist hc hr
  have hq : q ≠ [] := by
    rintro rfl
    exact hne h.inv.lengths
  have hep' : ∀ e ∈ q, EpisodeOk columns e := fun e he => hep e (h.sub.subset he)
  exact ⟨q, h.sub, h.inv.lengths.symm, fun e he => holds_of_mem h he, fun hcov =>
    learns h hw hep' (long_of_stored h hlong) hq hs hfit e hu h0 hcov hcount junk i⟩

/-- C157 with FIFO ejection: the memory holds the latest episodes that fit. -/
theorem C157_fifo {columns : List Column} {maxlen : Int} {lk : String} {t0 t : Table V} {ops : List (Op V)}
    (hc : Created columns maxlen lk t0) {f : Fifo} (hf : t0.ejector = .fifo f) (hr : Run t0 ops t) (hw : WellTargeted columns)
    (hep : ∀ e ∈ added (acts lk ops), EpisodeOk columns e) {s : Uniform} (hs : t.sampler = .uniform s) {count : Nat}
    (hcount : 0 < count) (hne : t.lengths ≠ []) (hlong : ∀ p ∈ t.lengths, 1 ≤ p.2)
    (hfit : ∀ id ∈ t.lengths.keys, -2 ^ 63 ≤ id ∧ id < 2 ^ 63)
    (e : Env n m) {c : Setup} (hu : Usual c) {x0 : Learner n m} {tt0 : Fin n → Fin (m + 1) → ℝ} (h0 : x0.target = table tt0)
    {read : Dict String (List (Cell V)) → Sample ℝ} (junk : Nat → String → Nat → Cell V) (i : Nat)
    (hcov : Covers e t.columns read (queueAfter maxlen (acts lk ops)).2) :
    ∀ᵐ w ∂generators, ∃ (run : Nat → Learner n m) (tt : Nat → Fin n → Fin (m + 1) → ℝ),
      (∀ k, ∃ outs, Verif.RealDraws.tableSamples count 1 w.1 w.2 junk k t i = .ok outs ∧
        train c (outs.map (batchOf t.columns count read)) x0 = .ok (run k) ∧ (run k).target = table (tt k)) ∧
      ∀ s a x, Best (e.scale c.scale) c.gamma s a x →
        Tendsto (fun k => (run k).net.value (s, a)) atTop (𝓝 x) ∧ Tendsto (fun k => tt k s a) atTop (𝓝 x) := by
  have h := (run_fifo hc (by rw [hf]; rfl) hr).1
  have hq : (queueAfter maxlen (acts lk ops)).2 ≠ [] := by
    intro hq
    apply hne
    rw [h.inv.lengths, hq]
    rfl
  have hep' : ∀ e ∈ (queueAfter maxlen (acts lk ops)).2, EpisodeOk columns e := fun e he => hep e (h.sub.subset he)
  exact learns h hw hep' (long_of_stored h hlong) hq hs hfit e hu h0 hcov hcount junk i

namespace Ex

/-- The observation and the action that a number stands for -/
def code (x : Nat) : Fin 2 × Fin 2 := if x = 1 then (0, 0) else if x = 2 then (0, 1) else if x = 4 then (1, 0) else (1, 1)

/-- A transition is stored as a number. -/
noncomputable def read (d : Dict String (List (Cell Nat))) : Sample ℝ :=
  match d.get? "obs" with
  | some (.row x :: _) => rowOf Dqn.Ex.env (code x).1 (code x).2
  | _ => rowOf Dqn.Ex.env 0 0

theorem reads (e : Spec.Entry Nat) (s x : Nat) (l : List Nat) (hx : (e.rows "obs").drop s = x :: l) :
    read (shown ExW.t2.columns e s 1) = rowOf Dqn.Ex.env (code x).1 (code x).2 := by
  have hcol : ExW.t2.columns = ExW.cols.map fun c => (c.name, c.kind) := by decide +kernel
  have : (shown ExW.t2.columns e s 1).get? "obs" = some ((((e.rows "obs").drop s).take 1).map .row) := by
    rw [hcol]
    rfl
  unfold read
  rw [this, hx]
  rfl

theorem covers : Covers Dqn.Ex.env ExW.t2.columns read (queueAfter 5 (acts "actions" ExW.ops)).2 := by
  rw [RowMean.Ex.stored]
  constructor
  · intro ep hep i hi
    simp only [List.mem_cons, List.not_mem_nil, or_false] at hep
    rcases hep with rfl | rfl
    · simp only [entryOf] at hi
      interval_cases i
      · exact ⟨_, _, reads _ 0 1 [2, 3] rfl⟩
      · exact ⟨_, _, reads _ 1 2 [3] rfl⟩
    · simp only [entryOf] at hi
      interval_cases i
      · exact ⟨_, _, reads _ 0 4 [5, 6, 7] rfl⟩
      · exact ⟨_, _, reads _ 1 5 [6, 7] rfl⟩
      · exact ⟨_, _, reads _ 2 6 [7] rfl⟩
  · intro s a
    fin_cases s <;> fin_cases a
    · exact ⟨_, by simp, 0, by decide, reads (entryOf 7 2 (ExW.ep [10, 11] [1, 2, 3])) 0 1 [2, 3] rfl⟩
    · exact ⟨_, by simp, 1, by decide, reads (entryOf 7 2 (ExW.ep [10, 11] [1, 2, 3])) 1 2 [3] rfl⟩
    · exact ⟨_, List.mem_cons_of_mem _ (by simp), 0, by decide, reads (entryOf 8 3 (ExW.ep [20, 21, 22] [4, 5, 6, 7])) 0 4 [5, 6, 7] rfl⟩
    · exact ⟨_, List.mem_cons_of_mem _ (by simp), 1, by decide, reads (entryOf 8 3 (ExW.ep [20, 21, 22] [4, 5, 6, 7])) 1 5 [6, 7] rfl⟩

/-- With a memory of two episodes, the table learns that action 0 in the first observation is worth 1/4 and action 1 is worth 1/2. -/
example (count : Nat) (hc : 0 < count) (i : Nat) (junk : Nat → String → Nat → Cell Nat) :
    ∀ᵐ w ∂generators, ∃ run : Nat → Learner 2 1,
      (∀ k, ∃ outs, Verif.RealDraws.tableSamples count 1 w.1 w.2 junk k ExW.t2 i = .ok outs ∧
        train DqnRun.Ex.setup (outs.map (batchOf ExW.t2.columns count read)) DqnRun.Ex.start = .ok (run k)) ∧
      Tendsto (fun k => (run k).net.value (0, 0)) atTop (𝓝 (1 / 4)) ∧ Tendsto (fun k => (run k).net.value (0, 1)) atTop (𝓝 (1 / 2)) := by
  filter_upwards [C157_fifo ExW.created (f := {}) (by decide +kernel) ExW.run ExW.targeted ExW.episodes (s := _) rfl hc (by decide +kernel)
    (by decide +kernel) (by decide +kernel) Dqn.Ex.env DqnRun.Ex.usual
    (show DqnRun.Ex.start.target = table (fun (_ : Fin 2) (_ : Fin 2) => (-5 : ℝ)) from rfl) junk i covers] with w hw
  obtain ⟨run, tt, h1, h2⟩ := hw
  have he : Dqn.Ex.env.scale DqnRun.Ex.setup.scale = Dqn.Ex.env := by simp [Env.scale, DqnRun.Ex.setup]
  rw [he] at h2
  refine ⟨run, fun k => ?_, (h2 0 0 _ ?_).1, (h2 0 1 _ ?_).1⟩
  · obtain ⟨outs, g1, g2, -⟩ := h1 k
    exact ⟨outs, g1, g2⟩
  · simpa [Dqn.Ex.best, DqnRun.Ex.setup] using Dqn.fixed_best Dqn.Ex.env (g := 1 / 2) (by norm_num) (by norm_num) Dqn.Ex.fixed 0 0
  · simpa [Dqn.Ex.best, DqnRun.Ex.setup] using Dqn.fixed_best Dqn.Ex.env (g := 1 / 2) (by norm_num) (by norm_num) Dqn.Ex.fixed 0 1

example := C157_memory (n := 2) (m := 1) ExW.created ExW.run ExW.targeted ExW.episodes (s := _) rfl (count := 4) (by decide)
  (by decide +kernel) (by decide +kernel) (by decide +kernel) Dqn.Ex.env DqnRun.Ex.usual
  (show DqnRun.Ex.start.target = table (fun (_ : Fin 2) (_ : Fin 2) => (-5 : ℝ)) from rfl) (read := read) (fun _ _ _ => .row 0) 0

end Ex

end DqnMemory

end Verif.Props
