import Verif.Props.BatchMean
import Verif.Props.Sampling

/-!
# C152: the rows of sampled batches estimate averages over the stored transitions
-/

namespace Verif.Props

namespace RowMean

open Verif Verif.Spec MeasureTheory ProbabilityTheory RealDraws BatchMean
open scoped Topology

variable {V : Type u}

/-! ## Specification -/

/-- What the columns show of a window: `n` transitions of the episode `e` from transition `s` on -/
def shown (columns : Dict String ColKind) (e : Spec.Entry V) (s n : Nat) : Dict String (List (Cell V)) :=
  columns.map fun c => (c.1, windowOf c.1 c.2 e s n)

/-- Part `k` of a batch: the rows `k * r` up to `(k + 1) * r` of each column, which has `r` rows for each window. -/
def part (columns : Dict String ColKind) (n : Nat) (batch : Dict String (List (Cell V))) (k : Nat) : Dict String (List (Cell V)) :=
  columns.map fun c => (c.1, match batch.get? c.1 with
    | some col => rowsFrom col (k * rowsPerWindow c.2 n) (rowsPerWindow c.2 n)
    | none => [])

/-- The average of `g` over the parts of a batch -/
noncomputable def batchAverage (columns : Dict String ColKind) (count n : Nat) (g : Dict String (List (Cell V)) → ℝ)
    (batch : Dict String (List (Cell V))) : ℝ :=
  ((List.range count).map fun k => g (part columns n batch k)).sum / count

/-- 0 if there is no batch -/
noncomputable def averageOf (columns : Dict String ColKind) (count n : Nat) (g : Dict String (List (Cell V)) → ℝ)
    (r : Except Err (Dict String (List (Cell V)))) : ℝ :=
  match r with
  | .ok batch => batchAverage columns count n g batch
  | .error _ => 0

/-- The average over some batches -/
noncomputable def averageOver (columns : Dict String ColKind) (count n : Nat) (g : Dict String (List (Cell V)) → ℝ)
    (r : Except Err (List (Dict String (List (Cell V))))) : ℝ :=
  match r with
  | .ok batches => (batches.map (batchAverage columns count n g)).sum / batches.length
  | .error _ => 0

/-- The average of `g` over the episodes `q`: an episode counts in proportion to its length, and all windows in it count the same. -/
noncomputable def storedAverage (columns : Dict String ColKind) (n : Nat) (g : Dict String (List (Cell V)) → ℝ) (q : List (Spec.Entry V)) : ℝ :=
  (q.map fun e => (e.len : ℝ) / (total q : ℝ) *
    (((List.range (e.len + 1 - n)).map fun s => g (shown columns e s n)).sum / ((e.len + 1 - n : ℕ) : ℝ))).sum

/-! ## Proofs -/

theorem refresh_ok {s : Uniform} {l : Dict Int Nat} (h : (Strategy.uniform s).Tracks l)
    (hfit : ∀ id ∈ l.keys, -2 ^ 63 ≤ id ∧ id < 2 ^ 63) : ∃ s', s.refresh = (s', .ok ()) := by
  have hall : l.keys.all fitsInt64 = true := by
    rw [List.all_eq_true]
    intro id hid
    simpa [fitsInt64] using hfit id hid
  unfold Uniform.refresh
  split
  · unfold Uniform.rebalance
    simp only [h.1, hall, if_true]
    exact ⟨_, rfl⟩
  · exact ⟨_, rfl⟩

/-- A sampler in a table behaves as one that was used alone. -/
theorem exists_tracked {l : Dict Int Nat} (hn : l.keys.Nodup) (hfit : ∀ id ∈ l.keys, -2 ^ 63 ≤ id ∧ id < 2 ^ 63) :
    ∃ s0 s0' : Uniform, Tracked (.uniform s0) l ∧ s0.refresh = (s0', .ok ()) ∧
      ∀ s : Uniform, (Strategy.uniform s).Tracks l → ∀ count tc u v i, ∃ s', (Strategy.uniform s').Tracks l ∧
        Verif.RealDraws.sample s count tc u v i = (s', (Verif.RealDraws.sample s0 count tc u v i).2) := by
  have hex : ∀ l : Dict Int Nat, l.keys.Nodup → ∃ s0 : Uniform, Tracked (.uniform s0) l := by
    intro l hn
    induction l using List.reverseRecOn with
    | nil => exact ⟨{}, Tracked.fresh .uniform⟩
    | append_singleton l p ih =>
      rw [Dict.keys, List.map_append, List.nodup_append] at hn
      obtain ⟨s0, h0⟩ := ih hn.1
      refine ⟨(s0.track p.1 p.2).1, Tracked.track (s := .uniform s0) h0 (id := p.1) (len := p.2) ?_ rfl⟩
      intro hm
      exact hn.2.2 _ hm p.1 (by simp) rfl
  obtain ⟨s0, h0⟩ := hex l hn
  obtain ⟨s0', hr0⟩ := refresh_ok h0.tracks.1 hfit
  refine ⟨s0, s0', h0, hr0, fun s h count tc u v i => ?_⟩
  obtain ⟨s', hr⟩ := refresh_ok h hfit
  obtain ⟨_, a1, a2, a3⟩ := Strategy.refresh_uniform h0.tracks.1 hr0
  obtain ⟨b0, b1, b2, b3⟩ := Strategy.refresh_uniform h hr
  refine ⟨s', b0, ?_⟩
  unfold Verif.RealDraws.sample
  rw [hr, hr0]
  simp only [Res.andThen_ok, Uniform.weights, a1, a2, a3, b1, b2, b3]

theorem sum_flatMap {α : Type v} (l : List α) (f : α → List ℝ) : (l.flatMap f).sum = (l.map fun a => (f a).sum).sum := by
  induction l with
  | nil => rfl
  | cons a l ih => simp [List.flatMap_cons, ih]

/-- `g` at the place of a window -/
noncomputable def atPoint (columns : Dict String ColKind) (n : Nat) (g : Dict String (List (Cell V)) → ℝ) (q : List (Spec.Entry V))
    (p : SamplePoint) : ℝ :=
  match q.find? fun e => e.id = p.1 with
  | some e => g (shown columns e p.2.1.toNat n)
  | none => 0

section
variable {columns : List Column} {maxlen : Int} {lk : String} {ops : List (Op V)} {t : Table V} {q : List (Spec.Entry V)}
  (h : Hist columns maxlen lk ops t q) (hw : WellTargeted columns) (hep : ∀ e ∈ q, EpisodeOk columns e)
  {n : Nat} (hn : 0 < n) (hlong : ∀ e ∈ q, n ≤ e.len)
include h

theorem find_entry {e : Spec.Entry V} (he : e ∈ q) : (q.find? fun e' => e'.id = e.id) = some e := by
  rw [List.find?_eq_some_iff_append]
  obtain ⟨l1, l2, rfl⟩ := List.append_of_mem he
  refine ⟨by simp, l1, l2, rfl, fun a ha => ?_⟩
  have := h.inv.nodup
  rw [List.map_append, List.nodup_append] at this
  simp only [Bool.not_eq_true', decide_eq_false_iff_not]
  exact this.2.2 _ (List.mem_map_of_mem ha) _ (by simp)

theorem lens_nodup : (lensOf q).keys.Nodup := by
  simpa [Dict.keys, lensOf, Function.comp_def] using h.inv.nodup

include hw hep hn hlong

omit hlong in
/-- What a batch is, from the windows -/
theorem batch_of_points {count : Nat} {pts : List SamplePoint} (hc : pts.length = count)
    (hpts : ∀ p ∈ pts, p ∈ windows (lensOf q) n) (junk : String → Nat → Cell V) (t1 : Table V) (hd : t1.data = t.data)
    (hcol : t1.columns = t.columns) :
    ∃ (t2 : Table V) (out : Dict String (List (Cell V))), Table.gather count n pts junk t.data t1 = (t2, .ok out) ∧
      t2.data = t.data ∧ t2.columns = t.columns ∧ t2.sampler = t1.sampler ∧
      ∀ g : Dict String (List (Cell V)) → ℝ, (List.range count).map (fun k => g (part t.columns n out k)) =
        pts.map (atPoint t.columns n g q) := by
  have hws : ∀ pts : List SamplePoint, (∀ p ∈ pts, p ∈ windows (lensOf q) n) →
      ∃ ws : List (Spec.Entry V × Nat), pts = ws.map (fun w => (w.1.id, (w.2 : Int), (w.2 : Int) + n)) ∧
        ∀ w ∈ ws, w.1 ∈ q ∧ w.2 + n ≤ w.1.len := by
    intro pts hpts
    induction pts with
    | nil => exact ⟨[], rfl, by simp⟩
    | cons p pts ih =>
      obtain ⟨ws, h1, h2⟩ := ih fun p hp => hpts p (by simp [hp])
      obtain ⟨x, hx, hp⟩ := List.mem_flatMap.1 (hpts p (by simp))
      obtain ⟨e, he, rfl⟩ := List.mem_map.1 hx
      obtain ⟨k, hk, rfl⟩ := List.mem_map.1 hp
      rw [List.mem_range] at hk
      refine ⟨(e, k) :: ws, by simp [h1], fun w hwm => ?_⟩
      rcases List.mem_cons.1 hwm with rfl | hwm
      · exact ⟨he, by simp only at hk ⊢; omega⟩
      · exact h2 w hwm
  obtain ⟨ws, h1, h2⟩ := hws pts hpts
  obtain ⟨t2, out, h3, h4, h5⟩ := gather_batch h hw hep hn hc h1 h2 junk t1 hd
  have hst := Table.gather_state count n pts junk t.data t1
  rw [h3] at hst
  obtain ⟨temp, hst⟩ := hst
  simp only at hst
  refine ⟨t2, out, h3, by rw [hst, hd], by rw [hst, hcol], by rw [hst], fun g => ?_⟩
  have hlenws : ws.length = count := by rw [← hc, h1, List.length_map]
  refine List.ext_getElem? fun (k : Nat) => ?_
  rw [List.getElem?_map, List.getElem?_map, h1, List.getElem?_map]
  by_cases hk : k < count
  · have hk' : k < ws.length := by omega
    rw [List.getElem?_range hk, List.getElem?_eq_getElem hk']
    simp only [Option.map_some, Option.some.injEq]
    obtain ⟨hq, hfit⟩ := h2 _ (List.getElem_mem hk')
    unfold atPoint
    simp only [find_entry h hq, Int.toNat_natCast]
    congr 1
    unfold part shown
    refine List.map_congr_left fun c hcm => ?_
    rw [h5 c.1 c.2 hcm]
    simp only
    congr 1
    have hm' : (c.1, c.2) ∈ columns.map fun c => (c.name, c.kind) := by
      rw [h.columns] at hcm
      rcases mem_update _ _ _ hcm with hm | hm
      · simp at hm
      · exact hm
    have hlen : ∀ w ∈ ws, (windowOf c.1 c.2 w.1 w.2 n).length = rowsPerWindow c.2 n := fun w hwm =>
      windowOf_length (EpisodeOk.at (hep w.1 (h2 w hwm).1) hm' (h2 w hwm).2)
    refine List.ext_getElem? fun (j : Nat) => ?_
    by_cases hj : j < rowsPerWindow c.2 n
    · rw [rowsFrom_get _ _ hj, flatMap_block hlen hj, List.getElem?_eq_getElem hk']
      rfl
    · rw [List.getElem?_eq_none, List.getElem?_eq_none]
      · rw [hlen _ (List.getElem_mem hk')]; omega
      · simp only [rowsFrom, List.length_take]; omega
  · rw [List.getElem?_eq_none (by simpa using hk), List.getElem?_eq_none (by omega)]
    rfl

omit hw hep hn in
theorem memory_average (g : Dict String (List (Cell V)) → ℝ) :
    memoryMean (lensOf q) n (atPoint t.columns n g q) = storedAverage t.columns n g q := by
  have htot : trackedTotal (lensOf q) = total q := by
    simp [trackedTotal, lensOf, total, Function.comp_def]
  unfold memoryMean storedAverage windows lensOf
  rw [List.flatMap_map, List.map_flatMap, sum_flatMap]
  congr 1
  refine List.map_congr_left fun e he => ?_
  have hle := hlong e he
  have hget : Dict.get? (lensOf q) e.id = some e.len :=
    Dict.get?_of_mem (lens_nodup h) (List.mem_map.2 ⟨e, he, rfl⟩)
  rw [List.map_map, div_eq_inv_mul _ ((e.len + 1 - n : ℕ) : ℝ), ← List.sum_map_mul_left, ← List.sum_map_mul_left]
  congr 1
  refine List.map_congr_left fun s hs => ?_
  rw [List.mem_range] at hs
  simp only [Function.comp, atPoint, find_entry h he, Int.toNat_natCast]
  unfold windowLaw
  change (match Dict.get? (lensOf q) e.id with | none => _ | some len => _) * _ = _
  rw [hget]
  simp only
  rw [if_pos ⟨by positivity, by omega, trivial⟩, show e.len - n + 1 = e.len + 1 - n by omega]
  change _ / (trackedTotal (lensOf q) : ℝ) * _ * _ = _
  rw [htot]
  ring

omit hw hep in
theorem total_pos (hne : q ≠ []) : 0 < trackedTotal (lensOf q) := by
  obtain ⟨e, q', rfl⟩ := List.exists_cons_of_ne_nil hne
  have := hlong e (by simp)
  simp only [trackedTotal, lensOf, List.map_cons, List.sum_cons]
  omega

omit h hw hep hn in
theorem lens_long : ∀ p ∈ lensOf q, n ≤ p.2 := by
  intro p hp
  obtain ⟨e, he, rfl⟩ := List.mem_map.1 hp
  exact hlong e he

variable (hne : q ≠ [])
include hne

section
variable {s0 s0' : Uniform} (h0 : Tracked (.uniform s0) (lensOf q)) (hr0 : s0.refresh = (s0', .ok ()))
  (hsame : ∀ s : Uniform, (Strategy.uniform s).Tracks (lensOf q) → ∀ count tc u v i, ∃ s', (Strategy.uniform s').Tracks (lensOf q) ∧
    Verif.RealDraws.sample s count tc u v i = (s', (Verif.RealDraws.sample s0 count tc u v i).2))
include h0 hr0 hsame

theorem tableSample_eq {u v : Nat → ℝ} (hu : ∀ k, u k ∈ Set.Ico (0 : ℝ) 1) (hv : ∀ k, v k ∈ Set.Ico (0 : ℝ) 1) (count i : Nat)
    (junk : String → Nat → Cell V) {t1 : Table V} (hd : t1.data = t.data) (hcol : t1.columns = t.columns) {s1 : Uniform}
    (hs1 : t1.sampler = .uniform s1) (ht1 : (Strategy.uniform s1).Tracks (lensOf q)) :
    ∃ t2 s2 out, Verif.RealDraws.tableSample count n u v i junk t1 = (t2, .ok out) ∧ t2.data = t.data ∧ t2.columns = t.columns ∧
      t2.sampler = .uniform s2 ∧ (Strategy.uniform s2).Tracks (lensOf q) ∧
      ∀ g : Dict String (List (Cell V)) → ℝ, (List.range count).map (fun k => g (part t.columns n out k)) =
        (List.range count).map fun k => atPoint t.columns n g q (win s0' n (u (i + k), v (i + k))) := by
  have hpos := total_pos h hn hlong hne
  obtain ⟨s2, hs2, he⟩ := hsame s1 ht1 count n u v i
  rw [sample_eq h0 hr0 hpos hu] at he
  simp only at he
  obtain ⟨t2, out, g1, g2, g3, g4, g5⟩ := batch_of_points h hw hep hn (count := count)
    (pts := (List.range count).map fun k => win s0' n (u (i + k), v (i + k))) (by simp) (by
      intro p hp
      obtain ⟨k, _, rfl⟩ := List.mem_map.1 hp
      exact win_mem h0 hr0 hpos (hu _) (hv _) (lens_long hlong)) junk { t1 with sampler := .uniform s2 } hd hcol
  refine ⟨t2, s2, out, ?_, g2, g3, g4, hs2, fun g => by rw [g5, List.map_map]; rfl⟩
  unfold Verif.RealDraws.tableSample
  rw [hs1]
  simp only [he, Res.lift, Res.andThen_ok]
  rw [← hd] at g1
  exact g1

theorem tableSamples_eq {u v : Nat → ℝ} (hu : ∀ k, u k ∈ Set.Ico (0 : ℝ) 1) (hv : ∀ k, v k ∈ Set.Ico (0 : ℝ) 1) {count : Nat}
    (hc : 0 < count) (junk : Nat → String → Nat → Cell V) (g : Dict String (List (Cell V)) → ℝ) (m : Nat) :
    ∀ (i : Nat) {t1 : Table V}, t1.data = t.data → t1.columns = t.columns → ∀ {s1 : Uniform}, t1.sampler = .uniform s1 →
      (Strategy.uniform s1).Tracks (lensOf q) →
      ∃ outs, Verif.RealDraws.tableSamples count n u v junk m t1 i = .ok outs ∧ outs.length = m ∧
        (outs.map (batchAverage t.columns count n g)).sum * count =
          ((List.range (m * count)).map fun k => atPoint t.columns n g q (win s0' n (u (i + k), v (i + k)))).sum := by
  induction m with
  | zero => intro i t1 _ _ s1 _ _; exact ⟨[], rfl, rfl, by simp⟩
  | succ m ih =>
    intro i t1 hd hcol s1 hs1 ht1
    obtain ⟨t2, s2, out, g1, g2, g3, g4, g5, g6⟩ :=
      tableSample_eq h hw hep hn hlong hne h0 hr0 hsame hu hv count i (junk i) hd hcol hs1 ht1
    obtain ⟨outs, k1, k2, k3⟩ := ih (i + count) g2 g3 g4 g5
    refine ⟨out :: outs, by simp only [Verif.RealDraws.tableSamples, g1, k1], by simp [k2], ?_⟩
    rw [List.map_cons, List.sum_cons, add_mul, k3, Nat.succ_mul, Nat.add_comm (m * count) count, List.range_add, List.map_append,
      List.sum_append, batchAverage, div_mul_cancel₀ _ (by positivity), g6, List.map_map]
    congr 3
    funext k
    simp only [Function.comp, Nat.add_assoc]

end

variable {s : Uniform} (hs : t.sampler = .uniform s) (hfit : ∀ id ∈ t.lengths.keys, -2 ^ 63 ≤ id ∧ id < 2 ^ 63)
include hs hfit

theorem average {count : Nat} (hc : 0 < count) (junk : String → Nat → Cell V) (g : Dict String (List (Cell V)) → ℝ) (i : Nat) :
    ∫ w, averageOf t.columns count n g (Verif.RealDraws.tableSample count n w.1 w.2 i junk t).2 ∂generators =
      storedAverage t.columns n g q := by
  rw [h.inv.lengths] at hfit
  have hpos := total_pos h hn hlong hne
  obtain ⟨s0, s0', h0, hr0, hsame⟩ := exists_tracked (lens_nodup h) hfit
  have ht : (Strategy.uniform s).Tracks (lensOf q) := hs ▸ h.inv.sampler
  rw [← memory_average h hlong g, ← C151 h0 hr0 hpos (lens_long hlong) hc (atPoint t.columns n g q) i]
  refine integral_congr_ae ?_
  filter_upwards [ae_generators] with w hw'
  obtain ⟨t2, s2, out, g1, g2, g3, g4, g5, g6⟩ := tableSample_eq h hw hep hn hlong hne h0 hr0 hsame (fun k => (hw' k).1)
    (fun k => (hw' k).2) count i junk rfl rfl hs ht
  rw [g1, sample_eq h0 hr0 hpos (fun k => (hw' k).1)]
  simp only [averageOf, batchAverage, batchMean, g6, List.map_map, List.length_map, List.length_range]
  rfl

theorem limit {count : Nat} (hc : 0 < count) (junk : Nat → String → Nat → Cell V) (g : Dict String (List (Cell V)) → ℝ) (i : Nat) :
    ∀ᵐ w ∂generators, Filter.Tendsto
      (fun m => averageOver t.columns count n g (Verif.RealDraws.tableSamples count n w.1 w.2 junk m t i)) Filter.atTop
      (𝓝 (storedAverage t.columns n g q)) := by
  rw [h.inv.lengths] at hfit
  have hpos := total_pos h hn hlong hne
  obtain ⟨s0, s0', h0, hr0, hsame⟩ := exists_tracked (lens_nodup h) hfit
  have ht : (Strategy.uniform s).Tracks (lensOf q) := hs ▸ h.inv.sampler
  rw [← memory_average h hlong g]
  filter_upwards [C151_limit h0 hr0 hpos (lens_long hlong) hc (atPoint t.columns n g q) i, ae_generators] with w hw1 hw2
  refine hw1.congr fun m => ?_
  obtain ⟨outs, k1, k2, k3⟩ := tableSamples_eq h hw hep hn hlong hne h0 hr0 hsame (fun k => (hw2 k).1) (fun k => (hw2 k).2) hc junk g m
    i rfl rfl hs ht
  obtain ⟨out, h1, h2⟩ := samples_eq h0 hr0 hpos (v := w.2) (fun k => (hw2 k).1) count m n i
  rw [h1, k1]
  have hcR : (count : ℝ) ≠ 0 := by positivity
  simp only [batchesMean, averageOver, h2, k2, List.map_map, List.length_map, List.length_range]
  rw [eq_comm, ← mul_div_mul_right _ _ hcR, k3, Nat.cast_mul]
  rfl

end

/-- **C152**: In a table with the uniform sampler, the average over the rows of a batch of anything that depends on what the columns
show of a window is, on average, the average over the stored episodes, which are some of those that were added and all that the table
holds. -/
theorem C152 {columns : List Column} {maxlen : Int} {lk : String} {t0 t : Table V} {ops : List (Op V)}
    (hc : Created columns maxlen lk t0) (hr : Run t0 ops t) (hw : WellTargeted columns)
    (hep : ∀ e ∈ added (acts lk ops), EpisodeOk columns e) {s : Uniform} (hs : t.sampler = .uniform s) {count n : Nat} (hn : 0 < n)
    (hcount : 0 < count) (hne : t.lengths ≠ []) (hlong : ∀ p ∈ t.lengths, n ≤ p.2)
    (hfit : ∀ id ∈ t.lengths.keys, -2 ^ 63 ≤ id ∧ id < 2 ^ 63) :
    ∃ q : List (Spec.Entry V), q.Sublist (added (acts lk ops)) ∧ q.map (fun e => (e.id, e.len)) = t.lengths ∧ (∀ e ∈ q, Holds t e) ∧
      ∀ (g : Dict String (List (Cell V)) → ℝ) (i : Nat),
        (∀ junk, ∫ w, averageOf t.columns count n g (Verif.RealDraws.tableSample count n w.1 w.2 i junk t).2 ∂generators =
          storedAverage t.columns n g q) ∧
        ∀ junk, ∀ᵐ w ∂generators, Filter.Tendsto
          (fun m => averageOver t.columns count n g (Verif.RealDraws.tableSamples count n w.1 w.2 junk m t i)) Filter.atTop
          (𝓝 (storedAverage t.columns n g q)) := by
  obtain ⟨q, h⟩ := run_hist hc hr
  have hq : q ≠ [] := by
    rintro rfl
    exact hne h.inv.lengths
  have hep' : ∀ e ∈ q, EpisodeOk columns e := fun e he => hep e (h.sub.subset he)
  exact ⟨q, h.sub, h.inv.lengths.symm, fun e he => holds_of_mem h he, fun g i =>
    ⟨fun junk => average h hw hep' hn (long_of_stored h hlong) hq hs hfit hcount junk g i,
      fun junk => limit h hw hep' hn (long_of_stored h hlong) hq hs hfit hcount junk g i⟩⟩

/-- **C152** with FIFO ejection: the stored episodes are the latest ones, as many as fit. -/
theorem C152_fifo {columns : List Column} {maxlen : Int} {lk : String} {t0 t : Table V} {ops : List (Op V)}
    (hc : Created columns maxlen lk t0) {f : Fifo} (hf : t0.ejector = .fifo f) (hr : Run t0 ops t) (hw : WellTargeted columns)
    (hep : ∀ e ∈ added (acts lk ops), EpisodeOk columns e) {s : Uniform} (hs : t.sampler = .uniform s) {count n : Nat} (hn : 0 < n)
    (hcount : 0 < count) (hne : t.lengths ≠ []) (hlong : ∀ p ∈ t.lengths, n ≤ p.2)
    (hfit : ∀ id ∈ t.lengths.keys, -2 ^ 63 ≤ id ∧ id < 2 ^ 63) (g : Dict String (List (Cell V)) → ℝ) (i : Nat) :
    (∀ junk, ∫ w, averageOf t.columns count n g (Verif.RealDraws.tableSample count n w.1 w.2 i junk t).2 ∂generators =
      storedAverage t.columns n g (queueAfter maxlen (acts lk ops)).2) ∧
    ∀ junk, ∀ᵐ w ∂generators, Filter.Tendsto
      (fun m => averageOver t.columns count n g (Verif.RealDraws.tableSamples count n w.1 w.2 junk m t i)) Filter.atTop
      (𝓝 (storedAverage t.columns n g (queueAfter maxlen (acts lk ops)).2)) := by
  have h := (run_fifo hc (by rw [hf]; rfl) hr).1
  have hq : (queueAfter maxlen (acts lk ops)).2 ≠ [] := by
    intro hq
    apply hne
    rw [h.inv.lengths, hq]
    rfl
  have hep' : ∀ e ∈ (queueAfter maxlen (acts lk ops)).2, EpisodeOk columns e := fun e he => hep e (h.sub.subset he)
  exact ⟨fun junk => average h hw hep' hn (long_of_stored h hlong) hq hs hfit hcount junk g i,
    fun junk => limit h hw hep' hn (long_of_stored h hlong) hq hs hfit hcount junk g i⟩

/-- For single transitions all stored transitions count the same. -/
theorem storedAverage_transitions (columns : Dict String ColKind) (g : Dict String (List (Cell V)) → ℝ) {q : List (Spec.Entry V)}
    (hq : ∀ e ∈ q, 0 < e.len) :
    storedAverage columns 1 g q = (q.map fun e => ((List.range e.len).map fun s => g (shown columns e s 1)).sum).sum / total q := by
  unfold storedAverage
  rw [div_eq_inv_mul, ← List.sum_map_mul_left]
  congr 1
  refine List.map_congr_left fun e he => ?_
  have : (0 : ℝ) < e.len := by exact_mod_cast hq e he
  rw [Nat.add_sub_cancel]
  field_simp

/-- **C152** for single transitions, with FIFO ejection: the averages over the rows tend to the plain average over all transitions of the
latest episodes that fit; each transition counts the same, whatever the length of its episode. -/
theorem C152_transitions {columns : List Column} {maxlen : Int} {lk : String} {t0 t : Table V} {ops : List (Op V)}
    (hc : Created columns maxlen lk t0) {f : Fifo} (hf : t0.ejector = .fifo f) (hr : Run t0 ops t) (hw : WellTargeted columns)
    (hep : ∀ e ∈ added (acts lk ops), EpisodeOk columns e) {s : Uniform} (hs : t.sampler = .uniform s) {count : Nat}
    (hcount : 0 < count) (hne : t.lengths ≠ []) (hlong : ∀ p ∈ t.lengths, 1 ≤ p.2)
    (hfit : ∀ id ∈ t.lengths.keys, -2 ^ 63 ≤ id ∧ id < 2 ^ 63) (g : Dict String (List (Cell V)) → ℝ) (i : Nat)
    (junk : Nat → String → Nat → Cell V) :
    ∀ᵐ w ∂generators, Filter.Tendsto
      (fun m => averageOver t.columns count 1 g (Verif.RealDraws.tableSamples count 1 w.1 w.2 junk m t i)) Filter.atTop
      (𝓝 ((((queueAfter maxlen (acts lk ops)).2.map fun e => ((List.range e.len).map fun s => g (shown t.columns e s 1)).sum).sum) /
        total (queueAfter maxlen (acts lk ops)).2)) := by
  rw [← storedAverage_transitions]
  · exact (C152_fifo hc hf hr hw hep hs Nat.one_pos hcount hne hlong hfit g i).2 junk
  · intro e he
    exact long_of_stored (run_fifo hc (by rw [hf]; rfl) hr).1 hlong e he

namespace Ex

/-- The first observation that a window shows -/
noncomputable def g (d : Dict String (List (Cell Nat))) : ℝ :=
  match d.get? "obs" with
  | some (.row x :: _) => x
  | _ => 0

theorem stored : (queueAfter 5 (acts "actions" ExW.ops)).2 =
    [entryOf 7 2 (ExW.ep [10, 11] [1, 2, 3]), entryOf 8 3 (ExW.ep [20, 21, 22] [4, 5, 6, 7])] := rfl

theorem shows (e : Spec.Entry Nat) (s n : Nat) (x : Nat) (hx : ∀ r ∈ ((e.rows "obs").drop s).head?, r = x)
    (hh : 0 < (((e.rows "obs").drop s).take n).length) : g (shown ExW.t2.columns e s n) = x := by
  have hcol : ExW.t2.columns = ExW.cols.map fun c => (c.name, c.kind) := by decide +kernel
  have : (shown ExW.t2.columns e s n).get? "obs" = some ((((e.rows "obs").drop s).take n).map .row) := by
    rw [hcol]
    rfl
  unfold g
  rw [this]
  cases hr : (e.rows "obs").drop s with
  | nil => simp [hr] at hh
  | cons a l =>
    cases n with
    | zero => simp at hh
    | succ n =>
      have := hx a (by simp [hr])
      simp [this]

/-- Episode 7 has the transitions with the observations 1 and 2, and episode 8 those with 4, 5 and 6. -/
example (count : Nat) (hc : 0 < count) (i : Nat) (junk : String → Nat → Cell Nat) :
    ∫ w, averageOf ExW.t2.columns count 1 g (Verif.RealDraws.tableSample count 1 w.1 w.2 i junk ExW.t2).2 ∂generators =
      (1 + 2 + 4 + 5 + 6) / 5 := by
  have h := (C152_fifo ExW.created (f := {}) (by decide +kernel) ExW.run ExW.targeted ExW.episodes (s := _) rfl (n := 1)
    (by decide) hc (by decide +kernel) (by decide +kernel) (by decide +kernel) g i).1 junk
  rw [h, stored, storedAverage_transitions _ _ (by decide)]
  simp only [List.map_cons, List.map_nil, entryOf, List.range_succ, List.range_zero, List.nil_append, List.cons_append]
  rw [shows _ 0 1 1 (by decide) (by decide), shows _ 1 1 2 (by decide) (by decide), shows _ 0 1 4 (by decide) (by decide),
    shows _ 1 1 5 (by decide) (by decide), shows _ 2 1 6 (by decide) (by decide)]
  norm_num [total]

/-- Windows of two transitions: the only one of episode 7 starts with 1, the two of episode 8 with 4 and 5. -/
example (count : Nat) (hc : 0 < count) (i : Nat) (junk : Nat → String → Nat → Cell Nat) :
    ∀ᵐ w ∂generators, Filter.Tendsto
      (fun m => averageOver ExW.t2.columns count 2 g (Verif.RealDraws.tableSamples count 2 w.1 w.2 junk m ExW.t2 i)) Filter.atTop
      (𝓝 (2 / 5 * 1 + 3 / 5 * ((4 + 5) / 2))) := by
  have h := (C152_fifo ExW.created (f := {}) (by decide +kernel) ExW.run ExW.targeted ExW.episodes (s := _) rfl (n := 2)
    (by decide) hc (by decide +kernel) (by decide +kernel) (by decide +kernel) g i).2 junk
  have hv : storedAverage ExW.t2.columns 2 g (queueAfter 5 (acts "actions" ExW.ops)).2 = 2 / 5 * 1 + 3 / 5 * ((4 + 5) / 2) := by
    rw [stored]
    unfold storedAverage
    simp only [List.map_cons, List.map_nil, entryOf, List.range_succ, List.range_zero, List.nil_append, List.cons_append,
      Nat.reduceAdd, Nat.reduceSub]
    rw [shows _ 0 2 1 (by decide) (by decide), shows _ 0 2 4 (by decide) (by decide), shows _ 1 2 5 (by decide) (by decide)]
    norm_num [total]
  rw [← hv]
  exact h

example := C152 ExW.created ExW.run ExW.targeted ExW.episodes (s := _) rfl (count := 4) (n := 2)
    (by decide) (by decide) (by decide +kernel) (by decide +kernel) (by decide +kernel)

end Ex

end RowMean

end Verif.Props
