import Verif.Props.MemoryCount

/-!
# C175: how far the numbers of times are from their averages
-/

namespace Verif.Props

namespace MemoryDraws

open Verif Verif.Spec MeasureTheory ProbabilityTheory Filter
open Verif.Props.RealDraws (generators)
open Verif.Props.BatchMean (win pair)
open Verif.Props.RowMean
open Verif.MemoryDraws (Call run)
open scoped Topology ENNReal Classical

variable {V : Type u}

/-! ## Specification -/

/-- The variance of `g` at a draw from the episodes `q` -/
noncomputable def spread (columns : Dict String ColKind) (n : Nat) (g : Dict String (List (Cell V)) → ℝ) (q : List (Spec.Entry V)) : ℝ :=
  storedAverage columns n (fun d => g d ^ 2) q - storedAverage columns n g q ^ 2

/-! ## Proofs -/

theorem atPoint_sq (columns : Dict String ColKind) (n : Nat) (g : Dict String (List (Cell V)) → ℝ) (q : List (Spec.Entry V)) (p : SamplePoint) :
    atPoint columns n (fun d => g d ^ 2) q p = atPoint columns n g q p ^ 2 := by
  unfold atPoint
  split <;> simp

section
variable {columns : List Column} {maxlen : Int} {lk : String} {t0 : Table V} (hc : Created columns maxlen lk t0) {f : Fifo}
  (hf : t0.ejector = .fifo f) {s : Uniform} (hs : t0.sampler = .uniform s) (hw : WellTargeted columns) {n : Nat} (hn : 0 < n)
  {call : Nat → Call V} (hp : Proper columns maxlen lk t0 n call)
include hc hf hs hw hn hp

/-- The variance of one draw -/
theorem one_spread (g : Dict String (List (Cell V)) → ℝ) {k count : Nat} (hcall : call k = .batch count) (i : Nat) :
    MemLp (fun x => atPoint t0.columns n g (held maxlen lk call k) (win (UniformDraws.fresh (lensOf (held maxlen lk call k))) n (pair i x)))
      2 generators ∧
    variance (fun x => atPoint t0.columns n g (held maxlen lk call k) (win (UniformDraws.fresh (lensOf (held maxlen lk call k))) n (pair i x)))
      generators = spread t0.columns n g (held maxlen lk call k) := by
  have hm : Measurable fun x => atPoint t0.columns n g (held maxlen lk call k)
      (win (UniformDraws.fresh (lensOf (held maxlen lk call k))) n (pair i x)) :=
    (measurable_of_countable (atPoint t0.columns n g (held maxlen lk call k))).comp
      ((BatchMean.measurable_win _ n).comp (BatchMean.measurable_pair i))
  have h1 := one_mean hc hf hs hw hn hp g hcall i
  have h2 := one_mean hc hf hs hw hn hp (fun d => g d ^ 2) hcall i
  simp only [atPoint_sq] at h2
  have hL := (memLp_two_iff_integrable_sq hm.aestronglyMeasurable).2 h2.1
  refine ⟨hL, ?_⟩
  rw [variance_eq_sub hL]
  unfold spread
  rw [← h1.2, ← h2.2]
  rfl

end

/-- **C175**, the variance: the sum over all windows that a memory has shown has the sum of the variances of the single draws as its variance. -/
theorem C175_variance {columns : List Column} {maxlen : Int} {lk : String} {t0 : Table V} (hc : Created columns maxlen lk t0) {f : Fifo}
    (hf : t0.ejector = .fifo f) {s : Uniform} (hs : t0.sampler = .uniform s) (hw : WellTargeted columns) {n : Nat} (hn : 0 < n)
    {call : Nat → Call V} (hp : Proper columns maxlen lk t0 n call) (junk : Nat → String → Nat → Cell V)
    (g : Dict String (List (Cell V)) → ℝ) (k : Nat) :
    MemLp (tally n junk t0 call g k) 2 generators ∧
    variance (tally n junk t0 call g k) generators = ((present maxlen lk call k).map (spread t0.columns n g)).sum := by
  let L : Nat → List (Spec.Entry V) := fun i => (present maxlen lk call k)[i]?.getD []
  let F : Nat → (Nat → ℝ) × (Nat → ℝ) → ℝ := fun i x => atPoint t0.columns n g (L i) (win (UniformDraws.fresh (lensOf (L i))) n (pair i x))
  have hL : ∀ i (hi : i < (present maxlen lk call k).length), L i = (present maxlen lk call k)[i] := fun i hi => by
    simp only [L]
    rw [List.getElem?_eq_getElem hi]
    rfl
  have hF : ∀ i ∈ Finset.range (present maxlen lk call k).length, MemLp (F i) 2 generators ∧
      variance (F i) generators = spread t0.columns n g (L i) := by
    intro i hi
    obtain ⟨j, count, hcall, hq⟩ := mem_present (k := k) (q := L i) (by
      rw [hL i (Finset.mem_range.1 hi)]
      exact List.getElem_mem _)
    have := one_spread hc hf hs hw hn hp g hcall i
    rw [← hq] at this
    exact this
  have hind : iIndepFun F generators := (BatchMean.indep_pair.comp _ fun i => BatchMean.measurable_win (UniformDraws.fresh (lensOf (L i))) n).comp
    (fun i => atPoint t0.columns n g (L i)) fun i => measurable_of_countable _
  have hsum : ∀ h : List (Spec.Entry V) × Nat → ℝ, ((present maxlen lk call k).zipIdx.map h).sum =
      ∑ i ∈ Finset.range (present maxlen lk call k).length, h (L i, i) := by
    intro h
    rw [← List.toFinset_range, List.sum_toFinset _ List.nodup_range]
    congr 1
    refine List.ext_getElem (by simp) fun i h1 h2 => ?_
    simp only [List.getElem_map, List.getElem_zipIdx, List.getElem_range, Nat.zero_add]
    rw [hL i (by simpa using h2)]
  have hae : tally n junk t0 call g k =ᵐ[generators] ∑ i ∈ Finset.range (present maxlen lk call k).length, F i := by
    filter_upwards [BatchMean.ae_generators] with x hx
    obtain ⟨t, out, h, hg⟩ := shown_eq hc hf hs hw hn hp junk (fun k => (hx k).1) (fun k => (hx k).2) k
    simp only [tally, h.1]
    rw [hg, hsum, Finset.sum_apply]
    rfl
  refine ⟨(memLp_congr_ae hae).2 (memLp_finsetSum' _ fun i hi => (hF i hi).1), ?_⟩
  rw [variance_congr hae, IndepFun.variance_sum (fun i hi => (hF i hi).1) (fun i _ j _ hij => hind.indepFun hij),
    Finset.sum_congr rfl fun i hi => (hF i hi).2, ← hsum fun b => spread t0.columns n g b.1]
  congr 1
  refine List.ext_getElem (by simp) fun i h1 h2 => ?_
  simp

/-- The number of times that something is shown has variance at most a quarter at each draw. -/
theorem spread_le {columns : Dict String ColKind} {n : Nat} (Q : Dict String (List (Cell V)) → Bool) (q : List (Spec.Entry V)) :
    spread columns n (fun d => if Q d then 1 else 0) q ≤ 1 / 4 := by
  have h : (fun d : Dict String (List (Cell V)) => (if Q d then (1 : ℝ) else 0) ^ 2) = fun d => if Q d then 1 else 0 := by
    funext d
    split <;> norm_num
  unfold spread
  rw [h]
  nlinarith [sq_nonneg (storedAverage columns n (fun d => if Q d then (1 : ℝ) else 0) q - 1 / 2)]

/-- **C175**, how far from the average: after `N` draws, the number of times that something was shown differs by `c` or more from the sum of the
parts that it had of what was stored with probability at most `N / (4 c²)`. -/
theorem C175_near {columns : List Column} {maxlen : Int} {lk : String} {t0 : Table V} (hc : Created columns maxlen lk t0) {f : Fifo}
    (hf : t0.ejector = .fifo f) {s : Uniform} (hs : t0.sampler = .uniform s) (hw : WellTargeted columns)
    {call : Nat → Call V} (hp : Proper columns maxlen lk t0 1 call) (junk : Nat → String → Nat → Cell V)
    (Q : Dict String (List (Cell V)) → Bool) (k : Nat) {c : ℝ} (hpos : 0 < c) :
    generators {x | c ≤ |tally 1 junk t0 call (fun d => if Q d then 1 else 0) k x -
      ((present maxlen lk call k).map fun q => (matching t0.columns Q q : ℝ) / total q).sum|} ≤
    ENNReal.ofReal ((drawn call k).sum / (4 * c ^ 2)) := by
  have hv := C175_variance hc hf hs hw Nat.one_pos hp junk (fun d => if Q d then 1 else 0) k
  rw [← C175_transitions hc hf hs hw hp junk Q k]
  refine le_trans (meas_ge_le_variance_div_sq hv.1 hpos) (ENNReal.ofReal_le_ofReal ?_)
  rw [hv.2]
  have h1 := List.sum_le_card_nsmul ((present maxlen lk call k).map (spread t0.columns 1 fun d => if Q d then (1 : ℝ) else 0)) (1 / 4) (by
    intro x hx
    obtain ⟨q, -, rfl⟩ := List.mem_map.1 hx
    exact spread_le Q q)
  rw [List.length_map, present_length, nsmul_eq_mul] at h1
  calc _ ≤ ((drawn call k).sum : ℝ) * (1 / 4) / c ^ 2 := div_le_div_of_nonneg_right h1 (by positivity)
    _ = _ := by field_simp

/-! ## A concrete case -/

namespace Ex

/-- Two windows of the first batch, each with the observation 1 with probability 1/3: the variance is 2 · 1/3 · 2/3. -/
example (junk : Nat → String → Nat → Cell Nat) :
    variance (tally 1 junk ExW.t0 call (fun d => if d.get? "obs" = some [.row 1] then 1 else 0) 2) generators = 4 / 9 := by
  rw [(C175_variance ExW.created (f := {}) (by decide +kernel) (s := _) rfl ExW.targeted Nat.one_pos proper junk _ 2).2]
  have hpres : present 5 "actions" call 2 = [[ea], [ea]] := rfl
  have hsh : spread ExW.t0.columns 1 (fun d => if d.get? "obs" = some [.row 1] then 1 else 0) [ea] = 2 / 9 := by
    unfold spread
    rw [storedAverage_transitions _ _ (by decide), storedAverage_transitions _ _ (by decide)]
    have h3 : ea.len = 3 := rfl
    simp only [List.map_cons, List.map_nil, h3, List.range_succ, List.range_zero, List.nil_append, List.cons_append,
      shows ea 0 1 [2, 3, 9] rfl, shows ea 1 2 [3, 9] rfl, shows ea 2 3 [9] rfl, total]
    norm_num
  rw [hpres]
  simp only [List.map_cons, List.map_nil, List.sum_cons, List.sum_nil, hsh]
  norm_num

example (junk : Nat → String → Nat → Cell Nat) (k : Nat) :
    generators {x | 10 ≤ |tally 1 junk ExW.t0 call (fun d => if d.get? "obs" == some [.row 1] then 1 else 0) k x -
      ((present 5 "actions" call k).map fun q => (matching ExW.t0.columns (fun d => d.get? "obs" == some [.row 1]) q : ℝ) / total q).sum|} ≤
    ENNReal.ofReal ((drawn call k).sum / (4 * 10 ^ 2)) :=
  C175_near ExW.created (f := {}) (by decide +kernel) (s := _) rfl ExW.targeted proper junk (fun d => d.get? "obs" == some [.row 1]) k (by norm_num)

end Ex

end MemoryDraws

end Verif.Props
