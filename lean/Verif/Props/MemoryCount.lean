import Verif.Props.MemoryLaw

/-!
# C175: how often a memory shows what it stores, on average
-/

namespace Verif.Props

namespace MemoryDraws

open Verif Verif.Spec MeasureTheory ProbabilityTheory Filter
open Verif.Props.RealDraws (generators)
open Verif.Props.BatchMean (win pair)
open Verif.Props.RowMean
open Verif.MemoryDraws (Call run)
open scoped Topology ENNReal Classical

variable {V : Type u}

/-! ## Specification -/

/-- The sum of `g` over all windows of all batches of the first `k` calls; 0 if a call failed -/
noncomputable def tally (n : Nat) (junk : Nat → String → Nat → Cell V) (t0 : Table V) (call : Nat → Call V) (g : Dict String (List (Cell V)) → ℝ)
    (k : Nat) (x : (Nat → ℝ) × (Nat → ℝ)) : ℝ :=
  match run n x.1 x.2 junk t0 call k with
  | .ok (_, _, outs) => ((windowsShown t0.columns n outs (drawn call k)).map g).sum
  | .error _ => 0

/-! ## Proofs -/

section
variable {columns : List Column} {maxlen : Int} {lk : String} {t0 : Table V} (hc : Created columns maxlen lk t0) {f : Fifo}
  (hf : t0.ejector = .fifo f) {s : Uniform} (hs : t0.sampler = .uniform s) (hw : WellTargeted columns) {n : Nat} (hn : 0 < n)
  {call : Nat → Call V} (hp : Proper columns maxlen lk t0 n call)
include hc hf hs hw hn hp

/-- The mean of one draw -/
theorem one_mean (g : Dict String (List (Cell V)) → ℝ) {k count : Nat} (hcall : call k = .batch count) (i : Nat) :
    Integrable (fun x => atPoint t0.columns n g (held maxlen lk call k) (win (UniformDraws.fresh (lensOf (held maxlen lk call k))) n (pair i x)))
      generators ∧
    ∫ x, atPoint t0.columns n g (held maxlen lk call k) (win (UniformDraws.fresh (lensOf (held maxlen lk call k))) n (pair i x)) ∂generators =
      storedAverage t0.columns n g (held maxlen lk call k) := by
  obtain ⟨t, out, h⟩ := at_all hc hf hs hw hn hp (fun _ _ _ => .bit false) (u := fun _ => 0) (v := fun _ => 0) (fun _ => by simp) (fun _ => by simp) k
  have hh := h.2.2.1
  have hcol := h.2.2.2.2.2
  have hst := stored_ok hp hh
  have hlong : ∀ e ∈ held maxlen lk call k, n ≤ e.len := fun e he => (hst e he).2.1
  obtain ⟨s0, s0', h0, hr0, -⟩ := exists_tracked (lens_nodup hh) (fun id hid => by
      rw [keys_lensOf] at hid
      obtain ⟨e, he, rfl⟩ := List.mem_map.1 hid
      exact (hst e he).2.2)
  obtain ⟨_, a1, a2, a3⟩ := Strategy.refresh_uniform h0.tracks.1 hr0
  have hwin : win (UniformDraws.fresh (lensOf (held maxlen lk call k))) (n : Int) = win s0' (n : Int) := by
    funext x
    simp only [win, UniformDraws.fresh, Uniform.weights, a1, a2, a3]
  have hpos := RowMean.total_pos hh hn hlong (hp.batch k count hcall)
  have hmean := BatchMean.win_mean h0 hr0 hpos (lens_long hlong) (atPoint t0.columns n g (held maxlen lk call k)) i
  rw [← hcol, memory_average hh hlong, hcol] at hmean
  rw [hwin]
  exact ⟨(BatchMean.win_bound h0 hr0 hpos (lens_long hlong) (atPoint t0.columns n g (held maxlen lk call k)) i).integrable (by norm_num), hmean⟩

end

/-- **C175**: Whatever number each window is given, the expected sum over all windows that a memory has shown while it was used is the sum, over
the draws, of the averages of what was stored then. -/
theorem C175 {columns : List Column} {maxlen : Int} {lk : String} {t0 : Table V} (hc : Created columns maxlen lk t0) {f : Fifo}
    (hf : t0.ejector = .fifo f) {s : Uniform} (hs : t0.sampler = .uniform s) (hw : WellTargeted columns) {n : Nat} (hn : 0 < n)
    {call : Nat → Call V} (hp : Proper columns maxlen lk t0 n call) (junk : Nat → String → Nat → Cell V)
    (g : Dict String (List (Cell V)) → ℝ) (k : Nat) :
    Integrable (tally n junk t0 call g k) generators ∧
    ∫ x, tally n junk t0 call g k x ∂generators = ((present maxlen lk call k).map (storedAverage t0.columns n g)).sum := by
  let L : Nat → List (Spec.Entry V) := fun i => (present maxlen lk call k)[i]?.getD []
  let F : Nat → (Nat → ℝ) × (Nat → ℝ) → ℝ := fun i x => atPoint t0.columns n g (L i) (win (UniformDraws.fresh (lensOf (L i))) n (pair i x))
  have hL : ∀ i (hi : i < (present maxlen lk call k).length), L i = (present maxlen lk call k)[i] := fun i hi => by
    simp only [L]
    rw [List.getElem?_eq_getElem hi]
    rfl
  have hF : ∀ i ∈ Finset.range (present maxlen lk call k).length, Integrable (F i) generators ∧
      ∫ x, F i x ∂generators = storedAverage t0.columns n g (L i) := by
    intro i hi
    obtain ⟨j, count, hcall, hq⟩ := mem_present (k := k) (q := L i) (by
      rw [hL i (Finset.mem_range.1 hi)]
      exact List.getElem_mem _)
    have := one_mean hc hf hs hw hn hp g hcall i
    rw [← hq] at this
    exact this
  have hsum : ∀ {β : Type} [AddCommMonoid β] (h : List (Spec.Entry V) × Nat → β), ((present maxlen lk call k).zipIdx.map h).sum =
      ∑ i ∈ Finset.range (present maxlen lk call k).length, h (L i, i) := by
    intro β _ h
    rw [← List.toFinset_range, List.sum_toFinset _ List.nodup_range]
    congr 1
    refine List.ext_getElem (by simp) fun i h1 h2 => ?_
    simp only [List.getElem_map, List.getElem_zipIdx, List.getElem_range, Nat.zero_add]
    rw [hL i (by simpa using h2)]
  have hae : tally n junk t0 call g k =ᵐ[generators] fun x => ∑ i ∈ Finset.range (present maxlen lk call k).length, F i x := by
    filter_upwards [BatchMean.ae_generators] with x hx
    obtain ⟨t, out, h, hg⟩ := shown_eq hc hf hs hw hn hp junk (fun k => (hx k).1) (fun k => (hx k).2) k
    simp only [tally, h.1]
    rw [hg, hsum]
    rfl
  have hint : Integrable (fun x => ∑ i ∈ Finset.range (present maxlen lk call k).length, F i x) generators :=
    integrable_finsetSum _ fun i hi => (hF i hi).1
  refine ⟨hint.congr hae.symm, ?_⟩
  rw [integral_congr_ae hae, integral_finsetSum _ fun i hi => (hF i hi).1, Finset.sum_congr rfl fun i hi => (hF i hi).2,
    ← hsum fun b => storedAverage t0.columns n g b.1]
  congr 1
  refine List.ext_getElem (by simp) fun i h1 h2 => ?_
  simp

/-- How many transitions of the episodes `q` are as wanted -/
def matching (columns : Dict String ColKind) (Q : Dict String (List (Cell V)) → Bool) (q : List (Spec.Entry V)) : Nat :=
  (q.map fun e => (List.range e.len).countP fun o => Q (shown columns e o 1)).sum

/-- **C175** for transitions: a window of one transition is as wanted, on average, as often as the wanted transitions have a part of what is stored
at each draw; the lengths of the episodes do not matter. -/
theorem C175_transitions {columns : List Column} {maxlen : Int} {lk : String} {t0 : Table V} (hc : Created columns maxlen lk t0) {f : Fifo}
    (hf : t0.ejector = .fifo f) {s : Uniform} (hs : t0.sampler = .uniform s) (hw : WellTargeted columns)
    {call : Nat → Call V} (hp : Proper columns maxlen lk t0 1 call) (junk : Nat → String → Nat → Cell V)
    (Q : Dict String (List (Cell V)) → Bool) (k : Nat) :
    ∫ x, tally 1 junk t0 call (fun d => if Q d then 1 else 0) k x ∂generators =
      ((present maxlen lk call k).map fun q => (matching t0.columns Q q : ℝ) / total q).sum := by
  rw [(C175 hc hf hs hw Nat.one_pos hp junk _ k).2]
  congr 1
  refine List.map_congr_left fun q hq => ?_
  obtain ⟨j, count, hcall, rfl⟩ := mem_present hq
  obtain ⟨t, out, h⟩ := at_all hc hf hs hw Nat.one_pos hp (fun _ _ _ => .bit false) (u := fun _ => 0) (v := fun _ => 0) (fun _ => by simp)
    (fun _ => by simp) j
  rw [storedAverage_transitions _ _ fun e he => (stored_ok hp h.2.2.1 e he).2.1]
  congr 1
  simp only [matching, Nat.cast_list_sum, List.map_map]
  congr 1
  refine List.map_congr_left fun e _ => ?_
  simp only [Function.comp]
  generalize List.range e.len = l
  induction l with
  | nil => simp
  | cons o l ih =>
    rw [List.map_cons, List.sum_cons, ih, List.countP_cons]
    split <;> simp [add_comm]

/-! ## A concrete case -/

namespace Ex

/-- The first batch shows the observation 1 of the first episode two thirds of a time on average: two windows, three transitions. -/
example (junk : Nat → String → Nat → Cell Nat) :
    ∫ x, tally 1 junk ExW.t0 call (fun d => if d.get? "obs" = some [.row 1] then 1 else 0) 2 x ∂generators = 2 / 3 := by
  rw [(C175 ExW.created (f := {}) (by decide +kernel) (s := _) rfl ExW.targeted Nat.one_pos proper junk _ 2).2]
  have hpres : present 5 "actions" call 2 = [[ea], [ea]] := rfl
  have hsh : storedAverage ExW.t0.columns 1 (fun d => if d.get? "obs" = some [.row 1] then 1 else 0) [ea] = 1 / 3 := by
    rw [storedAverage_transitions _ _ (by decide)]
    have h3 : ea.len = 3 := rfl
    simp only [List.map_cons, List.map_nil, h3, List.range_succ, List.range_zero, List.nil_append, List.cons_append,
      shows ea 0 1 [2, 3, 9] rfl, shows ea 1 2 [3, 9] rfl, shows ea 2 3 [9] rfl, total]
    norm_num
  rw [hpres]
  simp only [List.map_cons, List.map_nil, List.sum_cons, List.sum_nil, hsh]
  norm_num

example (junk : Nat → String → Nat → Cell Nat) (k : Nat) :
    ∫ x, tally 1 junk ExW.t0 call (fun d => if d.get? "obs" == some [.row 1] then 1 else 0) k x ∂generators =
      ((present 5 "actions" call k).map fun q => (matching ExW.t0.columns (fun d => d.get? "obs" == some [.row 1]) q : ℝ) / total q).sum :=
  C175_transitions ExW.created (f := {}) (by decide +kernel) (s := _) rfl ExW.targeted proper junk (fun d => d.get? "obs" == some [.row 1]) k

example : matching ExW.t0.columns (fun d => d.get? "obs" == some [.row 1]) [ea] = 1 := by decide +kernel

end Ex

end MemoryDraws

end Verif.Props
