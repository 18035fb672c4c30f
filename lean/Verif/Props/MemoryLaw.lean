import Verif.Props.MemoryDraws

/-!
# C174: the law of everything that a memory shows
-/

namespace Verif.Props

namespace MemoryDraws

open Verif Verif.Spec MeasureTheory ProbabilityTheory Filter
open Verif.Props.RealDraws (generators)
open Verif.Props.BatchMean (win pair)
open Verif.Props.RowMean
open Verif.MemoryDraws (Call run)
open scoped Topology ENNReal Classical

variable {V : Type u}

/-! ## Specification -/

/-- The windows of all batches, one after the other -/
def windowsShown (columns : Dict String ColKind) (n : Nat) (outs : List (Dict String (List (Cell V)))) (sizes : List Nat) :
    List (Dict String (List (Cell V))) :=
  (outs.zip sizes).flatMap fun b => (List.range b.2).map (part columns n b.1)

/-- What was stored at each draw -/
def present (maxlen : Int) (lk : String) (call : Nat → Call V) (k : Nat) : List (List (Spec.Entry V)) :=
  (List.range k).flatMap fun j => match call j with
    | .add _ _ => []
    | .batch count => List.replicate count (held maxlen lk call j)

/-- How much of the episodes `q` is as wanted: an episode counts in proportion to its length, and all windows in it count the same. -/
noncomputable def share (columns : Dict String ColKind) (n : Nat) (P : Dict String (List (Cell V)) → Prop) (q : List (Spec.Entry V)) : ℝ :=
  storedAverage columns n (fun d => if P d then 1 else 0) q

/-! ## Proofs -/

theorem present_add {maxlen : Int} {lk : String} {call : Nat → Call V} {k : Nat} {id : Int} {seq : Seqn V} (h : call k = .add id seq) :
    present maxlen lk call (k + 1) = present maxlen lk call k := by
  simp [present, List.range_succ, h]

theorem present_batch {maxlen : Int} {lk : String} {call : Nat → Call V} {k count : Nat} (h : call k = .batch count) :
    present maxlen lk call (k + 1) = present maxlen lk call k ++ List.replicate count (held maxlen lk call k) := by
  simp [present, List.range_succ, h]

theorem present_length (maxlen : Int) (lk : String) (call : Nat → Call V) (k : Nat) :
    (present maxlen lk call k).length = (drawn call k).sum := by
  induction k with
  | zero => rfl
  | succ k ih =>
    cases h : call k with
    | add id seq => rw [present_add h, drawn_add h, ih]
    | batch count => rw [present_batch h, drawn_batch h]; simp [ih]

theorem zipIdx_replicate {α : Type v} (a : α) (c i : Nat) : (List.replicate c a).zipIdx i = (List.range c).map fun j => (a, i + j) := by
  refine List.ext_getElem (by simp) fun j h1 h2 => ?_
  simp

section
variable {columns : List Column} {maxlen : Int} {lk : String} {t0 : Table V} (hc : Created columns maxlen lk t0) {f : Fifo}
  (hf : t0.ejector = .fifo f) {s : Uniform} (hs : t0.sampler = .uniform s) (hw : WellTargeted columns) {n : Nat} (hn : 0 < n)
  {call : Nat → Call V} (hp : Proper columns maxlen lk t0 n call)
include hw hn hp

theorem at_batch_law {junk : Nat → String → Nat → Cell V} {u v : Nat → ℝ} (hu : ∀ k, u k ∈ Set.Ico (0 : ℝ) 1) (hv : ∀ k, v k ∈ Set.Ico (0 : ℝ) 1)
    {k : Nat} {t : Table V} {out : List (Dict String (List (Cell V)))} (h : At columns maxlen lk t0 call n junk u v k t out) {count : Nat}
    (hcall : call k = .batch count) :
    ∃ t' d, At columns maxlen lk t0 call n junk u v (k + 1) t' (out ++ [d]) ∧ ∀ g : Dict String (List (Cell V)) → ℝ,
      (List.range count).map (fun j => g (part t0.columns n d j)) = (List.range count).map fun j => atPoint t0.columns n g (held maxlen lk call k)
        (win (UniformDraws.fresh (lensOf (held maxlen lk call k))) n (u ((drawn call k).sum + j), v ((drawn call k).sum + j))) := by
  obtain ⟨t', d, h', -⟩ := at_batch hw hn hp hu hv h hcall
  refine ⟨t', d, h', ?_⟩
  obtain ⟨h1, h2, h3, ⟨s1, h4⟩, h5, h6⟩ := h
  have hst := stored_ok hp h3
  obtain ⟨t2, s', d', g1, -, -, -, -, g6⟩ := one_batch h3 hw (fun e he => (hst e he).1) hn (fun e he => (hst e he).2.1) (hp.batch k count hcall)
    h4 (fun id hid => by
      rw [keys_lensOf] at hid
      obtain ⟨e, he, rfl⟩ := List.mem_map.1 hid
      exact (hst e he).2.2) hu hv count (drawn call k).sum (junk k)
  have h7 := h'.1
  simp only [run, h1, hcall, g1, Except.ok.injEq, Prod.mk.injEq] at h7
  have h8 : d' = d := by simpa using h7.2.2
  subst h8
  rw [h6] at g6
  exact g6

include hc hf hs

/-- What is shown, from the numbers -/
theorem shown_eq (junk : Nat → String → Nat → Cell V) {u v : Nat → ℝ} (hu : ∀ k, u k ∈ Set.Ico (0 : ℝ) 1) (hv : ∀ k, v k ∈ Set.Ico (0 : ℝ) 1)
    (k : Nat) : ∃ t out, At columns maxlen lk t0 call n junk u v k t out ∧ ∀ g : Dict String (List (Cell V)) → ℝ,
    (windowsShown t0.columns n out (drawn call k)).map g = (present maxlen lk call k).zipIdx.map fun b =>
      atPoint t0.columns n g b.1 (win (UniformDraws.fresh (lensOf b.1)) n (u b.2, v b.2)) := by
  induction k with
  | zero => exact ⟨t0, [], at_zero hc hf hs junk u v, fun g => rfl⟩
  | succ k ih =>
    obtain ⟨t, out, h, hg⟩ := ih
    cases hcall : call k with
    | add id seq =>
      obtain ⟨t', h'⟩ := at_add hp h hcall
      exact ⟨t', out, h', fun g => by rw [drawn_add hcall, present_add hcall, hg]⟩
    | batch count =>
      obtain ⟨t', d, h', hd⟩ := at_batch_law hw hn hp hu hv h hcall
      refine ⟨t', _, h', fun g => ?_⟩
      have h2 : windowsShown t0.columns n (out ++ [d]) (drawn call (k + 1)) =
          windowsShown t0.columns n out (drawn call k) ++ (List.range count).map (part t0.columns n d) := by
        rw [drawn_batch hcall]
        unfold windowsShown
        rw [List.zip_append h.2.1]
        simp
      rw [h2, List.map_append, hg, present_batch hcall, List.zipIdx_append, List.map_append, present_length, zipIdx_replicate, List.map_map,
        List.map_map]
      congr 1
      simpa [Function.comp_def] using hd g

/-- One draw -/
theorem one_law (P : Dict String (List (Cell V)) → Prop) {k count : Nat} (hcall : call k = .batch count) (i : Nat) :
    generators {x | atPoint t0.columns n (fun d => if P d then 1 else 0) (held maxlen lk call k)
      (win (UniformDraws.fresh (lensOf (held maxlen lk call k))) n (pair i x)) = 1} =
      ENNReal.ofReal (share t0.columns n P (held maxlen lk call k)) := by
  obtain ⟨t, out, h⟩ := at_all hc hf hs hw hn hp (fun _ _ _ => .bit false) (u := fun _ => 0) (v := fun _ => 0) (fun _ => by simp) (fun _ => by simp) k
  have hh := h.2.2.1
  have hcol := h.2.2.2.2.2
  have hst := stored_ok hp hh
  have hlong : ∀ e ∈ held maxlen lk call k, n ≤ e.len := fun e he => (hst e he).2.1
  obtain ⟨s0, s0', h0, hr0, -⟩ := exists_tracked (lens_nodup hh) (fun id hid => by
      rw [keys_lensOf] at hid
      obtain ⟨e, he, rfl⟩ := List.mem_map.1 hid
      exact (hst e he).2.2)
  obtain ⟨_, a1, a2, a3⟩ := Strategy.refresh_uniform h0.tracks.1 hr0
  have hwin : win (UniformDraws.fresh (lensOf (held maxlen lk call k))) (n : Int) = win s0' (n : Int) := by
    funext x
    simp only [win, UniformDraws.fresh, Uniform.weights, a1, a2, a3]
  have hmean := BatchMean.win_mean h0 hr0 (RowMean.total_pos hh hn hlong (hp.batch k count hcall)) (lens_long hlong)
    (atPoint t0.columns n (fun d => if P d then 1 else 0) (held maxlen lk call k)) i
  rw [← hcol, memory_average hh hlong, hcol] at hmean
  rw [hwin]
  let S : Set ((Nat → ℝ) × (Nat → ℝ)) := {x | atPoint t0.columns n (fun d => if P d then 1 else 0) (held maxlen lk call k) (win s0' n (pair i x)) = 1}
  have hS : MeasurableSet S := ((BatchMean.measurable_win s0' n).comp (BatchMean.measurable_pair i))
    (MeasurableSet.of_discrete (s := {p | atPoint t0.columns n (fun d => if P d then 1 else 0) (held maxlen lk call k) p = 1}))
  have hind : (fun x => atPoint t0.columns n (fun d => if P d then 1 else 0) (held maxlen lk call k) (win s0' n (pair i x))) = S.indicator 1 := by
    funext x
    by_cases hx : x ∈ S
    · rw [Set.indicator_of_mem hx]
      exact hx
    · rw [Set.indicator_of_notMem hx]
      have hx' : ¬ atPoint t0.columns n (fun d => if P d then 1 else 0) (held maxlen lk call k) (win s0' n (pair i x)) = 1 := hx
      unfold atPoint at hx' ⊢
      split at hx'
      · rename_i e he
        by_cases hP : P (shown t0.columns e (win s0' n (pair i x)).2.1.toNat n)
        · simp [hP] at hx'
        · simp only [if_neg hP]
      · rfl
  rw [hind, integral_indicator_one hS] at hmean
  rw [share, ← hmean, Measure.real, ENNReal.ofReal_toReal (measure_ne_top _ _)]

end

/-- What is there at a draw was stored at some batch. -/
theorem mem_present {maxlen : Int} {lk : String} {call : Nat → Call V} {k : Nat} {q : List (Spec.Entry V)} (h : q ∈ present maxlen lk call k) :
    ∃ j count, call j = .batch count ∧ q = held maxlen lk call j := by
  obtain ⟨j, -, hq⟩ := List.mem_flatMap.1 h
  cases hcall : call j with
  | add id seq => simp [hcall] at hq
  | batch count =>
    simp only [hcall] at hq
    exact ⟨j, count, hcall, List.eq_of_mem_replicate hq⟩

/-- **C174**: A memory with a uniform sampler that drops the oldest episodes; episodes are added and batches are drawn in any order. Whatever is
asked of each window that is drawn (`P i` of the `i`-th): the probability that all windows of all batches of the first `k` calls are as asked is
the product of the shares of what was stored at each draw. So all draws are independent, and each is uniform over what is stored then. -/
theorem C174 {columns : List Column} {maxlen : Int} {lk : String} {t0 : Table V} (hc : Created columns maxlen lk t0) {f : Fifo}
    (hf : t0.ejector = .fifo f) {s : Uniform} (hs : t0.sampler = .uniform s) (hw : WellTargeted columns) {n : Nat} (hn : 0 < n)
    {call : Nat → Call V} (hp : Proper columns maxlen lk t0 n call) (junk : Nat → String → Nat → Cell V)
    (P : Nat → Dict String (List (Cell V)) → Prop) (k : Nat) :
    generators {x | ∃ t outs, run n x.1 x.2 junk t0 call k = .ok (t, (drawn call k).sum, outs) ∧
      ∀ i d, (windowsShown t0.columns n outs (drawn call k))[i]? = some d → P i d} =
    ((present maxlen lk call k).zipIdx.map fun b => ENNReal.ofReal (share t0.columns n (P b.2) b.1)).prod := by
  let L : Nat → List (Spec.Entry V) := fun i => (present maxlen lk call k)[i]?.getD []
  let N := (drawn call k).sum
  have hN : (present maxlen lk call k).length = N := present_length _ _ _ _
  let A : Nat → Set SamplePoint := fun i => {p | atPoint t0.columns n (fun d => if P i d then 1 else 0) (L i) p = 1}
  have hind : iIndepFun (fun i x => win (UniformDraws.fresh (lensOf (L i))) n (pair i x)) generators :=
    BatchMean.indep_pair.comp _ fun i => BatchMean.measurable_win (UniformDraws.fresh (lensOf (L i))) n
  have hprod := hind.measure_inter_preimage_eq_mul (Finset.range N) (sets := A) fun _ _ => MeasurableSet.of_discrete
  have hL : ∀ i (hi : i < N), L i = (present maxlen lk call k)[i]'(by omega) := fun i hi => by
    simp only [L]
    rw [List.getElem?_eq_getElem (by omega)]
    rfl
  have hlist : ((present maxlen lk call k).zipIdx.map fun b => ENNReal.ofReal (share t0.columns n (P b.2) b.1)) =
      (List.range N).map fun i => ENNReal.ofReal (share t0.columns n (P i) (L i)) := by
    refine List.ext_getElem (by simp [hN]) fun i h1 h2 => ?_
    simp only [List.getElem_map, List.getElem_zipIdx, List.getElem_range, Nat.zero_add]
    rw [hL i (by simpa using h2)]
  rw [hlist, ← List.prod_toFinset _ List.nodup_range, List.toFinset_range]
  rw [← Finset.prod_congr rfl fun i hi => (show generators ((fun x => win (UniformDraws.fresh (lensOf (L i))) n (pair i x)) ⁻¹' A i) = _ from by
    obtain ⟨j, count, hcall, hq⟩ := mem_present (k := k) (q := L i) (by
      rw [hL i (Finset.mem_range.1 hi)]
      exact List.getElem_mem _)
    have := one_law hc hf hs hw hn hp (P i) hcall i
    rw [← hq] at this
    exact this), ← hprod]
  refine measure_congr ?_
  filter_upwards [BatchMean.ae_generators] with x hx
  refine propext ?_
  obtain ⟨t, out, h, hg⟩ := shown_eq hc hf hs hw hn hp junk (fun k => (hx k).1) (fun k => (hx k).2) k
  have hlen : (windowsShown t0.columns n out (drawn call k)).length = N := by
    have := congrArg List.length (hg fun _ => 0)
    simpa [hN] using this
  have hiff : ∀ i (hi : i < N), P i ((windowsShown t0.columns n out (drawn call k))[i]'(by omega)) ↔
      win (UniformDraws.fresh (lensOf (L i))) n (pair i x) ∈ A i := by
    intro i hi
    have h1 := congrArg (fun l => l[i]?) (hg fun d => if P i d then 1 else 0)
    simp only [List.getElem?_map] at h1
    rw [List.getElem?_eq_getElem (by omega), List.getElem?_eq_getElem (by simp; omega)] at h1
    simp only [Option.map_some, Option.some.injEq, List.getElem_zipIdx, Nat.zero_add] at h1
    rw [← hL i hi] at h1
    have h2 : win (UniformDraws.fresh (lensOf (L i))) n (pair i x) ∈ A i ↔
        atPoint t0.columns n (fun d => if P i d then 1 else 0) (L i) (win (UniformDraws.fresh (lensOf (L i))) n (x.1 i, x.2 i)) = 1 := Iff.rfl
    rw [h2, ← h1]
    by_cases hP : P i ((windowsShown t0.columns n out (drawn call k))[i]'(by omega)) <;> simp [hP]
  change (∃ t outs, _) ↔ x ∈ ⋂ i ∈ Finset.range N, _
  simp only [Set.mem_iInter, Finset.mem_range, Set.mem_preimage]
  constructor
  · rintro ⟨t', outs, h1, h2⟩ i hi
    have h3 := h.1.symm.trans h1
    simp only [Except.ok.injEq, Prod.mk.injEq, true_and] at h3
    rw [← h3.2] at h2
    exact (hiff i hi).1 (h2 i _ (List.getElem?_eq_getElem (by omega)))
  · intro h1
    refine ⟨t, out, h.1, fun i d hd => ?_⟩
    obtain ⟨hi, rfl⟩ := List.getElem?_eq_some_iff.1 hd
    exact (hiff i (by omega)).2 (h1 i (by omega))

/-- The share of what is not wanted -/
theorem share_not {columns : Dict String ColKind} {Q : Dict String (List (Cell V)) → Prop} {q : List (Spec.Entry V)} (hlong : ∀ e ∈ q, 1 ≤ e.len)
    {C : ℝ} (hC : (total q : ℝ) ≤ C) (hne : q ≠ []) : share columns 1 (fun d => ¬ Q d) q ≤ 1 ∧
      ((∃ e ∈ q, ∃ o < e.len, Q (shown columns e o 1)) → share columns 1 (fun d => ¬ Q d) q ≤ 1 - 1 / C) := by
  unfold share
  rw [storedAverage_transitions _ _ hlong]
  have hpos : (0 : ℝ) < total q := by
    obtain ⟨e, q', rfl⟩ := List.exists_cons_of_ne_nil hne
    have := hlong e (by simp)
    have : 0 < total (e :: q') := by simp only [total, List.map_cons, List.sum_cons]; omega
    exact_mod_cast this
  have hone : ∀ e : Spec.Entry V, ((List.range e.len).map fun s => if ¬ Q (shown columns e s 1) then (1 : ℝ) else 0).sum ≤ e.len := by
    intro e
    have := List.sum_le_card_nsmul ((List.range e.len).map fun s => if ¬ Q (shown columns e s 1) then (1 : ℝ) else 0) (1 : ℝ) (by
      intro x hx
      obtain ⟨k, -, rfl⟩ := List.mem_map.1 hx
      split <;> norm_num)
    simpa using this
  have htot : (q.map fun e => (e.len : ℝ)).sum = total q := by
    simp only [total, Nat.cast_list_sum, List.map_map]
    rfl
  have hle : (q.map fun e => ((List.range e.len).map fun s => if ¬ Q (shown columns e s 1) then (1 : ℝ) else 0).sum).sum ≤ total q := by
    rw [← htot]
    exact List.sum_le_sum fun e _ => hone e
  refine ⟨div_le_one_of_le₀ (by convert hle; rfl) hpos.le, ?_⟩
  rintro ⟨e, he, o, ho, hQ⟩
  have hless : ((List.range e.len).map fun s => if ¬ Q (shown columns e s 1) then (1 : ℝ) else 0).sum ≤ e.len - 1 := by
    have hsum : ((List.range e.len).map fun s => (if ¬ Q (shown columns e s 1) then (1 : ℝ) else 0)).sum =
        ∑ s ∈ Finset.range e.len, if ¬ Q (shown columns e s 1) then (1 : ℝ) else 0 := by
      rw [← List.toFinset_range, List.sum_toFinset _ List.nodup_range]
    rw [hsum, ← Finset.add_sum_erase _ _ (Finset.mem_range.2 ho), if_neg (not_not.2 hQ), zero_add]
    have := Finset.sum_le_card_nsmul ((Finset.range e.len).erase o) (fun s => if ¬ Q (shown columns e s 1) then (1 : ℝ) else 0) 1 (fun s _ => by
      split <;> norm_num)
    rw [Finset.card_erase_of_mem (Finset.mem_range.2 ho), Finset.card_range, nsmul_eq_mul, mul_one, Nat.cast_sub (by omega)] at this
    simpa using this
  have hle' : (q.map fun e => ((List.range e.len).map fun s => if ¬ Q (shown columns e s 1) then (1 : ℝ) else 0).sum).sum ≤ total q - 1 := by
    rw [← htot]
    obtain ⟨l1, l2, rfl⟩ := List.append_of_mem he
    simp only [List.map_append, List.map_cons, List.sum_append, List.sum_cons]
    have h1 := List.sum_le_sum (l := l1) fun e _ => hone e
    have h2 := List.sum_le_sum (l := l2) fun e _ => hone e
    linarith
  refine le_trans (div_le_div_of_nonneg_right (b := (total q : ℝ) - 1) (by convert hle'; rfl) hpos.le) ?_
  rw [sub_div, div_self hpos.ne']
  have := one_div_le_one_div_of_le hpos hC
  linarith

/-- **C174**, for what is never seen: if a wanted transition was stored at `M` of the draws, the probability that no window has shown one is at most
(1 - 1 / capacity) to the power `M`. -/
theorem C174_unseen {columns : List Column} {maxlen : Int} {lk : String} {t0 : Table V} (hc : Created columns maxlen lk t0) {f : Fifo}
    (hf : t0.ejector = .fifo f) {s : Uniform} (hs : t0.sampler = .uniform s) (hw : WellTargeted columns)
    {call : Nat → Call V} (hp : Proper columns maxlen lk t0 1 call) (junk : Nat → String → Nat → Cell V)
    (Q : Dict String (List (Cell V)) → Prop) (k : Nat) :
    generators {x | ∃ t outs, run 1 x.1 x.2 junk t0 call k = .ok (t, (drawn call k).sum, outs) ∧
      ∀ d ∈ windowsShown t0.columns 1 outs (drawn call k), ¬ Q d} ≤
    ENNReal.ofReal (1 - 1 / maxlen) ^
      ((present maxlen lk call k).countP fun q => ∃ e ∈ q, ∃ o < e.len, Q (shown t0.columns e o 1)) := by
  have hset : {x : (Nat → ℝ) × (Nat → ℝ) | ∃ t outs, run 1 x.1 x.2 junk t0 call k = .ok (t, (drawn call k).sum, outs) ∧
      ∀ d ∈ windowsShown t0.columns 1 outs (drawn call k), ¬ Q d} = {x | ∃ t outs, run 1 x.1 x.2 junk t0 call k = .ok (t, (drawn call k).sum, outs) ∧
      ∀ (i : Nat) d, (windowsShown t0.columns 1 outs (drawn call k))[i]? = some d → (fun _ d => ¬ Q d : Nat → _ → Prop) i d} := by
    ext x
    refine exists_congr fun t => exists_congr fun outs => and_congr_right fun _ => ?_
    constructor
    · exact fun h i d hd => h d (List.mem_of_getElem? hd)
    · intro h d hd
      obtain ⟨i, hi⟩ := List.mem_iff_getElem?.1 hd
      exact h i d hi
  rw [hset, C174 hc hf hs hw Nat.one_pos hp junk _ k]
  have hmap : ((present maxlen lk call k).zipIdx.map fun b => ENNReal.ofReal (share t0.columns 1 (fun d => ¬ Q d) b.1)) =
      (present maxlen lk call k).map fun q => ENNReal.ofReal (share t0.columns 1 (fun d => ¬ Q d) q) := by
    refine List.ext_getElem (by simp) fun i h1 h2 => ?_
    simp
  rw [hmap]
  have hall : ∀ q ∈ present maxlen lk call k, (∀ e ∈ q, 1 ≤ e.len) ∧ (total q : ℝ) ≤ maxlen ∧ q ≠ [] := by
    intro q hq
    obtain ⟨j, count, hcall, rfl⟩ := mem_present hq
    obtain ⟨t, out, h⟩ := at_all hc hf hs hw Nat.one_pos hp (fun _ _ _ => .bit false) (u := fun _ => 0) (v := fun _ => 0) (fun _ => by simp)
      (fun _ => by simp) j
    have hh := h.2.2.1
    refine ⟨fun e he => (stored_ok hp hh e he).2.1, ?_, hp.batch j count hcall⟩
    have h1 := hh.cap
    rw [hh.maxlen, cap_eq] at h1
    exact_mod_cast h1
  generalize present maxlen lk call k = l at hall
  induction l with
  | nil => simp
  | cons q l ih =>
    obtain ⟨h1, h2, h3⟩ := hall q (by simp)
    have hsh := share_not (columns := t0.columns) (Q := Q) h1 h2 h3
    have ih' := ih fun q hq => hall q (by simp [hq])
    rw [List.map_cons, List.prod_cons, List.countP_cons]
    by_cases hq : ∃ e ∈ q, ∃ o < e.len, Q (shown t0.columns e o 1)
    · simp only [hq, decide_true, if_true, pow_succ]
      rw [mul_comm]
      exact mul_le_mul' ih' (ENNReal.ofReal_le_ofReal (hsh.2 hq))
    · simp only [hq, decide_false, Bool.false_eq_true, if_false, Nat.add_zero]
      calc _ ≤ 1 * _ := mul_le_mul' (by simpa using hsh.1) ih'
        _ = _ := one_mul _

/-- If nothing is asked, the share is one. -/
theorem share_true {columns : Dict String ColKind} {n : Nat} {q : List (Spec.Entry V)} (hlong : ∀ e ∈ q, n ≤ e.len) (hpos : 0 < total q)
    {P : Dict String (List (Cell V)) → Prop} (hP : ∀ d, P d) : share columns n P q = 1 := by
  unfold share storedAverage
  have htot : (q.map fun e => (e.len : ℝ)).sum = total q := by
    simp only [total, Nat.cast_list_sum, List.map_map]
    rfl
  have hpos' : (0 : ℝ) < total q := by exact_mod_cast hpos
  have : (q.map fun e => (e.len : ℝ) / (total q : ℝ) *
      (((List.range (e.len + 1 - n)).map fun s => if P (shown columns e s n) then (1 : ℝ) else 0).sum / ((e.len + 1 - n : ℕ) : ℝ))) =
      q.map fun e => (e.len : ℝ) * (total q : ℝ)⁻¹ := by
    refine List.map_congr_left fun e he => ?_
    have h1 : (0 : ℝ) < ((e.len + 1 - n : ℕ) : ℝ) := by
      have := hlong e he
      exact_mod_cast (by omega : 0 < e.len + 1 - n)
    simp only [hP, if_true, List.map_const', List.length_range, List.sum_replicate, nsmul_eq_mul, mul_one]
    rw [div_self h1.ne', mul_one, div_eq_mul_inv]
  rw [this, List.sum_map_mul_right, htot, mul_inv_cancel₀ hpos'.ne']

/-- **C174** for one draw: the `i`-th window of all is as wanted with the share of what was stored when it was drawn, whatever was drawn before
and after. -/
theorem C174_each {columns : List Column} {maxlen : Int} {lk : String} {t0 : Table V} (hc : Created columns maxlen lk t0) {f : Fifo}
    (hf : t0.ejector = .fifo f) {s : Uniform} (hs : t0.sampler = .uniform s) (hw : WellTargeted columns) {n : Nat} (hn : 0 < n)
    {call : Nat → Call V} (hp : Proper columns maxlen lk t0 n call) (junk : Nat → String → Nat → Cell V)
    (Q : Dict String (List (Cell V)) → Prop) (k : Nat) {i : Nat} {q : List (Spec.Entry V)} (hi : (present maxlen lk call k)[i]? = some q) :
    generators {x | ∃ t outs, run n x.1 x.2 junk t0 call k = .ok (t, (drawn call k).sum, outs) ∧
      ∃ d, (windowsShown t0.columns n outs (drawn call k))[i]? = some d ∧ Q d} = ENNReal.ofReal (share t0.columns n Q q) := by
  have h := C174 hc hf hs hw hn hp junk (fun j d => j = i → Q d) k
  obtain ⟨hlt, hq⟩ := List.getElem?_eq_some_iff.1 hi
  have hall : ∀ q ∈ present maxlen lk call k, (∀ e ∈ q, n ≤ e.len) ∧ 0 < total q := by
    intro q hq
    obtain ⟨j, count, hcall, rfl⟩ := mem_present hq
    obtain ⟨t, out, h⟩ := at_all hc hf hs hw hn hp (fun _ _ _ => .bit false) (u := fun _ => 0) (v := fun _ => 0) (fun _ => by simp)
      (fun _ => by simp) j
    have hlong : ∀ e ∈ held maxlen lk call j, n ≤ e.len := fun e he => (stored_ok hp h.2.2.1 e he).2.1
    refine ⟨hlong, ?_⟩
    obtain ⟨e, q', hq'⟩ := List.exists_cons_of_ne_nil (hp.batch j count hcall)
    have := hlong e (by simp [hq'])
    rw [hq']
    simp only [total, List.map_cons, List.sum_cons]
    omega
  have hone : ((present maxlen lk call k).zipIdx.map fun b => ENNReal.ofReal (share t0.columns n (fun d => b.2 = i → Q d) b.1)).prod =
      ENNReal.ofReal (share t0.columns n Q q) := by
    have hsplit : present maxlen lk call k = (present maxlen lk call k).take i ++ q :: (present maxlen lk call k).drop (i + 1) := by
      rw [← hq, List.getElem_cons_drop, List.take_append_drop]
    have hlen : ((present maxlen lk call k).take i).length = i := by simp; omega
    generalize (present maxlen lk call k).take i = l1 at hsplit hlen
    generalize (present maxlen lk call k).drop (i + 1) = l2 at hsplit
    rw [hsplit] at hall ⊢
    rw [List.zipIdx_append, List.map_append, List.prod_append, List.zipIdx_cons, List.map_cons, List.prod_cons, hlen]
    have h1 : ((l1.zipIdx).map fun b => ENNReal.ofReal (share t0.columns n (fun d => b.2 = i → Q d) b.1)).prod = 1 := by
      refine List.prod_eq_one fun x hx => ?_
      obtain ⟨⟨a, j⟩, hb, rfl⟩ := List.mem_map.1 hx
      obtain ⟨-, h2, h3⟩ := List.mem_zipIdx hb
      have ha := hall a (by rw [h3]; exact List.mem_append_left _ (List.getElem_mem _))
      have hne : j ≠ i := by omega
      simp only [share_true ha.1 ha.2 (P := fun d => j = i → Q d) fun d hj => absurd hj hne, ENNReal.ofReal_one]
    have h2 : ((l2.zipIdx (0 + i + 1)).map fun b => ENNReal.ofReal (share t0.columns n (fun d => b.2 = i → Q d) b.1)).prod = 1 := by
      refine List.prod_eq_one fun x hx => ?_
      obtain ⟨⟨a, j⟩, hb, rfl⟩ := List.mem_map.1 hx
      obtain ⟨h2, -, h3⟩ := List.mem_zipIdx hb
      have ha := hall a (by rw [h3]; exact List.mem_append_right _ (List.mem_cons_of_mem _ (List.getElem_mem _)))
      have hne : j ≠ i := by omega
      simp only [share_true ha.1 ha.2 (P := fun d => j = i → Q d) fun d hj => absurd hj hne, ENNReal.ofReal_one]
    rw [h1, h2, one_mul, mul_one]
    simp
  rw [hone] at h
  rw [← h]
  refine measure_congr ?_
  filter_upwards [BatchMean.ae_generators] with x hx
  refine propext ?_
  obtain ⟨t, out, hat, hg⟩ := shown_eq hc hf hs hw hn hp junk (fun k => (hx k).1) (fun k => (hx k).2) k
  have hlen : i < (windowsShown t0.columns n out (drawn call k)).length := by
    have := congrArg List.length (hg fun _ => 0)
    simp only [List.length_map, List.length_zipIdx] at this
    omega
  constructor
  · rintro ⟨t', outs, h1, d, h2, h3⟩
    refine ⟨t', outs, h1, fun j d' hd' hj => ?_⟩
    subst hj
    rw [h2] at hd'
    cases hd'
    exact h3
  · rintro ⟨t', outs, h1, h2⟩
    have h4 := hat.1
    rw [h1] at h4
    simp only [Except.ok.injEq, Prod.mk.injEq] at h4
    have h5 : outs = out := h4.2.2
    subst h5
    exact ⟨t', outs, h1, _, List.getElem?_eq_getElem hlen, h2 i _ (List.getElem?_eq_getElem hlen) rfl⟩

/-! ## A concrete case -/

namespace Ex

theorem shows (e : Spec.Entry Nat) (s x : Nat) (l : List Nat) (hx : (e.rows "obs").drop s = x :: l) :
    (shown ExW.t0.columns e s 1).get? "obs" = some [.row x] := by
  have hcol : ExW.t0.columns = ExW.cols.map fun c => (c.name, c.kind) := by decide +kernel
  have : (shown ExW.t0.columns e s 1).get? "obs" = some ((((e.rows "obs").drop s).take 1).map .row) := by
    rw [hcol]
    rfl
  rw [this, hx]
  rfl

/-- After the first episode was added, both windows of the first batch begin with its observation 1 with probability 1/9. -/
example (junk : Nat → String → Nat → Cell Nat) :
    generators {x | ∃ t outs, run 1 x.1 x.2 junk ExW.t0 call 2 = .ok (t, (drawn call 2).sum, outs) ∧
      ∀ (i : Nat) d, (windowsShown ExW.t0.columns 1 outs (drawn call 2))[i]? = some d →
        (fun _ d => d.get? "obs" = some [.row 1] : Nat → Dict String (List (Cell Nat)) → Prop) i d} = ENNReal.ofReal (1 / 3) * ENNReal.ofReal (1 / 3) := by
  rw [C174 ExW.created (f := {}) (by decide +kernel) (s := _) rfl ExW.targeted Nat.one_pos proper junk]
  have hpres : present 5 "actions" call 2 = [[ea], [ea]] := rfl
  have hsh : share ExW.t0.columns 1 (fun d => d.get? "obs" = some [.row 1]) [ea] = 1 / 3 := by
    unfold share
    rw [storedAverage_transitions _ _ (by decide)]
    have h3 : ea.len = 3 := rfl
    simp only [List.map_cons, List.map_nil, h3, List.range_succ, List.range_zero, List.nil_append, List.cons_append,
      shows ea 0 1 [2, 3, 9] rfl, shows ea 1 2 [3, 9] rfl, shows ea 2 3 [9] rfl, total]
    norm_num
  simp [hpres, hsh]

/-- The second window of the first batch begins with the observation 2 with probability 1/3. -/
example (junk : Nat → String → Nat → Cell Nat) :
    generators {x | ∃ t outs, run 1 x.1 x.2 junk ExW.t0 call 2 = .ok (t, (drawn call 2).sum, outs) ∧
      ∃ d, (windowsShown ExW.t0.columns 1 outs (drawn call 2))[1]? = some d ∧ d.get? "obs" = some [.row 2]} = ENNReal.ofReal (1 / 3) := by
  rw [C174_each ExW.created (f := {}) (by decide +kernel) (s := _) rfl ExW.targeted Nat.one_pos proper junk _ 2 (q := [ea]) rfl]
  congr 1
  unfold share
  rw [storedAverage_transitions _ _ (by decide)]
  have h3 : ea.len = 3 := rfl
  simp only [List.map_cons, List.map_nil, h3, List.range_succ, List.range_zero, List.nil_append, List.cons_append,
    shows ea 0 1 [2, 3, 9] rfl, shows ea 1 2 [3, 9] rfl, shows ea 2 3 [9] rfl, total]
  norm_num

/-- The first transition of the first episode was stored at the first two draws. -/
example (junk : Nat → String → Nat → Cell Nat) :
    generators {x | ∃ t outs, run 1 x.1 x.2 junk ExW.t0 call 2 = .ok (t, (drawn call 2).sum, outs) ∧
      ∀ d ∈ windowsShown ExW.t0.columns 1 outs (drawn call 2), ¬ d.get? "obs" = some [.row 1]} ≤ ENNReal.ofReal (1 - 1 / (5 : Int)) ^ 2 := by
  have h := C174_unseen ExW.created (f := {}) (by decide +kernel) (s := _) rfl ExW.targeted proper junk (fun d => d.get? "obs" = some [.row 1]) 2
  have hpres : present 5 "actions" call 2 = [[ea], [ea]] := rfl
  have hex : ∃ e ∈ [ea], ∃ o < e.len, (shown ExW.t0.columns e o 1).get? "obs" = some [.row 1] := ⟨ea, by simp, 0, by decide, shows ea 0 1 [2, 3, 9] rfl⟩
  rw [hpres, List.countP_cons, List.countP_cons, List.countP_nil] at h
  simp only [hex, decide_true, if_true] at h
  exact h

end Ex

end MemoryDraws

end Verif.Props
