import Verif.Model.UniformDraws
import Verif.Props.BatchMean
import Verif.Props.UniformRun
import Verif.Props.DqnCoverage
import Mathlib.Probability.BorelCantelli

/-!
# C172: uniform batches from a memory that changes draw again and again whatever comes back again and again
-/

namespace Verif.Props

namespace UniformDraws

open Verif Verif.Spec MeasureTheory ProbabilityTheory Filter
open Verif.Props.RealDraws (unit generators windowLaw Hit)
open Verif.Props.CoverageRun (Valid)
open Verif.Props.Starve (sizes first first_succ first_add often)
open Verif.Props.BatchMean (win pair)
open Verif.Props.UniformRun (Fair chooses offsets)
open Verif.CoverageRun (Event)
open Verif.UniformDraws (run)
open scoped Topology ENNReal

/-! ## What is drawn -/

/-- The sampler after it looked at what is stored -/
def fresh (l : Dict Int Nat) : Uniform := { idents := l, ids := l.keys, prios := l.values }

/-- The sampler has noticed that `l` is stored, or will. -/
def Good (s : Uniform) (l : Dict Int Nat) : Prop := s.idents = l ∧ (s.dirty = true ∨ (s.ids = l.keys ∧ s.prios = l.values))

/-- The batches -/
noncomputable def outs (tc : Int) (u v : Nat → ℝ) : List Event → Dict Int Nat → Nat → List (List SamplePoint)
  | [], _, _ => []
  | .track id len :: es, l, i => outs tc u v es (l.set id len) i
  | .forget id :: es, l, i => outs tc u v es (l.erase id) i
  | .batch count :: es, l, i => ((List.range count).map fun k => win (fresh l) tc (u (i + k), v (i + k))) :: outs tc u v es l (i + count)

/-- What holds of the sequences -/
structure Fine (tc : Nat) (l : Dict Int Nat) : Prop where
  nodup : l.keys.Nodup
  long : ∀ p ∈ l, tc ≤ p.2 ∧ 0 < p.2
  fits : ∀ id ∈ l.keys, -2 ^ 63 ≤ id ∧ id < 2 ^ 63

theorem fine_set {tc : Nat} {l : Dict Int Nat} (h : Fine tc l) {id : Int} {len : Nat} (hid : -2 ^ 63 ≤ id ∧ id < 2 ^ 63) (h1 : tc ≤ len)
    (h2 : 0 < len) : Fine tc (l.set id len) := by
  have := Starve.fine_set (id := id) ⟨h.nodup, h.long⟩ h1 h2
  refine ⟨this.nodup, this.long, fun j hj => ?_⟩
  rw [Dict.mem_keys_set] at hj
  rcases hj with rfl | hj
  · exact hid
  · exact h.fits j hj

theorem fine_erase {tc : Nat} {l : Dict Int Nat} (h : Fine tc l) {id : Int} : Fine tc (l.erase id) := by
  have := Starve.fine_erase (id := id) ⟨h.nodup, h.long⟩
  refine ⟨this.nodup, this.long, fun j hj => h.fits j ?_⟩
  rw [Dict.keys_erase] at hj
  exact List.mem_of_mem_erase hj

theorem total_pos {tc : Nat} {l : Dict Int Nat} (h : Fine tc l) (hne : l ≠ []) : 0 < trackedTotal l := by
  cases l with
  | nil => exact absurd rfl hne
  | cons p l =>
    have := (h.long p (by simp)).2
    simp only [trackedTotal, List.map_cons, List.sum_cons]
    omega

theorem fair {tc : Nat} {l : Dict Int Nat} (h : Fine tc l) (hne : l ≠ []) : Fair l (fresh l).weights :=
  UniformRun.fair h.nodup h.fits (fun p hp => (h.long p hp).2) (total_pos h hne) rfl

theorem good_refresh {tc : Nat} {s : Uniform} {l : Dict Int Nat} (h : Good s l) (hf : Fine tc l) :
    ∃ s', s.refresh = (s', .ok ()) ∧ Good s' l ∧ s'.ids = l.keys ∧ s'.idents = l ∧ s'.weights = (fresh l).weights := by
  obtain ⟨rfl, h2⟩ := h
  unfold Uniform.refresh
  split
  · unfold Uniform.rebalance
    have hk : s.idents.keys.all fitsInt64 = true := List.all_eq_true.2 fun k hk => by
      have := hf.fits k hk
      simpa [fitsInt64] using this
    simp only [hk, if_true]
    exact ⟨_, rfl, ⟨rfl, .inr ⟨rfl, rfl⟩⟩, rfl, rfl, rfl⟩
  · rename_i hd
    rcases h2 with h2 | h2
    · exact absurd h2 hd
    · exact ⟨s, rfl, ⟨rfl, .inr h2⟩, h2.1, rfl, by simp [Uniform.weights, fresh, h2.2]⟩

theorem hit {tc : Nat} {l : Dict Int Nat} (hf : Fine tc l) (hne : l ≠ []) {u v : ℝ} (hu : u ∈ Set.Ico (0 : ℝ) 1) :
    Hit (fresh l) tc (win (fresh l) tc (u, v)) u v := by
  obtain ⟨id, len, h1, h2⟩ := UniformRun.npChoice_ok (fair hf hne) hu
  have h3 := h1
  unfold Verif.RealDraws.npChoice at h3
  split at h3
  · simp at h3
  · split at h3
    · simp at h3
    · split at h3
      · simp at h3
      · rename_i id' hid
        injection h3 with h3
        subst h3
        have hid' : (fresh l).ids[Verif.RealDraws.searchRight (Verif.RealDraws.cumsum 0 (fresh l).weights) u]? = some id' := hid
        have h2' : (fresh l).idents.get? id' = some len := h2
        have hw : win (fresh l) tc (u, v) = (id', pyInt (v * (((len : Int) - ((tc : Int) - 1) : Int) : ℝ)),
            pyInt (v * (((len : Int) - ((tc : Int) - 1) : Int) : ℝ)) + tc) := by
          simp only [win, hid', h2']
        rw [hw]
        exact ⟨h1, len, h2, rfl, rfl⟩

theorem run_eq {tc : Nat} {u v : Nat → ℝ} (hu : ∀ k, u k ∈ Set.Ico (0 : ℝ) 1) : ∀ (es : List Event) (s : Uniform) (l : Dict Int Nat) (i : Nat),
    Good s l → Fine tc l → Valid tc es l → run tc u v es s i = .ok (outs tc u v es l i) := by
  intro es
  induction es with
  | nil => intro s l i _ _ _; rfl
  | cons e es ih =>
    intro s l i hg hf hv
    cases e with
    | track id len =>
      obtain ⟨h1, h2, h3, h4⟩ := hv
      simp only [run, outs, Uniform.track]
      exact ih _ _ _ ⟨by simp [hg.1], .inl rfl⟩ (fine_set hf h1 h2 h3) h4
    | forget id =>
      obtain ⟨h1, h2⟩ := hv
      have hd : s.idents.del? id = some (l.erase id) := by rw [hg.1]; exact Dict.del?_of_mem h1
      simp only [run, outs, Uniform.forget, hd]
      exact ih _ _ _ ⟨rfl, .inl rfl⟩ (fine_erase hf) h2
    | batch count =>
      obtain ⟨h1, h2⟩ := hv
      obtain ⟨s', hr, hg', g1, g2, g3⟩ := good_refresh hg hf
      have hs : Verif.RealDraws.sample s count tc u v i =
          (s', .ok ((List.range count).map fun k => win (fresh l) tc (u (i + k), v (i + k)))) := by
        refine (RealDraws.sample_ok hr count tc u v i _).2 ⟨by simp, fun k p hk => ?_⟩
        rw [List.getElem?_map, Option.map_eq_some_iff] at hk
        obtain ⟨k', hk', rfl⟩ := hk
        obtain ⟨hlt, rfl⟩ := List.getElem?_eq_some_iff.1 hk'
        simp only [List.getElem_range]
        have := hit hf h1 (v := v (i + k)) (hu (i + k))
        unfold Hit at this ⊢
        rw [g1, g2, g3]
        exact this
      simp only [run, outs, hs, ih s' l (i + count) hg' hf h2]

theorem outs_append (tc : Int) (u v : Nat → ℝ) (es' : List Event) : ∀ (es : List Event) (l : Dict Int Nat) (i : Nat),
    outs tc u v (es ++ es') l i = outs tc u v es l i ++ outs tc u v es' (Starve.Spec.after es l) (i + (sizes es).sum) := by
  intro es
  induction es with
  | nil => intro l i; simp [outs, Starve.Spec.after, sizes]
  | cons e es ih =>
    intro l i
    cases e with
    | track id len => simpa [outs, Starve.Spec.after, sizes] using ih _ _
    | forget id => simpa [outs, Starve.Spec.after, sizes] using ih _ _
    | batch count =>
      simp only [List.cons_append, outs, Starve.Spec.after, ih, sizes, List.filterMap_cons, List.sum_cons, Nat.add_assoc]

theorem outs_sizes (tc : Int) (u v : Nat → ℝ) : ∀ (es : List Event) (l : Dict Int Nat) (i : Nat),
    (outs tc u v es l i).map List.length = sizes es := by
  intro es
  induction es with
  | nil => intro l i; rfl
  | cons e es ih =>
    intro l i
    cases e with
    | track id len => simpa [outs, sizes] using ih _ _
    | forget id => simpa [outs, sizes] using ih _ _
    | batch count => simpa [outs, sizes] using ih _ _

theorem fine_after {tc : Nat} : ∀ (es : List Event) (l : Dict Int Nat), Fine tc l → Valid tc es l → Fine tc (Starve.Spec.after es l) := by
  intro es
  induction es with
  | nil => intro l h _; exact h
  | cons e es ih =>
    intro l h hv
    cases e with
    | track id len => exact ih _ (fine_set h hv.1 hv.2.1 hv.2.2.1) hv.2.2.2
    | forget id => exact ih _ (fine_erase h) hv.2
    | batch count => exact ih _ h hv.2

/-- Lists that grow are the beginnings of one sequence. -/
theorem limit {β : Type} (d : β) (o : Nat → List β) (h : ∀ n k, o n <+: o (n + k)) :
    ∃ b : Nat → β, ∀ n, o n = (List.range (o n).length).map b := by
  classical
  refine ⟨fun j => if h : ∃ n, j < (o n).length then (o (Nat.find h))[j]'(Nat.find_spec h) else d, fun n => ?_⟩
  have hget : ∀ n n' j (h1 : j < (o n).length) (h2 : j < (o n').length), (o n)[j] = (o n')[j] := by
    intro n n' j h1 h2
    rcases le_total n n' with hnn | hnn
    · obtain ⟨k, rfl⟩ := Nat.exists_eq_add_of_le hnn
      exact (h n k).getElem h1
    · obtain ⟨k, rfl⟩ := Nat.exists_eq_add_of_le hnn
      exact ((h n' k).getElem h2).symm
  refine List.ext_getElem (by simp) fun j h1 h2 => ?_
  rw [List.getElem_map, List.getElem_range, dif_pos ⟨n, h1⟩]
  exact hget _ _ _ _ _

/-! ## How likely it is -/

theorem likely {tc : Nat} {l : Dict Int Nat} (hf : Fine tc l) {C : Nat} (hC : l.values.sum ≤ C) {id : Int} {len o : Nat}
    (hid : l.get? id = some len) (ho : o + tc ≤ len) (k : Nat) :
    ENNReal.ofReal (1 / (2 * C)) ≤ generators {x | win (fresh l) tc (pair k x) = (id, (o : Int), (o : Int) + tc)} := by
  have hmem := Dict.mem_of_get? hid
  have hne : l ≠ [] := List.ne_nil_of_mem hmem
  have hF := fair hf hne
  have hlen := (hf.long _ hmem).2
  simp only at hlen
  have hsub : pair k ⁻¹' (chooses l (fresh l).weights id ×ˢ offsets l tc (id, (o : Int), (o : Int) + tc)) ⊆
      {x | win (fresh l) tc (pair k x) = (id, (o : Int), (o : Int) + tc)} := by
    rintro x ⟨h1, len', h2, h3, -⟩
    simp only [chooses, Set.mem_ofPred_eq] at h1
    unfold Verif.RealDraws.npChoice at h1
    split at h1
    · simp at h1
    · split at h1
      · simp at h1
      · split at h1
        · simp at h1
        · rename_i id' hid'
          injection h1 with h1
          subst h1
          have e1 : (fresh l).ids[Verif.RealDraws.searchRight (Verif.RealDraws.cumsum 0 (fresh l).weights) (pair k x).1]? = some id' := hid'
          have e2 : (fresh l).idents.get? id' = some len' := h2
          simp only [Set.mem_ofPred_eq, win, e1, e2, h3]
  refine le_trans ?_ (measure_mono hsub)
  rw [← Measure.map_apply (BatchMean.measurable_pair k) ((hF.chooses id).1.prod (UniformRun.measurable_offsets _ _ _)), BatchMean.map_pair,
    Measure.prod_prod, UniformRun.window_law hF (fun p hp => (hf.long p hp).1) (id, (o : Int), (o : Int) + tc)]
  refine ENNReal.ofReal_le_ofReal ?_
  unfold windowLaw
  simp only [hid]
  rw [if_pos ⟨by omega, by omega, trivial⟩]
  have hT : (0 : ℝ) < (trackedTotal l : ℝ) := by exact_mod_cast hF.total
  have hTC : (trackedTotal l : ℝ) ≤ C := by exact_mod_cast hC
  have hCp : (0 : ℝ) < C := hT.trans_le hTC
  have hL : (0 : ℝ) < (len : ℝ) := by exact_mod_cast hlen
  have hW : (0 : ℝ) < ((len - tc + 1 : ℕ) : ℝ) := by positivity
  have hW2 : ((len - tc + 1 : ℕ) : ℝ) ≤ 2 * len := by
    have : len - tc + 1 ≤ 2 * len := by omega
    exact_mod_cast this
  rw [div_mul_div_comm, mul_one, div_le_div_iff₀ (by positivity) (by positivity)]
  nlinarith [mul_le_mul hTC hW2 hW.le (hT.le.trans hTC)]

/-- Of infinitely many independent draws, infinitely many are what was wanted. -/
theorem again {tc C : Nat} (l : Nat → Dict Int Nat) (hf : ∀ k, Fine tc (l k)) (hC : ∀ k, (l k).values.sum ≤ C) (i : Nat → Nat)
    (hi : StrictMono i) (id : Nat → Int) (o len : Nat → Nat) (hid : ∀ k, (l k).get? (id k) = some (len k)) (ho : ∀ k, o k + tc ≤ len k) :
    ∀ᵐ x ∂generators, ∃ᶠ k in atTop, win (fresh (l k)) tc (pair (i k) x) = (id k, (o k : Int), (o k : Int) + tc) := by
  let S : Nat → Set ((Nat → ℝ) × (Nat → ℝ)) := fun k => {x | win (fresh (l k)) tc (pair (i k) x) = (id k, (o k : Int), (o k : Int) + tc)}
  have hm : ∀ k, Measurable fun x => win (fresh (l k)) tc (pair (i k) x) := fun k =>
    (BatchMean.measurable_win _ _).comp (BatchMean.measurable_pair _)
  have hS : ∀ k, MeasurableSet (S k) := fun k => hm k (MeasurableSet.of_discrete (s := {(id k, (o k : Int), (o k : Int) + tc)}))
  have hind : iIndepFun (fun k x => win (fresh (l k)) tc (pair (i k) x)) generators :=
    (BatchMean.indep_pair.precomp hi.injective).comp _ fun k => BatchMean.measurable_win (fresh (l k)) tc
  have hindS : iIndepSet S generators := by
    rw [iIndepSet_iff_meas_biInter hS]
    intro t
    exact hind.measure_inter_preimage_eq_mul t (sets := fun k => {(id k, (o k : Int), (o k : Int) + tc)}) fun _ _ => MeasurableSet.of_discrete
  have hCp : 0 < C := by
    have h0 := Dict.mem_of_get? (hid 0)
    have := total_pos (hf 0) (List.ne_nil_of_mem h0)
    exact lt_of_lt_of_le this (hC 0)
  have hsum : ∑' k, generators (S k) = ∞ := by
    refine top_le_iff.1 (le_trans ?_ (ENNReal.tsum_le_tsum fun k => likely (hf k) (hC k) (hid k) (ho k) (i k)))
    rw [ENNReal.tsum_const_eq_top_of_ne_zero]
    have : (0 : ℝ) < 1 / (2 * C) := by positivity
    simpa [Nat.pos_iff_ne_zero] using this
  have := measure_limsup_eq_one hS hindS hsum
  have hae := (prob_compl_eq_zero_iff (MeasurableSet.measurableSet_limsup hS)).2 this
  rw [← mem_ae_iff] at hae
  filter_upwards [hae] with x hx
  exact (mem_limsup_iff_frequently_mem).1 hx

theorem first_le (ev : Nat → Event) {a b : Nat} (h : a ≤ b) : ∃ es, first ev b = first ev a ++ es := by
  obtain ⟨d, rfl⟩ := Nat.exists_eq_add_of_le h
  exact first_add ev a d

/-- One of the draws is what was wanted. -/
theorem wanted {tc C : Nat} {ev : Nat → Event} (hv : ∀ k, Valid tc (first ev k) []) (hC : ∀ k, (Starve.Spec.after (first ev k) []).values.sum ≤ C)
    {P : Nat → SamplePoint → Prop} (hP : ∃ᶠ k in atTop, ∃ (count : Nat) (id : Int) (len o : Nat), 0 < count ∧ ev k = .batch count ∧
      (Starve.Spec.after (first ev k) []).get? id = some len ∧ o + tc ≤ len ∧ P (sizes (first ev k)).length (id, (o : Int), (o : Int) + tc)) :
    ∀ᵐ x ∂generators, ∀ N, ∃ k count p, N ≤ (sizes (first ev k)).length ∧ ev k = .batch count ∧
      p ∈ (List.range count).map (fun q => win (fresh (Starve.Spec.after (first ev k) [])) tc
        (x.1 (0 + (sizes (first ev k)).sum + q), x.2 (0 + (sizes (first ev k)).sum + q))) ∧ P (sizes (first ev k)).length p := by
  obtain ⟨φ, hφ, h⟩ := extraction_of_frequently_atTop hP
  choose count id len o h1 h2 h3 h4 h5 using h
  have hnext : ∀ k, ∃ es, first ev (φ (k + 1)) = first ev (φ k) ++ (.batch (count k) :: es) := by
    intro k
    obtain ⟨es, hes⟩ := first_le ev (Nat.succ_le_of_lt (hφ (Nat.lt_succ_self k)))
    refine ⟨es, ?_⟩
    rw [hes, Nat.succ_eq_add_one, first_succ, h2]
    simp
  have hi : StrictMono fun k => (sizes (first ev (φ k))).sum := strictMono_nat_of_lt_succ fun k => by
    obtain ⟨es, hes⟩ := hnext k
    simp only [hes, sizes, List.filterMap_append, List.filterMap_cons, List.sum_append, List.sum_cons]
    have := h1 k
    omega
  have hj : StrictMono fun k => (sizes (first ev (φ k))).length := strictMono_nat_of_lt_succ fun k => by
    obtain ⟨es, hes⟩ := hnext k
    simp only [hes, sizes, List.filterMap_append, List.filterMap_cons, List.length_append, List.length_cons]
    omega
  filter_upwards [again (fun k => Starve.Spec.after (first ev (φ k)) []) (fun k => fine_after _ _ ⟨List.nodup_nil, by simp, by simp [Dict.keys]⟩ (hv _))
    (fun k => hC _) _ hi id o len h3 h4] with x hx N
  rw [frequently_atTop] at hx
  obtain ⟨k, hk, hw⟩ := hx N
  refine ⟨φ k, count k, _, hk.trans (hj.le_apply), h2 k, List.mem_map.2 ⟨0, List.mem_range.2 (h1 k), rfl⟩, ?_⟩
  simp only [Nat.zero_add, Nat.add_zero]
  simp only [pair] at hw
  rw [hw]
  exact h5 k

/-- **C172**: Sequences come and go in a bounded memory, and the uniform sampler draws batches from it. Whatever is wanted, from batch to batch
(`P i j` for batch `j`, for countably many `i`): if some window that is wanted is there at infinitely many batches, then with probability
one such a window is drawn infinitely often. -/
theorem C172 {tc : Nat} {ev : Nat → Event} (hv : ∀ k, Valid tc ((List.range k).map ev) []) {C : Nat}
    (hC : ∀ k, (Starve.Spec.after ((List.range k).map ev) []).values.sum ≤ C) {ι : Type} [Countable ι] {P : ι → Nat → SamplePoint → Prop}
    (hP : ∀ i, ∃ᶠ k in atTop, ∃ (count : Nat) (id : Int) (len o : Nat), 0 < count ∧ ev k = .batch count ∧
      (Starve.Spec.after ((List.range k).map ev) []).get? id = some len ∧ o + tc ≤ len ∧
      P i (sizes ((List.range k).map ev)).length (id, (o : Int), (o : Int) + tc)) :
    ∀ᵐ x ∂generators, ∃ batches : Nat → List SamplePoint,
      (∀ k, ∃ j, run tc x.1 x.2 ((List.range k).map ev) {} 0 = .ok ((List.range j).map batches) ∧
        ((List.range j).map batches).map List.length = sizes ((List.range k).map ev)) ∧
      ∀ i, ∃ᶠ j in atTop, ∃ p ∈ batches j, P i j p := by
  filter_upwards [BatchMean.ae_generators, ae_all_iff.2 fun i => wanted hv hC (hP i)] with x hx hw
  obtain ⟨b, hb⟩ := limit [] (fun n => outs tc x.1 x.2 (first ev n) [] 0) (fun n k => by
    obtain ⟨es, he⟩ := first_add ev n k
    simp only [he, outs_append]
    exact List.prefix_append _ _)
  refine ⟨b, fun k => ⟨(outs tc x.1 x.2 (first ev k) [] 0).length, ?_, ?_⟩, fun i => ?_⟩
  · rw [← hb]
    exact run_eq (fun k => (hx k).1) _ _ _ _ ⟨rfl, .inr ⟨rfl, rfl⟩⟩ ⟨List.nodup_nil, by simp, by simp [Dict.keys]⟩ (hv k)
  · rw [← hb]
    exact outs_sizes _ _ _ _ _ _
  · rw [frequently_atTop]
    intro N
    obtain ⟨k, count, p, h1, h2, h3, h4⟩ := hw i N
    refine ⟨_, h1, p, ?_, h4⟩
    have hlen : ∀ n, (outs tc x.1 x.2 (first ev n) [] 0).length = (sizes (first ev n)).length := fun n => by
      rw [← outs_sizes tc x.1 x.2 (first ev n) [] 0, List.length_map]
    have h5 : outs tc x.1 x.2 (first ev (k + 1)) [] 0 = outs tc x.1 x.2 (first ev k) [] 0 ++
        [(List.range count).map (fun q => win (fresh (Starve.Spec.after (first ev k) [])) tc
        (x.1 (0 + (sizes (first ev k)).sum + q), x.2 (0 + (sizes (first ev k)).sum + q)))] := by
      rw [first_succ, h2, outs_append]
      rfl
    have h6 := hb (k + 1)
    rw [h5, List.length_append, List.length_singleton, List.range_succ, List.map_append] at h6
    have h7 := List.append_inj_right h6 (by simp)
    simp only [List.map_cons, List.map_nil, List.cons.injEq, and_true] at h7
    rw [← hlen k, ← h7]
    exact h3

/-! ## Learning from it -/

open Verif.DqnRun (Setup Learner train)
open Verif.DqnRun.Spec (rowOf Usual)
open Verif.Dqn.Spec (Env Best table)
open Verif.Props.DqnCoverage (stepsOf sizes_at)

variable {n m : Nat}

/-- Every pair that comes back again and again is drawn again and again. -/
theorem drawn_all {ev : Nat → Event} (hv : ∀ k, Valid 1 ((List.range k).map ev) []) {C N : Nat}
    (hC : ∀ k, (Starve.Spec.after ((List.range k).map ev) []).values.sum ≤ C)
    (hN : ∀ k count, ev k = .batch count → 0 < count ∧ count ≤ N) {what : Nat → Int → Nat → Fin n × Fin (m + 1)}
    (hall : ∀ s a, ∃ᶠ k in atTop, ∃ (count : Nat) (id : Int) (len o : Nat), ev k = .batch count ∧
      (Starve.Spec.after ((List.range k).map ev) []).get? id = some len ∧ o < len ∧ what (sizes ((List.range k).map ev)).length id o = (s, a)) :
    ∀ᵐ x ∂generators, ∃ batches : Nat → List SamplePoint,
      (∀ k, ∃ j, run 1 x.1 x.2 ((List.range k).map ev) {} 0 = .ok ((List.range j).map batches)) ∧
      (∀ j, ∃ k, run 1 x.1 x.2 ((List.range k).map ev) {} 0 = .ok ((List.range j).map batches)) ∧
      (∀ j, batches j ≠ [] ∧ (batches j).length ≤ N) ∧
      ∀ y, ∃ᶠ j in atTop, ∃ p ∈ batches j, what j p.1 p.2.1.toNat = y := by
  have hinf' : ∃ᶠ k in atTop, ∃ count, 0 < count ∧ ev k = .batch count :=
    (hall (what 0 0 0).1 (what 0 0 0).2).mono fun k ⟨count, _, _, _, h, _⟩ => ⟨count, (hN k count h).1, h⟩
  have h172 := C172 hv hC (P := fun (y : Fin n × Fin (m + 1)) j p => what j p.1 p.2.1.toNat = y) (fun y => (hall y.1 y.2).mono
    fun k ⟨count, id, len, o, h1, h2, h3, h4⟩ => ⟨count, id, len, o, (hN k count h1).1, h1, h2, by omega, by simpa using h4⟩)
  rw [Nat.cast_one] at h172
  filter_upwards [h172] with x hx
  obtain ⟨batches, h1, h2⟩ := hx
  have hsz : ∀ k, ∀ z ∈ sizes ((List.range k).map ev), 0 < z ∧ z ≤ N := by
    intro k z hz
    simp only [sizes, List.mem_filterMap, List.mem_map] at hz
    obtain ⟨_, ⟨i, -, rfl⟩, hi⟩ := hz
    refine hN i z ?_
    cases hev : ev i <;> rw [hev] at hi <;> simp at hi
    rw [hi]
  refine ⟨batches, fun k => (h1 k).imp fun _ h => h.1, fun j => ?_, fun j => ?_, h2⟩
  · obtain ⟨k, -, hk, -⟩ := often hinf' j
    obtain ⟨k', hk'⟩ := sizes_at ev hk
    obtain ⟨l, hl1, hl2⟩ := h1 k'
    have := congrArg List.length hl2
    rw [first] at hk'
    simp only [List.length_map, List.length_range] at this
    rw [this, hk'] at hl1
    exact ⟨k', hl1⟩
  · obtain ⟨k, -, hk, -⟩ := often hinf' (j + 1)
    obtain ⟨l, -, h⟩ := h1 k
    have := congrArg List.length h
    simp only [List.length_map, List.length_range] at this
    rw [first] at hk
    have h3 := hsz k (batches j).length (by
      rw [← h]
      exact List.mem_map_of_mem (List.mem_map_of_mem (List.mem_range.2 (by omega))))
    exact ⟨List.length_pos_iff.1 h3.1, h3.2⟩

/-- C172 for Q-learning: no sequence has to stay. If every pair of an observation and an action is stored (by whatever sequence, `what j` being what the
sequences contain at batch `j`) at infinitely many batches, then learning from uniform batches tends, with probability one, to the best values. -/
theorem C172_dqn {ev : Nat → Event} (hv : ∀ k, Valid 1 ((List.range k).map ev) []) {C N : Nat}
    (hC : ∀ k, (Starve.Spec.after ((List.range k).map ev) []).values.sum ≤ C)
    (hN : ∀ k count, ev k = .batch count → 0 < count ∧ count ≤ N)
    (e : Env n m) {c : Setup} (hc : Usual c) {x0 : Learner n m} {t0 : Fin n → Fin (m + 1) → ℝ} (h0 : x0.target = table t0)
    {what : Nat → Int → Nat → Fin n × Fin (m + 1)}
    (hall : ∀ s a, ∃ᶠ k in atTop, ∃ (count : Nat) (id : Int) (len o : Nat), ev k = .batch count ∧
      (Starve.Spec.after ((List.range k).map ev) []).get? id = some len ∧ o < len ∧ what (sizes ((List.range k).map ev)).length id o = (s, a)) :
    ∀ᵐ x ∂generators, ∃ (learner : Nat → Learner n m) (t : Nat → Fin n → Fin (m + 1) → ℝ) (batches : Nat → List SamplePoint),
      (∀ k, ∃ j, run 1 x.1 x.2 ((List.range k).map ev) {} 0 = .ok ((List.range j).map batches) ∧
        train c ((List.range j).map fun i => DqnCoverage.rowsOf e (what i) (batches i)) x0 = .ok (learner j) ∧ (learner j).target = table (t j)) ∧
      (∀ j, ∃ k, run 1 x.1 x.2 ((List.range k).map ev) {} 0 = .ok ((List.range j).map batches)) ∧
      ∀ s a v, Best (e.scale c.scale) c.gamma s a v →
        Tendsto (fun j => (learner j).net.value (s, a)) atTop (𝓝 v) ∧ Tendsto (fun j => t j s a) atTop (𝓝 v) := by
  filter_upwards [drawn_all hv hC hN hall] with x hx
  obtain ⟨batches, h1, h2, h3, h4⟩ := hx
  obtain ⟨learner, t, g1, g2⟩ := DqnRun.C157 e hc h0 (b := fun j => DqnCoverage.rowsOf e (what j) (batches j))
    (fun j y hy => by
      obtain ⟨p, -, rfl⟩ := List.mem_map.1 hy
      exact ⟨_, _, rfl⟩)
    (N := N) (fun j => ⟨by simpa [DqnCoverage.rowsOf] using (h3 j).1, by simpa [DqnCoverage.rowsOf] using (h3 j).2⟩)
    (fun s a => (h4 (s, a)).mono fun j ⟨p, hp, hw⟩ => ⟨_, List.mem_map_of_mem hp, by simp [rowOf, hw], by simp [rowOf, hw]⟩)
  refine ⟨learner, t, batches, fun k => ?_, h2, g2⟩
  obtain ⟨j, hj⟩ := h1 k
  exact ⟨j, hj, (g1 j).1, (g1 j).2⟩

/-- C172 for the critics of soft actor-critic: they and their targets tend to the soft value of the policy. -/
theorem C172_sac {ev : Nat → Event} (hv : ∀ k, Valid 1 ((List.range k).map ev) []) {C N : Nat}
    (hC : ∀ k, (Starve.Spec.after ((List.range k).map ev) []).values.sum ≤ C)
    (hN : ∀ k count, ev k = .batch count → 0 < count ∧ count ≤ N)
    (e : Env n m) {c : SacCritics.Setup (Fin n) (Fin (m + 1)) n m} (hc : SacCritics.Spec.Usual c) (hp : SacCritics.Spec.Plain c)
    {x0 : SacCritics.Learner n m} {t1 t2 : Fin n → Fin (m + 1) → ℝ} (ht1 : x0.q1t = table t1) (ht2 : x0.q2t = table t2)
    {what : Nat → Int → Nat → Fin n × Fin (m + 1)}
    (hall : ∀ s a, ∃ᶠ k in atTop, ∃ (count : Nat) (id : Int) (len o : Nat), ev k = .batch count ∧
      (Starve.Spec.after ((List.range k).map ev) []).get? id = some len ∧ o < len ∧ what (sizes ((List.range k).map ev)).length id o = (s, a)) :
    ∀ᵐ x ∂generators, ∃ (learner : Nat → SacCritics.Learner n m) (u1 u2 : Nat → Fin n → Fin (m + 1) → ℝ) (batches : Nat → List SamplePoint),
      (∀ k, ∃ j, run 1 x.1 x.2 ((List.range k).map ev) {} 0 = .ok ((List.range j).map batches) ∧
        SacCritics.train c ((List.range j).map fun i => SacCritics.Spec.batchOf (stepsOf e (what i) (batches i))) x0 = .ok (learner j) ∧
        (learner j).q1t = table (u1 j) ∧ (learner j).q2t = table (u2 j)) ∧
      (∀ j, ∃ k, run 1 x.1 x.2 ((List.range k).map ev) {} 0 = .ok ((List.range j).map batches)) ∧
      ∀ s a, ∃ v, SacCritics.Spec.Value e c s a v ∧
        Tendsto (fun j => (learner j).q1.value (s, a)) atTop (𝓝 v) ∧ Tendsto (fun j => (learner j).q2.value (s, a)) atTop (𝓝 v) ∧
        Tendsto (fun j => u1 j s a) atTop (𝓝 v) ∧ Tendsto (fun j => u2 j s a) atTop (𝓝 v) := by
  filter_upwards [drawn_all hv hC hN hall] with x hx
  obtain ⟨batches, h1, h2, h3, h4⟩ := hx
  obtain ⟨learner, u1, u2, g1, g2⟩ := SacCritics.C164 e hc hp ht1 ht2 (l := fun j => (batches j).map fun p => what j p.1 p.2.1.toNat)
    (N := N) (fun j => ⟨by simpa using (h3 j).1, by simpa using (h3 j).2⟩)
    (fun y => (h4 y).mono fun j ⟨p, hp, hw⟩ => List.mem_map.2 ⟨p, hp, hw⟩)
  refine ⟨learner, u1, u2, batches, fun k => ?_, h2, g2⟩
  obtain ⟨j, hj⟩ := h1 k
  refine ⟨j, hj, ?_, (g1 j).2⟩
  rw [← (g1 j).1]
  congr 1
  refine List.map_congr_left fun i _ => ?_
  simp [stepsOf, List.map_map, Function.comp_def]

/-! ## A concrete case -/

namespace Ex

/-- Sequences of two steps come and go; one batch is drawn from each. None stays. -/
def ev (k : Nat) : Event := match k % 3 with | 0 => .track 7 2 | 1 => .batch 1 | _ => .forget 7

theorem invariant (k : Nat) : Valid 1 (first ev k) [] ∧
    Starve.Spec.after (first ev k) [] = (if k % 3 = 0 then [] else [(7, 2)]) ∧ (sizes (first ev k)).length = (k + 1) / 3 := by
  induction k with
  | zero => exact ⟨trivial, rfl, rfl⟩
  | succ k ih =>
    rw [first_succ, Starve.Ex.valid_append, Starve.Ex.after_append, DqnCoverage.sizes_append, List.length_append, ih.2.1, ih.2.2]
    have h3 : k % 3 = 0 ∨ k % 3 = 1 ∨ k % 3 = 2 := by omega
    refine ⟨⟨ih.1, ?_⟩, ?_, ?_⟩
    · rcases h3 with h | h | h <;> simp [ev, Valid, h, Dict.keys]
    · rcases h3 with h | h | h
      · rw [if_neg (by omega : ¬ (k + 1) % 3 = 0)]
        simp [ev, Starve.Spec.after, h, Dict.set]
      · rw [if_neg (by omega : ¬ (k + 1) % 3 = 0)]
        simp [ev, Starve.Spec.after, h]
      · rw [if_pos (by omega : (k + 1) % 3 = 0)]
        simp [ev, Starve.Spec.after, h, Dict.erase]
    · rcases h3 with h | h | h <;> simp [ev, sizes, h] <;> omega

theorem bounded (k : Nat) : (Starve.Spec.after ((List.range k).map ev) []).values.sum ≤ 2 := by
  have := (invariant k).2.1
  rw [first] at this
  rw [this]
  split <;> simp [Dict.values]

theorem single (k count : Nat) (h : ev k = .batch count) : 0 < count ∧ count ≤ 1 := by
  unfold ev at h
  split at h <;> simp at h
  omega

/-- The sequences show the first and the second observation in turn, with both actions. -/
def what (j : Nat) (_ : Int) (o : Nat) : Fin 2 × Fin 2 := (if j % 2 = 0 then 0 else 1, if o = 0 then 0 else 1)

theorem shown (r o : Nat) (hr : r < 2) (ho : o < 2) : ∃ᶠ k in atTop, ∃ (count : Nat) (id : Int) (len o' : Nat), ev k = .batch count ∧
    (Starve.Spec.after ((List.range k).map ev) []).get? id = some len ∧ o' < len ∧ what (sizes ((List.range k).map ev)).length id o' = what r id o := by
  rw [frequently_atTop]
  intro N
  refine ⟨3 * (2 * N + r) + 1, by omega, 1, 7, 2, o, ?_, ?_, ho, ?_⟩
  · rw [ev, show (3 * (2 * N + r) + 1) % 3 = 1 by omega]; rfl
  · have := (invariant (3 * (2 * N + r) + 1)).2.1
    rw [first] at this
    rw [this, if_neg (by omega)]
    rfl
  · have := (invariant (3 * (2 * N + r) + 1)).2.2
    rw [first] at this
    rw [this, what, what, show (3 * (2 * N + r) + 1 + 1) / 3 % 2 = r % 2 by omega]

/-- The second step of every other sequence is drawn again and again. -/
example : ∀ᵐ x ∂generators, ∃ batches : Nat → List SamplePoint,
    (∀ k, ∃ j, run 1 x.1 x.2 ((List.range k).map ev) {} 0 = .ok ((List.range j).map batches)) ∧ ∃ᶠ j in atTop, j % 2 = 1 ∧ (7, 1, 2) ∈ batches j := by
  have h := C172 (tc := 1) (fun k => (invariant k).1) (C := 2) bounded (ι := Unit) (P := fun _ j p => j % 2 = 1 ∧ p = (7, 1, 2)) (fun _ => by
    rw [frequently_atTop]
    intro N
    refine ⟨3 * (2 * N + 1) + 1, by omega, 1, 7, 2, 1, one_pos, ?_, ?_, le_rfl, ?_, rfl⟩
    · rw [ev, show (3 * (2 * N + 1) + 1) % 3 = 1 by omega]; rfl
    · have := (invariant (3 * (2 * N + 1) + 1)).2.1
      rw [first] at this
      rw [this, if_neg (by omega)]
      rfl
    · have := (invariant (3 * (2 * N + 1) + 1)).2.2
      rw [first] at this
      omega)
  rw [Nat.cast_one] at h
  filter_upwards [h] with x hx
  obtain ⟨b, h1, h2⟩ := hx
  refine ⟨b, fun k => (h1 k).imp fun _ h => h.1, (h2 ()).mono ?_⟩
  rintro j ⟨_, hp, h, rfl⟩
  exact ⟨h, hp⟩

theorem shown_all (s a : Fin 2) : ∃ᶠ k in atTop, ∃ (count : Nat) (id : Int) (len o : Nat), ev k = .batch count ∧
    (Starve.Spec.after ((List.range k).map ev) []).get? id = some len ∧ o < len ∧ what (sizes ((List.range k).map ev)).length id o = (s, a) := by
  refine (shown s a s.2 a.2).mono ?_
  rintro k ⟨count, id, len, o, h1, h2, h3, h4⟩
  refine ⟨count, id, len, o, h1, h2, h3, h4.trans ?_⟩
  fin_cases s <;> fin_cases a <;> simp [what]

/-- The table learns that action 0 in the first observation is worth 1/4 and action 1 is worth 1/2. -/
example : ∀ᵐ x ∂generators, ∃ (learner : Nat → Learner 2 1) (batches : Nat → List SamplePoint),
    (∀ k, ∃ j, run 1 x.1 x.2 ((List.range k).map ev) {} 0 = .ok ((List.range j).map batches) ∧
      train DqnRun.Ex.setup ((List.range j).map fun i => DqnCoverage.rowsOf Dqn.Ex.env (what i) (batches i)) DqnRun.Ex.start = .ok (learner j)) ∧
    Tendsto (fun j => (learner j).net.value (0, 0)) atTop (𝓝 (1 / 4)) ∧ Tendsto (fun j => (learner j).net.value (0, 1)) atTop (𝓝 (1 / 2)) := by
  filter_upwards [C172_dqn (ev := ev) (fun k => (invariant k).1) (C := 2) (N := 1) bounded single
    Dqn.Ex.env DqnRun.Ex.usual (show DqnRun.Ex.start.target = table (fun (_ : Fin 2) (_ : Fin 2) => (-5 : ℝ)) from rfl) (what := what)
    shown_all] with x hx
  obtain ⟨learner, t, batches, h1, -, h2⟩ := hx
  have he : Dqn.Ex.env.scale DqnRun.Ex.setup.scale = Dqn.Ex.env := by simp [Env.scale, DqnRun.Ex.setup]
  rw [he] at h2
  refine ⟨learner, batches, fun k => ?_, (h2 0 0 _ ?_).1, (h2 0 1 _ ?_).1⟩
  · obtain ⟨j, g1, g2, -⟩ := h1 k
    exact ⟨j, g1, g2⟩
  · simpa [Dqn.Ex.best, DqnRun.Ex.setup] using Dqn.fixed_best Dqn.Ex.env (g := 1 / 2) (by norm_num) (by norm_num) Dqn.Ex.fixed 0 0
  · simpa [Dqn.Ex.best, DqnRun.Ex.setup] using Dqn.fixed_best Dqn.Ex.env (g := 1 / 2) (by norm_num) (by norm_num) Dqn.Ex.fixed 0 1

/-- Both critics learn that action 0 is worth 3 and action 1 is worth 11. -/
example : ∀ᵐ x ∂generators, ∃ (learner : Nat → SacCritics.Learner 1 1) (batches : Nat → List SamplePoint),
    (∀ k, ∃ j, run 1 x.1 x.2 ((List.range k).map ev) {} 0 = .ok ((List.range j).map batches) ∧
      SacCritics.train SacCritics.ExEnv.setup ((List.range j).map fun i =>
        SacCritics.Spec.batchOf (stepsOf SacCritics.ExEnv.env (fun id o => (0, (what i id o).2)) (batches i))) SacCritics.ExEnv.start = .ok (learner j)) ∧
    Tendsto (fun j => (learner j).q1.value (0, 0)) atTop (𝓝 3) ∧ Tendsto (fun j => (learner j).q2.value (0, 1)) atTop (𝓝 11) := by
  filter_upwards [C172_sac (ev := ev) (fun k => (invariant k).1) (C := 2) (N := 1) bounded single
    SacCritics.ExEnv.env SacCritics.ExEnv.usual ⟨fun _ _ => rfl, fun _ _ => rfl, rfl⟩ (x0 := SacCritics.ExEnv.start) (t1 := fun _ _ => -5)
    (t2 := fun _ _ => 8) rfl rfl (what := fun j id o => (0, (what j id o).2))
    (fun s a => (shown_all 0 a).mono fun k ⟨count, id, len, o, h1, h2, h3, h4⟩ => ⟨count, id, len, o, h1, h2, h3, by
      rw [h4, Subsingleton.elim s 0]⟩)] with x hx
  obtain ⟨learner, u1, u2, batches, h1, -, h2⟩ := hx
  refine ⟨learner, batches, fun k => ?_, ?_, ?_⟩
  · obtain ⟨j, g1, g2, -⟩ := h1 k
    exact ⟨j, g1, g2⟩
  · obtain ⟨x, hx, h1, -⟩ := h2 0 0
    rw [tendsto_nhds_unique hx (SacCritics.ExEnv.values 0 0)] at h1
    simpa using h1
  · obtain ⟨x, hx, -, h2, -⟩ := h2 0 1
    rw [tendsto_nhds_unique hx (SacCritics.ExEnv.values 0 1)] at h2
    simpa using h2

end Ex

end UniformDraws

end Verif.Props
