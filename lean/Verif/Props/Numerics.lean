import Verif.Model.Numerics
import Mathlib.Tactic.Ring
import Mathlib.Tactic.Linarith
import Mathlib.Tactic.FieldSimp
import Mathlib.Tactic.LinearCombination
import Mathlib.Algebra.Order.Ring.Rat
import Mathlib.Analysis.SpecificLimits.Basic
import Mathlib.MeasureTheory.Integral.IntervalIntegral.FundThmCalculus

/-!
# Target networks, temperature, HL-Gauss (C61, C62, C64)
-/

namespace Verif

namespace Numerics

section

variable {K : Type u} [Field K]

/-! ## C61 -/

/-- element `j` of parameter `i` -/
def at? (n : Net K) (i j : Nat) : Option K := n[i]?.bind fun p => p[j]?

/-- The networks have the same parameters: as many, and of the same sizes. -/
def SameShape (a b : Net K) : Prop := a.map List.length = b.map List.length

/-- some number of updates towards a source that does not change -/
def updates (source : Net K) (tau : K) : Nat → Net K → Net K
  | 0, target => target
  | k + 1, target => updates source tau k (softUpdate source target tau)

theorem at?_softUpdate (source target : Net K) (tau : K) (h : SameShape source target) (i j : Nat) :
    at? (softUpdate source target tau) i j =
      match at? source i j, at? target i j with
      | some s, some t => some (t * (1 - tau) + s * tau)
      | _, _ => none := by
  induction target generalizing source i with
  | nil => 
    cases source with
    | nil => simp [softUpdate, at?]
    | cons s source => simp [SameShape] at h
  | cons t target ih =>
    cases source with
    | nil => simp [SameShape] at h
    | cons s source =>
      simp only [SameShape, List.map_cons, List.cons.injEq] at h
      cases i with
      | zero =>
        simp only [softUpdate, at?, List.getElem?_cons_zero, Option.bind_some, List.getElem?_zipWith]
        cases s[j]? <;> cases t[j]? <;> rfl
      | succ i => simpa [softUpdate, at?] using ih source h.2 i

theorem shape_softUpdate (source target : Net K) (tau : K) (h : SameShape source target) :
    SameShape source (softUpdate source target tau) := by
  induction target generalizing source with
  | nil => cases source with
    | nil => rfl
    | cons s source => simp [SameShape] at h
  | cons t target ih =>
    cases source with
    | nil => simp [SameShape] at h
    | cons s source =>
      simp only [SameShape, List.map_cons, List.cons.injEq] at h
      simp only [SameShape, softUpdate, List.map_cons, List.cons.injEq, List.length_zipWith]
      exact ⟨by omega, ih source h.2⟩

/-- C61: after k updates towards a fixed source, the distance of every element from the source is (1 - tau)^k times what
it was. -/
theorem C61_distance (source target : Net K) (tau : K) (h : SameShape source target) (k i j : Nat) (s t : K)
    (hs : at? source i j = some s) (ht : at? target i j = some t) :
    ∃ t', at? (updates source tau k target) i j = some t' ∧ t' - s = (1 - tau) ^ k * (t - s) := by
  induction k generalizing target t with
  | zero => exact ⟨t, ht, by ring⟩
  | succ k ih =>
    obtain ⟨t', h1, h2⟩ := ih (softUpdate source target tau) (shape_softUpdate source target tau h)
      (t * (1 - tau) + s * tau) (by rw [at?_softUpdate _ _ _ h, hs, ht])
    exact ⟨t', h1, by rw [h2]; ring⟩

/-- C61: an update keeps the number and the sizes of the parameters. -/
theorem C61_shape (source target : Net K) (tau : K) (h : SameShape source target) (k : Nat) :
    SameShape source (updates source tau k target) := by
  induction k generalizing target with
  | zero => exact h
  | succ k ih => exact ih _ (shape_softUpdate source target tau h)

/-- C61: parameters of the target that have no counterpart stay as they are. -/
theorem C61_others (source target : Net K) (tau : K) (i : Nat) (h : source.length ≤ i) :
    (softUpdate source target tau)[i]? = target[i]? := by
  induction target generalizing source i with
  | nil => cases source <;> simp [softUpdate]
  | cons t target ih =>
    cases source with
    | nil => simp [softUpdate]
    | cons s source =>
      cases i with
      | zero => simp at h
      | succ i => simpa [softUpdate] using ih source i (by simpa using h)

variable [LinearOrder K] [IsStrictOrderedRing K]

/-- C61: with tau in [0, 1], every element of the target ends between its old value and the source's. -/
theorem C61_between (source target : Net K) (tau : K) (h : SameShape source target) (h0 : 0 ≤ tau) (h1 : tau ≤ 1)
    (i j : Nat) (s t : K) (hs : at? source i j = some s) (ht : at? target i j = some t) :
    ∃ t', at? (softUpdate source target tau) i j = some t' ∧ min s t ≤ t' ∧ t' ≤ max s t := by
  refine ⟨t * (1 - tau) + s * tau, by rw [at?_softUpdate _ _ _ h, hs, ht], ?_, ?_⟩
  · rcases le_total s t with hst | hst
    · rw [min_eq_left hst]; nlinarith
    · rw [min_eq_right hst]; nlinarith
  · rcases le_total s t with hst | hst
    · rw [max_eq_right hst]; nlinarith
    · rw [max_eq_left hst]; nlinarith

end

/-- C61: with tau in (0, 1], the target converges to the source. -/
theorem C61_converges (source target : Net ℝ) (tau : ℝ) (h : SameShape source target) (h0 : 0 < tau) (h1 : tau ≤ 1)
    (i j : Nat) (s t : ℝ) (hs : at? source i j = some s) (ht : at? target i j = some t) :
    ∃ f : ℕ → ℝ, (∀ k, at? (updates source tau k target) i j = some (f k)) ∧
      Filter.Tendsto f Filter.atTop (nhds s) := by
  refine ⟨fun k => s + (1 - tau) ^ k * (t - s), fun k => ?_, ?_⟩
  · obtain ⟨t', e1, e2⟩ := C61_distance source target tau h k i j s t hs ht
    rw [e1]; congr 1; linear_combination e2
  · have := (tendsto_pow_atTop_nhds_zero_of_lt_one (r := 1 - tau) (by linarith) (by linarith)).mul_const (t - s)
    simpa using this.const_add s

/-- `k` batches during which the networks do not change -/
def SacNets.batches {K : Type u} [Field K] : Nat → SacNets K → SacNets K
  | 0, n => n
  | k + 1, n => batches k n.endBatch

def DqnNets.batches {K : Type u} [Field K] : Nat → DqnNets K → DqnNets K
  | 0, n => n
  | k + 1, n => batches k n.endBatch

theorem sac_batches {K : Type u} [Field K] (n : SacNets K) (k : Nat) :
    n.batches k = { n with q1t := updates n.q1 n.tau k n.q1t, q2t := updates n.q2 n.tau k n.q2t } := by
  induction k generalizing n with
  | zero => rfl
  | succ k ih => rw [SacNets.batches, ih]; rfl

theorem dqn_batches {K : Type u} [Field K] (n : DqnNets K) (k : Nat) :
    n.batches k = { n with target := updates n.q n.tau k n.target } := by
  induction k generalizing n with
  | zero => rfl
  | succ k ih => rw [DqnNets.batches, ih]; rfl

/-- `far k source before after`: every element of `after` is (1 - tau)^k times as far from the source as that of `before` -/
def Spec.Shrunk {K : Type u} [Field K] (tau : K) (k : Nat) (source before after : Net K) : Prop :=
  SameShape before after ∧ ∀ i j s t, at? source i j = some s → at? before i j = some t →
    ∃ t', at? after i j = some t' ∧ t' - s = (1 - tau) ^ k * (t - s)

/-- C61 for SAC: each target network goes to its own network, and the networks are not written. -/
theorem C61_sac {K : Type u} [Field K] (n : SacNets K) (k : Nat) (h1 : SameShape n.q1 n.q1t) (h2 : SameShape n.q2 n.q2t) :
    Spec.Shrunk n.tau k n.q1 n.q1t (n.batches k).q1t ∧ Spec.Shrunk n.tau k n.q2 n.q2t (n.batches k).q2t ∧
      (n.batches k).q1 = n.q1 ∧ (n.batches k).q2 = n.q2 := by
  rw [sac_batches]
  refine ⟨⟨h1.symm.trans (C61_shape _ _ _ h1 k), fun i j s t => C61_distance _ _ _ h1 k i j s t⟩,
    ⟨h2.symm.trans (C61_shape _ _ _ h2 k), fun i j s t => C61_distance _ _ _ h2 k i j s t⟩, rfl, rfl⟩

/-- C61 for DQN -/
theorem C61_dqn {K : Type u} [Field K] (n : DqnNets K) (k : Nat) (h : SameShape n.q n.target) :
    Spec.Shrunk n.tau k n.q n.target (n.batches k).target ∧ (n.batches k).q = n.q := by
  rw [dqn_batches]
  exact ⟨⟨h.symm.trans (C61_shape _ _ _ h k), fun i j s t => C61_distance _ _ _ h k i j s t⟩, rfl⟩

/-! ### While the networks are trained -/

/-- the target after `k` batches, at whose ends the network was `source 0`, `source 1`, … -/
def follow {K : Type u} [Field K] (source : Nat → Net K) (tau : K) (target : Net K) : Nat → Net K
  | 0 => target
  | k + 1 => softUpdate (source k) (follow source tau target k) tau

/-- SAC: batches, at whose ends training has made the networks what the two sequences say -/
def SacNets.training {K : Type u} [Field K] (q1 q2 : Nat → Net K) (n : SacNets K) : Nat → SacNets K
  | 0 => n
  | k + 1 => { n.training q1 q2 k with q1 := q1 k, q2 := q2 k }.endBatch

/-- DQN -/
def DqnNets.training {K : Type u} [Field K] (q : Nat → Net K) (n : DqnNets K) : Nat → DqnNets K
  | 0 => n
  | k + 1 => { n.training q k with q := q k }.endBatch

theorem sac_training {K : Type u} [Field K] (q1 q2 : Nat → Net K) (n : SacNets K) (k : Nat) :
    (n.training q1 q2 k).q1t = follow q1 n.tau n.q1t k ∧ (n.training q1 q2 k).q2t = follow q2 n.tau n.q2t k ∧
      (n.training q1 q2 k).tau = n.tau := by
  induction k with
  | zero => exact ⟨rfl, rfl, rfl⟩
  | succ k ih =>
    obtain ⟨h1, h2, h3⟩ := ih
    simp only [SacNets.training, SacNets.endBatch, follow, h1, h2, h3, and_self]

theorem dqn_training {K : Type u} [Field K] (q : Nat → Net K) (n : DqnNets K) (k : Nat) :
    (n.training q k).target = follow q n.tau n.target k ∧ (n.training q k).tau = n.tau := by
  induction k with
  | zero => exact ⟨rfl, rfl⟩
  | succ k ih =>
    obtain ⟨h1, h2⟩ := ih
    simp only [DqnNets.training, DqnNets.endBatch, follow, h1, h2, and_self]

/-- `target k` is the target before batch `k`, at whose end the network is `source k`: for each element, if the network moves by at most
`delta` from batch to batch, then the target is never further behind than `(1 - tau) / tau * delta`, and what it was away at the beginning,
which fades; and if the network comes to rest, then the target comes to the same numbers. -/
def Spec.Follows (tau : ℝ) (source target : Nat → Net ℝ) : Prop :=
  ∀ i j t0, at? (target 0) i j = some t0 → ∃ s t : Nat → ℝ, (∀ k, at? (source k) i j = some (s k)) ∧ (∀ k, at? (target k) i j = some (t k)) ∧
    (∀ delta, (∀ k, |s (k + 1) - s k| ≤ delta) →
      ∀ k, |t (k + 1) - s k| ≤ (1 - tau) ^ (k + 1) * |t0 - s 0| + (1 - tau) / tau * delta) ∧
    ∀ l, Filter.Tendsto s Filter.atTop (nhds l) → Filter.Tendsto t Filter.atTop (nhds l)

theorem at?_of_shape {a b : Net ℝ} (h : SameShape a b) {i j : Nat} {x : ℝ} (hx : at? a i j = some x) : ∃ y, at? b i j = some y := by
  unfold at? at hx ⊢
  rw [Option.bind_eq_some_iff] at hx
  obtain ⟨p, hp, hx⟩ := hx
  have : (a.map List.length)[i]? = some p.length := by rw [List.getElem?_map, hp]; rfl
  rw [h, List.getElem?_map, Option.map_eq_some_iff] at this
  obtain ⟨p', hp', hl⟩ := this
  have hj : j < p'.length := by rw [hl]; exact (List.getElem?_eq_some_iff.mp hx).1
  exact ⟨p'[j], by rw [hp', Option.bind_some, List.getElem?_eq_getElem hj]⟩

theorem follow_shape (source : Nat → Net ℝ) (tau : ℝ) (target : Net ℝ) (h : ∀ k, SameShape (source k) target) (k : Nat) :
    SameShape target (follow source tau target k) := by
  induction k with
  | zero => rfl
  | succ k ih => exact (h k).symm.trans (shape_softUpdate _ _ _ ((h k).trans ih))

theorem follows (source : Nat → Net ℝ) (tau : ℝ) (target : Net ℝ) (h : ∀ k, SameShape (source k) target) (h0 : 0 < tau) (h1 : tau ≤ 1) :
    Spec.Follows tau source (follow source tau target) := by
  intro i j t0 ht0
  have ht0' : at? target i j = some t0 := ht0
  choose s hs using fun k => at?_of_shape (h k).symm ht0'
  choose t ht using fun k => at?_of_shape (follow_shape source tau target h k) ht0'
  have e0 : t 0 = t0 := Option.some.inj ((ht 0).symm.trans ht0)
  have hrec : ∀ k, t (k + 1) = t k * (1 - tau) + s k * tau := fun k => by
    have e := ht (k + 1)
    rw [follow, at?_softUpdate _ _ _ ((h k).trans (follow_shape source tau target h k)), hs, ht] at e
    exact (Option.some.inj e).symm
  refine ⟨s, t, hs, ht, fun delta hd k => ?_, fun l hl => ?_⟩
  · have hd0 : 0 ≤ delta := (abs_nonneg _).trans (hd 0)
    induction k with
    | zero =>
      rw [hrec, e0, show t0 * (1 - tau) + s 0 * tau - s 0 = (1 - tau) * (t0 - s 0) by ring, abs_mul,
        abs_of_nonneg (by linarith : 0 ≤ 1 - tau), pow_one]
      have : 0 ≤ (1 - tau) / tau * delta := mul_nonneg (div_nonneg (by linarith) h0.le) hd0
      linarith
    | succ k ih =>
      rw [hrec, show t (k + 1) * (1 - tau) + s (k + 1) * tau - s (k + 1) = (1 - tau) * ((t (k + 1) - s k) - (s (k + 1) - s k)) by ring,
        abs_mul, abs_of_nonneg (by linarith : 0 ≤ 1 - tau)]
      have a1 : |t (k + 1) - s k - (s (k + 1) - s k)| ≤ |t (k + 1) - s k| + |s (k + 1) - s k| := abs_sub _ _
      have a2 := hd k
      have a3 : (1 - tau) * |t (k + 1) - s k - (s (k + 1) - s k)| ≤
          (1 - tau) * ((1 - tau) ^ (k + 1) * |t0 - s 0| + (1 - tau) / tau * delta + delta) :=
        mul_le_mul_of_nonneg_left (by linarith) (by linarith)
      refine a3.trans (le_of_eq ?_)
      rw [pow_succ (1 - tau) (k + 1)]
      field_simp
      ring
  · rw [Metric.tendsto_atTop]
    intro ε hε
    obtain ⟨n, hn⟩ := Metric.tendsto_atTop.mp hl (ε / 2) (by linarith)
    have hbound : ∀ m, |t (n + m) - l| ≤ (1 - tau) ^ m * |t n - l| + ε / 2 := by
      intro m
      induction m with
      | zero => simp; linarith
      | succ m ih =>
        have hm := (hn (n + m) (by omega)).le
        rw [Real.dist_eq] at hm
        rw [← Nat.add_assoc, hrec,
          show t (n + m) * (1 - tau) + s (n + m) * tau - l = (1 - tau) * (t (n + m) - l) + tau * (s (n + m) - l) by ring]
        refine (abs_add_le _ _).trans ?_
        rw [abs_mul, abs_mul, abs_of_nonneg (by linarith : 0 ≤ 1 - tau), abs_of_pos h0, pow_succ]
        nlinarith
    have hz := (tendsto_pow_atTop_nhds_zero_of_lt_one (r := 1 - tau) (by linarith) (by linarith)).mul_const |t n - l|
    rw [zero_mul] at hz
    obtain ⟨m, hm⟩ := Metric.tendsto_atTop.mp hz (ε / 2) (by linarith)
    refine ⟨n + m, fun k hk => ?_⟩
    obtain ⟨k, rfl⟩ := Nat.exists_eq_add_of_le hk
    have a := hbound (m + k)
    have b := hm (m + k) (by omega)
    rw [Real.dist_eq, sub_zero] at b
    rw [Real.dist_eq, Nat.add_assoc]
    linarith [le_abs_self ((1 - tau) ^ (m + k) * |t n - l|)]

/-- C61 while the networks are trained, in whatever way: the target networks follow, with a lag that is bounded by how fast the networks
move, and to the same limit. -/
theorem C61_follows (n : SacNets ℝ) (d : DqnNets ℝ) (h0 : 0 < n.tau ∧ n.tau ≤ 1) (hd : 0 < d.tau ∧ d.tau ≤ 1) (q1 q2 q : Nat → Net ℝ)
    (h1 : ∀ k, SameShape (q1 k) n.q1t) (h2 : ∀ k, SameShape (q2 k) n.q2t) (h3 : ∀ k, SameShape (q k) d.target) :
    Spec.Follows n.tau q1 (fun k => (n.training q1 q2 k).q1t) ∧ Spec.Follows n.tau q2 (fun k => (n.training q1 q2 k).q2t) ∧
      Spec.Follows d.tau q (fun k => (d.training q k).target) := by
  simp only [sac_training, dqn_training]
  exact ⟨follows _ _ _ h1 h0.1 h0.2, follows _ _ _ h2 h0.1 h0.2, follows _ _ _ h3 hd.1 hd.2⟩

/-- a network that goes on by 1 with every batch: the target is at most 1 + |t| behind, with tau = 1/2 and t at the beginning -/
example : Spec.Follows (1 / 2) (fun k => [[(k : ℝ)]])
    (fun k => ((⟨[[0]], [[5]], 1 / 2⟩ : DqnNets ℝ).training (fun k => [[(k : ℝ)]]) k).target) :=
  (C61_follows ⟨[], [], [], [], 1⟩ ⟨[[0]], [[5]], 1 / 2⟩ (by norm_num) (by norm_num) (fun _ => []) (fun _ => []) (fun k => [[(k : ℝ)]])
    (fun _ => rfl) (fun _ => rfl) fun _ => rfl).2.2

example : updates [[1, 2], [3]] (1 / 2) 2 ([[5, 2], [0]] : Net ℚ) = [[2, 2], [9 / 4]] := by decide +kernel
example : at? ([[5, 2], [0]] : Net ℚ) 0 0 = some 5 := by decide +kernel

example : (SacNets.batches 2 ⟨[[1]], [[0]], [[5]], [[8]], (1 / 2 : ℚ)⟩).q2t = [[2]] := by decide +kernel

/-! ## C62 -/

theorem run_snoc (a : Alpha) (opts : List (ℝ → ℝ)) (opt : ℝ → ℝ) :
    a.run (opts ++ [opt]) = ((a.run opts).backward opt).endBatch := by
  simp [Alpha.run]

theorem run_max (a : Alpha) (opts : List (ℝ → ℝ)) : (a.run opts).maxLnAlpha = a.maxLnAlpha := by
  induction opts generalizing a with
  | nil => rfl
  | cons o opts ih => exact ih _

/-- C62: after every batch the temperature is at most the limit, whatever the optimiser does and wherever it begins, and
so are all logged values, of which there is one for each batch. -/
theorem C62_bound (ln maxAlpha : ℝ) (hm : 0 < maxAlpha) (opts : List (ℝ → ℝ)) :
    (opts ≠ [] → Real.exp ((Alpha.new ln maxAlpha).run opts).lnAlpha ≤ maxAlpha) ∧
      ((Alpha.new ln maxAlpha).run opts).logged.length = opts.length ∧
      ∀ v ∈ ((Alpha.new ln maxAlpha).run opts).logged, 0 < v ∧ v ≤ maxAlpha := by
  have key : ∀ x : ℝ, Real.exp (min x (Real.log maxAlpha)) ≤ maxAlpha := fun x => by
    calc Real.exp (min x (Real.log maxAlpha)) ≤ Real.exp (Real.log maxAlpha) := Real.exp_le_exp.mpr (min_le_right _ _)
      _ = maxAlpha := Real.exp_log hm
  induction opts using List.reverseRecOn with
  | nil => simp [Alpha.run, Alpha.new]
  | append_singleton opts opt ih =>
    have hl : (((Alpha.new ln maxAlpha).run opts).backward opt).maxLnAlpha = Real.log maxAlpha :=
      run_max (Alpha.new ln maxAlpha) opts
    rw [run_snoc]
    refine ⟨fun _ => ?_, ?_, fun v hv => ?_⟩
    · simp only [Alpha.endBatch, hl]; exact key _
    · simpa [Alpha.endBatch, Alpha.backward] using ih.2.1
    · simp only [Alpha.endBatch, hl, List.mem_append, List.mem_singleton] at hv
      rcases hv with hv | rfl
      · exact ih.2.2 v hv
      · exact ⟨Real.exp_pos _, key _⟩

/-- C62: a temperature that the optimiser has left within the limit is not changed, and one above becomes the limit. -/
theorem C62_exact (ln maxAlpha : ℝ) (hm : 0 < maxAlpha) (opts : List (ℝ → ℝ)) (opt : ℝ → ℝ) :
    Real.exp ((Alpha.new ln maxAlpha).run (opts ++ [opt])).lnAlpha =
      let alpha := Real.exp (opt ((Alpha.new ln maxAlpha).run opts).lnAlpha)
      if alpha ≤ maxAlpha then alpha else maxAlpha := by
  have hl : (((Alpha.new ln maxAlpha).run opts).backward opt).maxLnAlpha = Real.log maxAlpha :=
    run_max (Alpha.new ln maxAlpha) opts
  rw [run_snoc]
  simp only [Alpha.endBatch, hl]
  simp only [Alpha.backward]
  split
  · next h => rw [min_eq_left ((Real.le_log_iff_exp_le hm).mpr h)]
  · next h =>
    rw [min_eq_right ((Real.log_le_iff_le_exp hm).mpr (not_le.mp h).le), Real.exp_log hm]

example : Real.exp ((Alpha.new 0 2).run [fun _ => 0, fun x => x + Real.log 3]).lnAlpha = 2 := by
  have h := C62_exact 0 2 (by norm_num) [fun _ => 0] (fun x => x + Real.log 3)
  have hlog : (0 : ℝ) ≤ Real.log 2 := Real.log_nonneg (by norm_num)
  rw [show ([fun _ => 0, fun x => x + Real.log 3] : List (ℝ → ℝ)) = [fun _ => 0] ++ [fun x => x + Real.log 3] from rfl, h]
  simp only [Alpha.run, Alpha.new, List.foldl_cons, List.foldl_nil, Alpha.backward, Alpha.endBatch, min_eq_left hlog, zero_add]
  rw [Real.exp_log (by norm_num), if_neg (by norm_num)]

/-! ## C64 -/

theorem gauss_integrable (a b : ℝ) : IntervalIntegrable (fun t : ℝ => Real.exp (-t ^ 2)) MeasureTheory.volume a b :=
  (by fun_prop : Continuous fun t : ℝ => Real.exp (-t ^ 2)).intervalIntegrable a b

theorem erf_sub (x y : ℝ) : erf y - erf x = 2 / √Real.pi * ∫ t in x..y, Real.exp (-t ^ 2) := by
  rw [erf, erf, ← mul_sub, intervalIntegral.integral_interval_sub_left (gauss_integrable _ _) (gauss_integrable _ _)]

theorem erf_strictMono : StrictMono erf := by
  intro x y h
  have hp : (0 : ℝ) < 2 / √Real.pi := by have := Real.pi_pos; positivity
  have hi : (0 : ℝ) < ∫ t in x..y, Real.exp (-t ^ 2) :=
    intervalIntegral.intervalIntegral_pos_of_pos (gauss_integrable _ _) (fun t => Real.exp_pos _) h
  have := erf_sub x y
  nlinarith [mul_pos hp hi]

/-- The density of a normal distribution, up to a factor. -/
noncomputable def Spec.density (mean sigma x : ℝ) : ℝ := Real.exp (-((x - mean) ^ 2 / (2 * sigma ^ 2)))

/-- The weight it gives to an interval. -/
noncomputable def Spec.weight (mean sigma a b : ℝ) : ℝ := ∫ x in a..b, Spec.density mean sigma x

theorem weight_eq (mean sigma a b : ℝ) (hs : 0 < sigma) :
    Spec.weight mean sigma a b =
      √2 * sigma * (√Real.pi / 2) * (erf ((b - mean) / (√2 * sigma)) - erf ((a - mean) / (√2 * sigma))) := by
  have h2 : (0 : ℝ) < √2 := by positivity
  have hc : √2 * sigma ≠ 0 := by positivity
  have hpi : √Real.pi ≠ 0 := by have := Real.pi_pos; positivity
  have e : (fun x => Spec.density mean sigma x) = fun x => (fun t : ℝ => Real.exp (-t ^ 2)) (x / (√2 * sigma) - mean / (√2 * sigma)) := by
    funext x
    simp only [Spec.density]
    congr 2
    rw [← sub_div, div_pow, mul_pow, Real.sq_sqrt (by norm_num)]
  rw [Spec.weight, e, intervalIntegral.integral_comp_div_sub (fun t : ℝ => Real.exp (-t ^ 2)) hc, erf_sub, sub_div, sub_div, smul_eq_mul]
  field_simp

theorem length_linspace (lo hi : ℝ) (n : Nat) : (linspace lo hi n).length = n + 1 := by simp [linspace]

theorem getElem_linspace (lo hi : ℝ) (n i : Nat) (h : i < (linspace lo hi n).length) :
    (linspace lo hi n)[i] = lo + i * ((hi - lo) / n) := by simp [linspace]

theorem length_neighbours (f : ℝ → ℝ → ℝ) (xs : List ℝ) : (neighbours f xs).length = xs.length - 1 := by
  simp [neighbours]

theorem getElem_neighbours (f : ℝ → ℝ → ℝ) (xs : List ℝ) (i : Nat) (h : i < (neighbours f xs).length) :
    (neighbours f xs)[i] = f (xs[i]'(by rw [length_neighbours] at h; omega)) (xs[i + 1]'(by rw [length_neighbours] at h; omega)) := by
  simp [neighbours]

/-- bin `i` of `n` equal bins of [lo, hi]: its borders -/
noncomputable def Spec.border (lo hi : ℝ) (n i : Nat) : ℝ := lo + (hi - lo) * (i / n)

theorem toProbs_linspace (lo hi : ℝ) (n : Nat) (hn : 0 < n) (s target : ℝ) :
    toProbs (linspace lo hi n) s target = some ((List.range n).map fun i =>
      (erf ((Spec.border lo hi n (i + 1) - target) / (√2 * s)) - erf ((Spec.border lo hi n i - target) / (√2 * s))) /
        (erf ((hi - target) / (√2 * s)) - erf ((lo - target) / (√2 * s)))) := by
  have hn' : (n : ℝ) ≠ 0 := by positivity
  have hb : ∀ i : ℕ, lo + i * ((hi - lo) / n) = Spec.border lo hi n i := fun i => by simp only [Spec.border]; ring
  have hlast : ((linspace lo hi n).map fun x => erf ((x - target) / (√2 * s))).getLast? = some (erf ((hi - target) / (√2 * s))) := by
    rw [List.getLast?_eq_getElem?, List.getElem?_map, List.length_map, length_linspace, Nat.add_sub_cancel,
      List.getElem?_eq_getElem (by rw [length_linspace]; omega), getElem_linspace]
    simp only [Option.map_some]
    congr 4
    field_simp
    ring
  have hfirst : ((linspace lo hi n).map fun x => erf ((x - target) / (√2 * s))).head? = some (erf ((lo - target) / (√2 * s))) := by
    rw [List.head?_eq_getElem?, List.getElem?_map, List.getElem?_eq_getElem (by rw [length_linspace]; omega), getElem_linspace]
    simp
  simp only [toProbs, hlast, hfirst, Option.some.injEq]
  apply List.ext_getElem
  · simp [length_neighbours, length_linspace]
  · intro i h1 h2
    simp only [List.getElem_map, getElem_neighbours, getElem_linspace, List.getElem_range, hb]

theorem sigma_pos {ratio lo hi : ℝ} {n : Nat} (hr : 0 < ratio) (h : lo < hi) (hn : 0 < n) : 0 < sigma ratio lo hi n := by
  have : 0 < hi - lo := by linarith
  have : (0 : ℝ) < n := by positivity
  rw [sigma]; positivity

/-- C64: the transformed target gives to each bin its share of the weight that a normal distribution around the (clamped)
target gives to the whole range. -/
theorem C64_mass (ratio lo hi : ℝ) (n : Nat) (hn : 0 < n) (hr : 0 < ratio) (h : lo < hi) (q : ℝ) :
    let mean := min (max q lo) hi
    let s := ratio * (hi - lo) / n
    lossTarget ratio lo hi n q = some ((List.range n).map fun i =>
      Spec.weight mean s (Spec.border lo hi n i) (Spec.border lo hi n (i + 1)) / Spec.weight mean s lo hi) := by
  intro mean s
  have hs : 0 < s := sigma_pos hr h hn
  have hpi := Real.pi_pos
  rw [lossTarget, toProbs_linspace lo hi n hn]
  refine congrArg some (List.map_congr_left fun i _ => ?_)
  rw [weight_eq _ _ _ _ hs, weight_eq _ _ _ _ hs]
  rw [mul_div_mul_left _ _ (by positivity)]
  rfl

theorem sum_telescope (f : ℕ → ℝ) (z : ℝ) (n : Nat) :
    ((List.range n).map fun i => (f (i + 1) - f i) / z).sum = (f n - f 0) / z := by
  induction n with
  | zero => simp
  | succ n ih => rw [List.range_succ, List.map_append, List.sum_append, ih]; simp; ring

/-- C64: the transformed target is a probability distribution over the bins. -/
theorem C64_distribution (ratio lo hi : ℝ) (n : Nat) (hn : 0 < n) (hr : 0 < ratio) (h : lo < hi) (q : ℝ) :
    ∃ probs, lossTarget ratio lo hi n q = some probs ∧ probs.length = n ∧ (∀ p ∈ probs, 0 < p) ∧ probs.sum = 1 := by
  have hs : 0 < sigma ratio lo hi n := sigma_pos hr h hn
  have hn' : (n : ℝ) ≠ 0 := by positivity
  set s := sigma ratio lo hi n
  set t := clamp q lo hi
  have hc : (0 : ℝ) < √2 * s := by positivity
  have mono : ∀ a b : ℝ, a < b → 0 < erf ((b - t) / (√2 * s)) - erf ((a - t) / (√2 * s)) := fun a b hab =>
    sub_pos.mpr (erf_strictMono (by gcongr))
  refine ⟨_, toProbs_linspace lo hi n hn s t, by simp, ?_, ?_⟩
  · intro p hp
    obtain ⟨i, -, rfl⟩ := List.mem_map.mp hp
    refine div_pos (mono _ _ ?_) (mono _ _ h)
    simp only [Spec.border]
    have : 0 < hi - lo := by linarith
    have : (0 : ℝ) < n := by positivity
    gcongr
    linarith
  · have e := sum_telescope (fun i => erf ((Spec.border lo hi n i - t) / (√2 * s)))
      (erf ((hi - t) / (√2 * s)) - erf ((lo - t) / (√2 * s))) n
    rw [e]
    have e0 : Spec.border lo hi n 0 = lo := by simp [Spec.border]
    have e1 : Spec.border lo hi n n = hi := by simp only [Spec.border]; field_simp; ring
    rw [e0, e1, div_self (mono _ _ h).ne']

theorem convex_bounds (ps cs : List ℝ) (a b : ℝ) (hl : ps.length = cs.length) (hp : ∀ p ∈ ps, 0 ≤ p)
    (hc : ∀ c ∈ cs, a ≤ c ∧ c ≤ b) :
    a * ps.sum ≤ (List.zipWith (· * ·) ps cs).sum ∧ (List.zipWith (· * ·) ps cs).sum ≤ b * ps.sum := by
  induction ps generalizing cs with
  | nil => simp
  | cons p ps ih =>
    cases cs with
    | nil => simp at hl
    | cons c cs =>
      obtain ⟨h1, h2⟩ := ih cs (by simpa using hl) (fun p hp' => hp p (List.mem_cons_of_mem _ hp'))
        (fun c hc' => hc c (List.mem_cons_of_mem _ hc'))
      have hp0 := hp p List.mem_cons_self
      obtain ⟨ha, hb⟩ := hc c List.mem_cons_self
      simp only [List.zipWith_cons_cons, List.sum_cons]
      constructor <;> nlinarith

theorem softmax_sum (logits : List ℝ) (h : logits ≠ []) : (softmax logits).sum = 1 ∧ ∀ p ∈ softmax logits, 0 < p := by
  have hpos : 0 < (logits.map Real.exp).sum := by
    cases logits with
    | nil => exact absurd rfl h
    | cons x xs =>
      rw [List.map_cons, List.sum_cons]
      have : 0 ≤ (xs.map Real.exp).sum := List.sum_nonneg (by
        intro y hy; obtain ⟨z, -, rfl⟩ := List.mem_map.mp hy; exact (Real.exp_pos _).le)
      linarith [Real.exp_pos x]
  refine ⟨?_, ?_⟩
  · have e : softmax logits = (logits.map Real.exp).map (· / (logits.map Real.exp).sum) := by simp [softmax]
    rw [e]
    have h' : ∀ (xs : List ℝ) (z : ℝ), (xs.map (· / z)).sum = xs.sum / z := fun xs z => by
      induction xs with
      | nil => simp
      | cons x xs ih => simp only [List.map_cons, List.sum_cons, ih]; ring
    rw [h', div_self hpos.ne']
  · intro p hp
    obtain ⟨x, -, rfl⟩ := List.mem_map.mp hp
    exact div_pos (Real.exp_pos _) hpos

/-- the centre of bin `i` -/
noncomputable def Spec.centre (lo hi : ℝ) (n i : Nat) : ℝ := (Spec.border lo hi n i + Spec.border lo hi n (i + 1)) / 2

theorem centers_eq (lo hi : ℝ) (n : Nat) : centers lo hi n = (List.range n).map (Spec.centre lo hi n) := by
  have hb : ∀ i : ℕ, lo + i * ((hi - lo) / n) = Spec.border lo hi n i := fun i => by simp only [Spec.border]; ring
  apply List.ext_getElem
  · simp [centers, length_neighbours, length_linspace]
  · intro i h1 h2
    simp only [centers, getElem_neighbours, getElem_linspace, List.getElem_map, List.getElem_range, hb, Spec.centre]

/-- C64: the value decoded from any logits is the mean of the bins' centres under a probability distribution, and lies
between the first and the last centre, which lie in the range. -/
theorem C64_decoded (lo hi : ℝ) (h : lo ≤ hi) (logits : List ℝ) (hn : logits ≠ []) :
    let n := logits.length
    let q := qFromLogit (centers lo hi n) logits
    Spec.centre lo hi n 0 ≤ q ∧ q ≤ Spec.centre lo hi n (n - 1) ∧
      lo ≤ Spec.centre lo hi n 0 ∧ Spec.centre lo hi n (n - 1) ≤ hi := by
  intro n q
  have hn0 : 0 < n := List.length_pos_iff.mpr hn
  have hn' : (0 : ℝ) < n := by positivity
  have hd : 0 ≤ hi - lo := by linarith
  have form : ∀ i : ℕ, Spec.centre lo hi n i = lo + (hi - lo) * ((i + 1 / 2) / n) := fun i => by
    simp only [Spec.centre, Spec.border]; push_cast; ring
  obtain ⟨hs, hp⟩ := softmax_sum logits hn
  have hb := convex_bounds (softmax logits) (centers lo hi n) (Spec.centre lo hi n 0) (Spec.centre lo hi n (n - 1))
    (by simp [softmax, centers_eq, n]) (fun p h => (hp p h).le) (by
      intro c hc
      rw [centers_eq] at hc
      obtain ⟨i, hi', rfl⟩ := List.mem_map.mp hc
      rw [List.mem_range] at hi'
      have h1 : (i : ℝ) ≤ ((n - 1 : ℕ) : ℝ) := by exact_mod_cast (by omega : i ≤ n - 1)
      have h0 : (0 : ℝ) ≤ i := by positivity
      rw [form, form, form]
      constructor
      · gcongr; exact Nat.zero_le i
      · gcongr)
  rw [hs, mul_one, mul_one] at hb
  refine ⟨hb.1, hb.2, ?_, ?_⟩
  · rw [form]
    have : 0 ≤ (hi - lo) * (((0 : ℕ) + 1 / 2 : ℝ) / n) := by positivity
    linarith
  · rw [form, Nat.cast_sub (by omega)]
    have : ((n : ℝ) - (1 : ℕ) + 1 / 2) / n ≤ 1 := by rw [div_le_one hn']; push_cast; linarith
    nlinarith

theorem gibbs (ps qs : List ℝ) (hl : qs.length = ps.length) (hp : ∀ p ∈ ps, 0 < p) (hq : ∀ q ∈ qs, 0 < q) :
    let gap := (List.zipWith (fun q p => p * Real.log q) ps ps).sum + qs.sum - ps.sum
      - (List.zipWith (fun q p => p * Real.log q) qs ps).sum
    0 ≤ gap ∧ (gap = 0 → qs = ps) := by
  induction ps generalizing qs with
  | nil =>
    have : qs = [] := List.length_eq_zero_iff.mp hl
    subst this; simp
  | cons p ps ih =>
    cases qs with
    | nil => simp at hl
    | cons q qs =>
      obtain ⟨h1, h2⟩ := ih qs (by simpa using hl) (fun x hx => hp x (List.mem_cons_of_mem _ hx))
        (fun x hx => hq x (List.mem_cons_of_mem _ hx))
      have hp0 := hp p List.mem_cons_self
      have hq0 := hq q List.mem_cons_self
      have hlog : Real.log q = Real.log (q / p) + Real.log p := by
        rw [Real.log_div hq0.ne' hp0.ne']; ring
      have hle : Real.log (q / p) ≤ q / p - 1 := Real.log_le_sub_one_of_pos (div_pos hq0 hp0)
      have hm : p * Real.log (q / p) ≤ q - p := by
        calc p * Real.log (q / p) ≤ p * (q / p - 1) := by gcongr
          _ = q - p := by field_simp
      simp only [List.zipWith_cons_cons, List.sum_cons] at *
      rw [hlog]
      constructor
      · nlinarith
      · intro e
        have e1 : p * Real.log (q / p) = q - p := by nlinarith
        have e2 : qs = ps := h2 (by nlinarith)
        have : q / p = 1 := by
          by_contra hne
          have := Real.log_lt_sub_one_of_pos (div_pos hq0 hp0) hne
          have : p * Real.log (q / p) < p * (q / p - 1) := by gcongr
          rw [e1, mul_sub, mul_div_cancel₀ _ hp0.ne'] at this
          linarith
        rw [e2, (div_eq_one_iff_eq hp0.ne').mp this]

/-- C64: the loss of a row is smallest exactly where the predicted distribution is the target distribution. -/
theorem C64_loss (ratio lo hi : ℝ) (n : Nat) (hn : 0 < n) (hr : 0 < ratio) (h : lo < hi) (q : ℝ) (probs : List ℝ)
    (ht : lossTarget ratio lo hi n q = some probs) (best logits : List ℝ) (hb : softmax best = probs)
    (hl : logits.length = n) :
    crossEntropy best probs ≤ crossEntropy logits probs ∧
      (crossEntropy logits probs = crossEntropy best probs ↔ softmax logits = probs) := by
  obtain ⟨probs', h1, h2, h3, h4⟩ := C64_distribution ratio lo hi n hn hr h q
  rw [ht] at h1; cases h1
  have hne : logits ≠ [] := by rintro rfl; simp at hl; omega
  obtain ⟨s1, s2⟩ := softmax_sum logits hne
  obtain ⟨g1, g2⟩ := gibbs probs (softmax logits) (by simp [softmax, hl, h2]) h3 s2
  rw [s1, h4] at g1 g2
  simp only [crossEntropy, hb]
  refine ⟨by linarith, fun e => g2 (by linarith), fun e => by rw [e]⟩

/-- such logits exist: the logarithms of the probabilities -/
example (ratio lo hi : ℝ) (n : Nat) (hn : 0 < n) (hr : 0 < ratio) (h : lo < hi) (q : ℝ) :
    ∃ probs, lossTarget ratio lo hi n q = some probs ∧ softmax (probs.map Real.log) = probs := by
  obtain ⟨probs, h1, h2, h3, h4⟩ := C64_distribution ratio lo hi n hn hr h q
  refine ⟨probs, h1, ?_⟩
  have e : (probs.map Real.log).map Real.exp = probs := by
    rw [List.map_map]
    conv_rhs => rw [← List.map_id probs]
    exact List.map_congr_left fun p hp => Real.exp_log (h3 p hp)
  rw [softmax, e, h4]
  simp only [div_one]
  exact e

example : centers 0 4 2 = [1, 3] := by
  rw [centers_eq]
  simp only [List.range, List.range.loop, List.map_cons, List.map_nil, Spec.centre, Spec.border]
  norm_num

example : qFromLogit (centers 0 4 2) [0, 0] = 2 := by
  rw [centers_eq]
  simp only [List.range, List.range.loop, List.map_cons, List.map_nil, Spec.centre, Spec.border, qFromLogit, softmax,
    Real.exp_zero, List.zipWith_cons_cons, List.zipWith_nil_left, List.sum_cons, List.sum_nil]
  norm_num

end Numerics

end Verif
