import Verif.Props.DqnRun

/-!
# C160: Q-learning on data that does not change
-/

namespace Verif

namespace DqnRun

open Numerics Dqn Dqn.Spec Filter Topology Spec

variable {n m : Nat}

/-! ## Specification -/

/-- What was seen once: an action in an observation, its reward, whether the episode ended, and what was observed next. The same action in the
same observation may have been seen with different outcomes. -/
structure Spec.Seen (n m : Nat) where
  obs : Fin n
  action : Fin (m + 1)
  reward : ℝ
  ends : Bool
  next : Fin n

/-- The row of a batch -/
noncomputable def Spec.Seen.row (x : Seen n m) : Sample ℝ := ⟨x.obs.val, (x.action.val : ℝ), x.reward, if x.ends then 0 else 1, x.next.val⟩

/-- The value of an action that was seen is the average, over the times it was seen, of its reward and the discounted value of the best action
after that. The value of an action that was not seen is `init`. -/
structure Spec.Explains (data : List (Seen n m)) (g scale : ℝ) (init q : Fin n → Fin (m + 1) → ℝ) : Prop where
  seen : ∀ (s : Fin n) (a : Fin (m + 1)) (best : Fin n → ℝ), (∀ s, (∃ a, best s = q s a) ∧ ∀ a, q s a ≤ best s) →
    (∃ x ∈ data, x.obs = s ∧ x.action = a) →
    q s a = ((data.filter fun x => x.obs = s ∧ x.action = a).map fun x => scale * x.reward + if x.ends then 0 else g * best x.next).sum /
      (data.filter fun x => x.obs = s ∧ x.action = a).length
  other : ∀ s a, (∀ x ∈ data, ¬ (x.obs = s ∧ x.action = a)) → q s a = init s a

/-! ## Proofs -/

/-- The pair of observation and action -/
def pairOf (x : Seen n m) : Entry n m := (x.obs, x.action)

/-- What a row is trained towards -/
noncomputable def goal (g scale : ℝ) (t : Fin n → Fin (m + 1) → ℝ) (x : Seen n m) : ℝ :=
  scale * x.reward + if x.ends then 0 else g * top (t x.next)

/-- The right side of the equations -/
noncomputable def average (data : List (Seen n m)) (g scale : ℝ) (init t : Fin n → Fin (m + 1) → ℝ) (s : Fin n) (a : Fin (m + 1)) : ℝ :=
  if (s, a) ∈ data.map pairOf then meanOf (data.map fun x => (pairOf x, goal g scale t x)) (s, a) else init s a

theorem meanOf_eq (data : List (Seen n m)) (f : Seen n m → ℝ) (s : Fin n) (a : Fin (m + 1)) :
    meanOf (data.map fun x => (pairOf x, f x)) (s, a) = ((data.filter fun x => x.obs = s ∧ x.action = a).map f).sum /
      (data.filter fun x => x.obs = s ∧ x.action = a).length := by
  unfold meanOf
  rw [List.filter_map, List.map_map, List.length_map]
  have : ((fun x : Entry n m × ℝ => decide (x.1 = (s, a))) ∘ fun x => (pairOf x, f x)) = fun x => decide (x.obs = s ∧ x.action = a) := by
    funext x
    simp [pairOf, Prod.ext_iff]
  rw [this]
  rfl

theorem mem_pairs {data : List (Seen n m)} {s : Fin n} {a : Fin (m + 1)} :
    (s, a) ∈ data.map pairOf ↔ ∃ x ∈ data, x.obs = s ∧ x.action = a := by
  simp [pairOf, List.mem_map]

theorem top_unique {f : Fin (m + 1) → ℝ} {x : ℝ} (h1 : ∃ a, x = f a) (h2 : ∀ a, f a ≤ x) : x = top f := by
  obtain ⟨a, rfl⟩ := h1
  obtain ⟨b, hb⟩ := exists_top f
  exact le_antisymm (le_top f a) (hb ▸ h2 b)

theorem explains_iff (data : List (Seen n m)) (g scale : ℝ) (init q : Fin n → Fin (m + 1) → ℝ) :
    Explains data g scale init q ↔ average data g scale init q = q := by
  constructor
  · intro h
    funext s a
    unfold average
    by_cases hm : (s, a) ∈ data.map pairOf
    · rw [if_pos hm, meanOf_eq]
      exact (h.seen s a (fun s => top (q s)) (fun s => ⟨(exists_top (q s)).imp fun a h => h.symm, le_top (q s)⟩) (mem_pairs.1 hm)).symm
    · rw [if_neg hm]
      exact (h.other s a fun x hx hxa => hm (mem_pairs.2 ⟨x, hx, hxa⟩)).symm
  · intro h
    constructor
    · intro s a best hb hx
      have hs := congrFun (congrFun h s) a
      unfold average at hs
      rw [if_pos (mem_pairs.2 hx), meanOf_eq] at hs
      rw [← hs]
      congr 3
      funext x
      rw [top_unique (hb x.next).1 (hb x.next).2]
      rfl
    · intro s a hx
      have hs := congrFun (congrFun h s) a
      unfold average at hs
      rw [if_neg fun hm => by obtain ⟨x, h1, h2⟩ := mem_pairs.1 hm; exact hx x h1 h2] at hs
      exact hs.symm

theorem goal_close {g : ℝ} (hg : 0 ≤ g) (scale : ℝ) (t u : Fin n → Fin (m + 1) → ℝ) (c : ℝ) (hc : 0 ≤ c)
    (h : ∀ s a, |t s a - u s a| ≤ c) (x : Seen n m) : |goal g scale t x - goal g scale u x| ≤ g * c := by
  unfold goal
  split
  · rw [sub_self, abs_zero]; positivity
  · rw [show scale * x.reward + g * top (t x.next) - (scale * x.reward + g * top (u x.next)) = g * (top (t x.next) - top (u x.next)) by ring,
      abs_mul, abs_of_nonneg hg]
    exact mul_le_mul_of_nonneg_left (top_close _ _ c (h _)) hg

theorem sum_close {α : Type} (l : List α) (f f' : α → ℝ) (c : ℝ) (h : ∀ x ∈ l, |f x - f' x| ≤ c) :
    |(l.map f).sum - (l.map f').sum| ≤ l.length * c := by
  induction l with
  | nil => simp
  | cons x l ih =>
    simp only [List.map_cons, List.sum_cons, List.length_cons]
    rw [show f x + (l.map f).sum - (f' x + (l.map f').sum) = (f x - f' x) + ((l.map f).sum - (l.map f').sum) by ring]
    refine (abs_add_le _ _).trans ?_
    have h1 := h x (by simp)
    have h2 := ih fun y hy => h y (List.mem_cons_of_mem _ hy)
    push_cast
    linarith

theorem average_close (data : List (Seen n m)) {g : ℝ} (hg : 0 ≤ g) (scale : ℝ) (init t u : Fin n → Fin (m + 1) → ℝ) (c : ℝ) (hc : 0 ≤ c)
    (h : ∀ s a, |t s a - u s a| ≤ c) (s : Fin n) (a : Fin (m + 1)) :
    |average data g scale init t s a - average data g scale init u s a| ≤ g * c := by
  unfold average
  split
  · rename_i hm
    rw [meanOf_eq, meanOf_eq, ← sub_div, abs_div]
    obtain ⟨x, hx, hxa⟩ := mem_pairs.1 hm
    have hp : 0 < (data.filter fun x => x.obs = s ∧ x.action = a).length :=
      List.length_pos_of_mem (List.mem_filter.2 ⟨hx, by simpa using hxa⟩)
    rw [Nat.abs_cast, div_le_iff₀ (by exact_mod_cast hp), mul_comm]
    exact sum_close _ _ _ _ fun x _ => goal_close hg scale t u c hc h x
  · rw [sub_self, abs_zero]; positivity

theorem exists_average (data : List (Seen n m)) {g : ℝ} (hg : 0 ≤ g) (hg1 : g < 1) (scale : ℝ) (init : Fin n → Fin (m + 1) → ℝ) :
    ∃ q, average data g scale init q = q := by
  have : ContractingWith ⟨g, hg⟩ (average data g scale init) := by
    refine ⟨by exact_mod_cast hg1, LipschitzWith.of_dist_le_mul fun t u => ?_⟩
    rw [dist_pi_le_iff (by positivity)]
    intro s
    rw [dist_pi_le_iff (by positivity)]
    intro a
    rw [Real.dist_eq]
    refine average_close data hg scale init t u _ dist_nonneg (fun s a => ?_) s a
    rw [← Real.dist_eq]
    exact (dist_le_pi_dist (t s) (u s) a).trans (dist_le_pi_dist t u s)
  exact ⟨_, this.fixedPoint_isFixedPt⟩

/-! ### The derivative -/

theorem batchLoss_seen (data : List (Seen n m)) (y : Seen n m → ℝ) (v : Entry n m → ℝ) :
    batchLoss (netOf v) (data.map Seen.row) (data.map y) = .ok ((data.map fun x => (v (pairOf x) - y x) ^ 2).sum / data.length) := by
  have := batchLoss_table (fun s a => v (s, a)) (data.map fun x => (x.row, pairOf x, y x)) (by
      intro z hz
      obtain ⟨x, -, rfl⟩ := List.mem_map.1 hz
      exact ⟨rfl, rfl⟩)
  simp only [List.map_map, Function.comp_def, List.length_map] at this
  exact this

theorem hasDerivAt_seen {α : Type} (pairOf : α → Entry n m) (data : List α) (y : α → ℝ) (v : Entry n m → ℝ) (p : Entry n m) :
    HasDerivAt (fun z => (data.map fun x => (Function.update v p z (pairOf x) - y x) ^ 2).sum)
      (2 * ((data.filter fun x => pairOf x = p).map fun x => v p - y x).sum) (v p) := by
  induction data with
  | nil => simpa using hasDerivAt_const (v p) (0 : ℝ)
  | cons x data ih =>
    simp only [List.map_cons, List.sum_cons]
    by_cases h : pairOf x = p
    · have hf : (x :: data).filter (fun x => decide (pairOf x = p)) = x :: data.filter fun x => decide (pairOf x = p) := by
        simp [h]
      rw [hf]
      subst h
      simp only [Function.update_self]
      have h1 : HasDerivAt (fun z : ℝ => (z - y x) ^ 2) (2 * (v (pairOf x) - y x)) (v (pairOf x)) := by
        have := ((hasDerivAt_id' (v (pairOf x))).sub_const (y x)).fun_pow 2
        refine this.congr_deriv ?_
        simp
      refine (h1.fun_add ih).congr_deriv ?_
      rw [List.map_cons, List.sum_cons]
      ring
    · have hf : (x :: data).filter (fun x => decide (pairOf x = p)) = data.filter fun x => decide (pairOf x = p) := by
        simp [h]
      rw [hf]
      simp only [Function.update_of_ne h]
      refine ((hasDerivAt_const (v p) ((v (pairOf x) - y x) ^ 2)).fun_add ih).congr_deriv ?_
      ring

theorem count_pairs {α : Type} (pairOf : α → Entry n m) (data : List α) (p : Entry n m) : (data.map pairOf).count p = (data.filter fun x => pairOf x = p).length := by
  rw [List.count_eq_countP, List.countP_map, List.countP_eq_length_filter]
  congr 1
  refine List.filter_congr fun x _ => ?_
  simp only [Function.comp]
  exact beq_eq_decide _ _

theorem deriv_mean {α : Type} (pairOf : α → Entry n m) (data : List α) (y : α → ℝ) (init v : Entry n m → ℝ) (p : Entry n m) :
    deriv (fun z => (data.map fun x => (Function.update v p z (pairOf x) - y x) ^ 2).sum / data.length) (v p) =
      2 * (((data.map pairOf).count p : ℝ) / (data.map pairOf).length) *
        (v p - if p ∈ data.map pairOf then meanOf (data.map fun x => (pairOf x, y x)) p else init p) := by
  rw [((hasDerivAt_seen pairOf data y v p).div_const _).deriv, List.length_map]
  have hs : ∀ r : List α, (r.map fun x => v p - y x).sum = r.length * v p - (r.map y).sum := by
    intro r
    induction r with
    | nil => simp
    | cons x r ih => simp only [List.map_cons, List.sum_cons, ih, List.length_cons]; push_cast; ring
  rw [hs, count_pairs]
  by_cases hm : p ∈ data.map pairOf
  · rw [if_pos hm]
    have hme : meanOf (data.map fun x => (pairOf x, y x)) p =
        ((data.filter fun x => pairOf x = p).map y).sum / (data.filter fun x => pairOf x = p).length := by
      unfold meanOf
      rw [List.filter_map, List.map_map, List.length_map]
      rfl
    have hpos : ((data.filter fun x => pairOf x = p).length : ℝ) ≠ 0 := by
      obtain ⟨x, hx, hxp⟩ := List.mem_map.1 hm
      have := List.length_pos_of_mem (List.mem_filter.2 ⟨hx, by simpa using hxp⟩ : x ∈ data.filter fun x => pairOf x = p)
      positivity
    rw [hme]
    field_simp
  · have hz : (data.filter fun x => pairOf x = p) = [] := by
      rw [List.filter_eq_nil_iff]
      intro x hx hxp
      exact hm (List.mem_map.2 ⟨x, hx, by simpa using hxp⟩)
    rw [hz]
    simp

theorem deriv_seen (data : List (Seen n m)) (y : Seen n m → ℝ) (init v : Entry n m → ℝ) (p : Entry n m) :
    deriv (fun z => lossOf (data.map Seen.row, data.map y) (Function.update v p z)) (v p) =
      2 * (((data.map pairOf).count p : ℝ) / (data.map pairOf).length) *
        (v p - if p ∈ data.map pairOf then meanOf (data.map fun x => (pairOf x, y x)) p else init p) := by
  have : (fun z => lossOf (data.map Seen.row, data.map y) (Function.update v p z)) =
      fun z => (data.map fun x => (Function.update v p z (pairOf x) - y x) ^ 2).sum / data.length := by
    funext z
    simp only [lossOf, batchLoss_seen]
  rw [this]
  exact deriv_mean pairOf data y init v p

/-! ### Batches -/

theorem trainBatch_seen (c : Setup) (data : List (Seen n m)) (init : Fin n → Fin (m + 1) → ℝ) {x : Learner n m} {t : Fin n → Fin (m + 1) → ℝ}
    (ht : x.target = table t) :
    ∃ x', trainBatch c (data.map Seen.row) x = .ok x' ∧
      (∀ p, x'.net.value p = x.net.value p - eta c x.loss.steps (data.map pairOf) (fun p => 2 * (((data.map pairOf).count p : ℝ) /
        (data.map pairOf).length) * (x.net.value p - average data c.gamma c.scale init t p.1 p.2)) p *
          (x.net.value p - average data c.gamma c.scale init t p.1 p.2)) ∧
      x'.target = table fun s a => t s a * (1 - c.tau) + x'.net.value (s, a) * c.tau := by
  let y : Seen n m → ℝ := goal c.gamma c.scale t
  have h : trainBatch c (data.map Seen.row) x = .ok ⟨(LossStep.backward (c.cfg n m) (data.map Seen.row, data.map y) x.loss x.net).1,
      (LossStep.backward (c.cfg n m) (data.map Seen.row, data.map y) x.loss x.net).2,
      (DqnNets.endBatch ⟨netOf (LossStep.backward (c.cfg n m) (data.map Seen.row, data.map y) x.loss x.net).2.value, x.target, c.tau⟩).target⟩ := by
    have h1 := targets_rows c.gamma c.scale t data Seen.row Seen.next Seen.ends (fun _ => rfl) (fun _ => rfl)
    have h2 : (data.map fun x => c.scale * x.row.reward + if x.ends then 0 else c.gamma * top (t x.next)) = data.map y := rfl
    rw [h2] at h1
    simp only [trainBatch, ht, h1, batchLoss_seen]
  refine ⟨_, h, fun p => ?_, ?_⟩
  · exact backward_of_deriv c (data.map Seen.row, data.map y) (data.map pairOf)
      (fun p => average data c.gamma c.scale init t p.1 p.2) x.loss x.net
      (fun p => deriv_seen data y (fun p => init p.1 p.2) x.net.value p) p
  · simp only [DqnNets.endBatch, ht]
    exact softUpdate_table c.tau _ t

theorem exists_run_seen {c : Setup} (data : List (Seen n m)) (init : Fin n → Fin (m + 1) → ℝ) {x0 : Learner n m}
    {t0 : Fin n → Fin (m + 1) → ℝ} (h0 : x0.target = table t0) :
    ∃ (run : Nat → Learner n m) (t : Nat → Fin n → Fin (m + 1) → ℝ), run 0 = x0 ∧
      (∀ k, train c (List.replicate k (data.map Seen.row)) x0 = .ok (run k)) ∧ (∀ k, (run k).target = table (t k)) ∧
      (∀ k p, (run (k + 1)).net.value p = (run k).net.value p - eta c (run k).loss.steps (data.map pairOf) (fun p =>
        2 * (((data.map pairOf).count p : ℝ) / (data.map pairOf).length) *
          ((run k).net.value p - average data c.gamma c.scale init (t k) p.1 p.2)) p *
          ((run k).net.value p - average data c.gamma c.scale init (t k) p.1 p.2)) ∧
      ∀ k s a, t (k + 1) s a = t k s a * (1 - c.tau) + (run (k + 1)).net.value (s, a) * c.tau := by
  have hone := fun (x : {x : Learner n m // ∃ t, x.target = table t}) => trainBatch_seen c data init x.2.choose_spec
  choose nx h1 h3 h4 using hone
  let run : Nat → {x : Learner n m // ∃ t, x.target = table t} := fun k =>
    Nat.rec ⟨x0, t0, h0⟩ (fun _ x => ⟨nx x, _, h4 x⟩) k
  refine ⟨fun k => (run k).1, fun k => (run k).2.choose, rfl, fun k => ?_, fun k => (run k).2.choose_spec, fun k p => ?_, fun k s a => ?_⟩
  · induction k with
    | zero => rfl
    | succ k ih =>
      rw [List.replicate_succ', train_snoc c _ _ ih]
      exact h1 (run k)
  · exact h3 (run k) p
  · have := (run (k + 1)).2.choose_spec.symm.trans (h4 (run k))
    exact congrFun (congrFun (table_inj this) s) a

/-! ## C160 -/

/-- C160: whatever the data, there is exactly one table that explains it and keeps the initial values of what was not seen. -/
theorem C160_unique (data : List (Seen n m)) {g : ℝ} (hg : 0 ≤ g) (hg1 : g < 1) (scale : ℝ) (init : Fin n → Fin (m + 1) → ℝ) :
    ∃! q, Explains data g scale init q := by
  obtain ⟨q, hq⟩ := exists_average data hg hg1 scale init
  refine ⟨q, (explains_iff data g scale init q).2 hq, fun q' hq' => ?_⟩
  have hq' := (explains_iff data g scale init q').1 hq'
  obtain ⟨c, hc, hb⟩ := exists_bound fun s a => q' s a - q s a
  have hk : ∀ k : Nat, ∀ s a, |q' s a - q s a| ≤ g ^ k * c := by
    intro k
    induction k with
    | zero => simpa using hb
    | succ k ih =>
      intro s a
      have := average_close data hg scale init q' q (g ^ k * c) (by positivity) ih s a
      rw [hq, hq'] at this
      rw [pow_succ']
      linarith
  funext s a
  have hz : Tendsto (fun k => g ^ k * c) atTop (𝓝 0) := by
    simpa using (tendsto_pow_atTop_nhds_zero_of_lt_one hg hg1).mul_const c
  have := ge_of_tendsto' hz fun k => hk k s a
  exact sub_eq_zero.1 (abs_nonpos_iff.1 this)

/-- C160: trained again and again on the same rows, whatever they are, a table tends to the one that explains them; the values of actions that
were not seen stay what they were, and the values of others are built on them. (Without rows the loss is not a number.) -/
theorem C160 (data : List (Seen n m)) (_ : data ≠ []) {c : Setup} (hc : Usual c) {x0 : Learner n m} {t0 : Fin n → Fin (m + 1) → ℝ}
    (h0 : x0.target = table t0) :
    ∃ (run : Nat → Learner n m) (t : Nat → Fin n → Fin (m + 1) → ℝ),
      (∀ k, train c (List.replicate k (data.map Seen.row)) x0 = .ok (run k) ∧ (run k).target = table (t k)) ∧
      (∀ s a, (∀ x ∈ data, ¬ (x.obs = s ∧ x.action = a)) → ∀ k, (run k).net.value (s, a) = x0.net.value (s, a)) ∧
      ∀ q, Explains data c.gamma c.scale (fun s a => x0.net.value (s, a)) q → ∀ s a,
        Tendsto (fun k => (run k).net.value (s, a)) atTop (𝓝 (q s a)) ∧ Tendsto (fun k => t k s a) atTop (𝓝 (q s a)) := by
  let init : Fin n → Fin (m + 1) → ℝ := fun s a => x0.net.value (s, a)
  obtain ⟨run, t, hr0, hrun, htab, hq, ht⟩ := exists_run_seen (c := c) data init h0
  have hfix : ∀ s a, (s, a) ∉ data.map pairOf → ∀ k, (run k).net.value (s, a) = init s a := by
    intro s a hm k
    induction k with
    | zero => rw [hr0]
    | succ k ih =>
      rw [hq, ih]
      simp only [average, if_neg hm, sub_self, mul_zero, sub_zero]
  refine ⟨run, t, fun k => ⟨hrun k, htab k⟩, fun s a hx k => hfix s a (fun hm => ?_) k, fun qs hqs => ?_⟩
  · obtain ⟨x, h1, h2⟩ := mem_pairs.1 hm
    exact hx x h1 h2
  have hqs := (explains_iff data c.gamma c.scale init qs).1 hqs
  obtain ⟨m1, hm1, hb1⟩ := exists_bound fun s a => (run 0).net.value (s, a) - qs s a
  obtain ⟨m2, hm2, hb2⟩ := exists_bound fun s a => t 0 s a - qs s a
  let M := m1 + m2
  have hM : 0 ≤ M := by positivity
  have hn0 : Near qs (fun k s a => (run k).net.value (s, a)) t M 0 := fun s a =>
    ⟨(hb1 s a).trans (le_add_of_nonneg_right hm2), (hb2 s a).trans (le_add_of_nonneg_left hm1)⟩
  let d : Nat → Entry n m → ℝ := fun k p => 2 * (((data.map pairOf).count p : ℝ) / (data.map pairOf).length) *
    ((run k).net.value p - average data c.gamma c.scale init (t k) p.1 p.2)
  let h : Nat → Fin n → Fin (m + 1) → ℝ := fun k s a => if (s, a) ∈ data.map pairOf then
    eta c (run k).loss.steps (data.map pairOf) (d k) (s, a) else 1
  have hh0 : ∀ k s a, 0 ≤ h k s a ∧ h k s a ≤ 1 := by
    intro k s a
    simp only [h]
    split
    · exact eta_bounds hc _ _ _ _
    · exact ⟨zero_le_one, le_refl _⟩
  have hstep : ∀ k s a, (run (k + 1)).net.value (s, a) = (run k).net.value (s, a) - h k s a *
      ((run k).net.value (s, a) - average data c.gamma c.scale init (t k) s a) := by
    intro k s a
    by_cases hm : (s, a) ∈ data.map pairOf
    · simp only [h, if_pos hm]
      exact hq k (s, a)
    · simp only [average, if_neg hm]
      rw [hfix s a hm, hfix s a hm, sub_self, mul_zero, sub_zero]
  have hB : ∀ t M, 0 ≤ M → (∀ s a, |t s a - qs s a| ≤ M) → ∀ s a, |average data c.gamma c.scale init t s a - qs s a| ≤ c.gamma * M := by
    intro t M hM h s a
    have := average_close data hc.gamma c.scale init t qs M hM h s a
    rwa [hqs] at this
  have hnear := near_after (q := fun k s a => (run k).net.value (s, a)) hc.gamma hc.gamma_lt hc.tau hc.tau_le hB hh0 hstep ht hM hn0
  obtain ⟨eta0, he0, he1, hlow⟩ := eta_low (n := n) (m := m) hc (2 * (M + c.gamma * M)) data.length
  have hoft : ∀ k s a, ∃ j, eta0 ≤ h (k + j) s a := by
    intro k s a
    refine ⟨0, ?_⟩
    simp only [h, Nat.add_zero]
    split
    · rename_i hm
      refine hlow _ _ _ _ (fun p => ?_) (by simp) hm
      have hj := hnear k
      rw [Nat.zero_add] at hj
      have h1 := (hj p.1 p.2).1
      have h2 := hB (t k) M hM (fun s a => (hj s a).2) p.1 p.2
      have hq0 : 0 ≤ ((data.map pairOf).count p : ℝ) / (data.map pairOf).length := by positivity
      have hq1 : ((data.map pairOf).count p : ℝ) / (data.map pairOf).length ≤ 1 :=
        div_le_one_of_le₀ (by exact_mod_cast List.count_le_length) (by positivity)
      have h3 : |(run k).net.value p - average data c.gamma c.scale init (t k) p.1 p.2| ≤ M + c.gamma * M := by
        rw [show (run k).net.value p - average data c.gamma c.scale init (t k) p.1 p.2 =
          ((run k).net.value p - qs p.1 p.2) - (average data c.gamma c.scale init (t k) p.1 p.2 - qs p.1 p.2) by ring]
        exact (abs_sub _ _).trans (add_le_add h1 h2)
      simp only [d]
      rw [abs_mul, abs_of_nonneg (by positivity)]
      have h4 := abs_nonneg ((run k).net.value p - average data c.gamma c.scale init (t k) p.1 p.2)
      nlinarith
    · exact he1
  exact fun s a => near_zero (q := fun k s a => (run k).net.value (s, a)) hc.gamma hc.gamma_lt hc.tau hc.tau_le hB hh0 hstep ht he0 he1 hM hn0
    hoft s a

/-- C160: in a deterministic environment of which each action was seen in each observation, the table that explains the data has the best
discounted returns. -/
theorem C160_environment (e : Env n m) {data : List (Seen n m)} (hm : Made e (data.map Seen.row))
    (hall : ∀ s a, ∃ x ∈ data, x.obs = s ∧ x.action = a) {g : ℝ} (hg : 0 ≤ g) (hg1 : g < 1) (scale : ℝ) {init q : Fin n → Fin (m + 1) → ℝ}
    (hq : Explains data g scale init q) (s : Fin n) (a : Fin (m + 1)) : Best (e.scale scale) g s a (q s a) := by
  refine fixed_best _ hg hg1 ?_ s a
  have hq := (explains_iff data g scale init q).1 hq
  conv_rhs => rw [← hq]
  funext s a
  unfold average
  rw [if_pos (mem_pairs.2 (hall s a)), meanOf_eq]
  have hrow : ∀ x ∈ data.filter (fun x => decide (x.obs = s ∧ x.action = a)), goal g scale q x = bellman (e.scale scale) g q s a := by
    intro x hx
    obtain ⟨hxd, hxa⟩ := List.mem_filter.1 hx
    obtain ⟨rfl, rfl⟩ : x.obs = s ∧ x.action = a := by simpa using hxa
    obtain ⟨s', a', hr⟩ := hm x.row (List.mem_map.2 ⟨x, hxd, rfl⟩)
    simp only [Seen.row, rowOf, Sample.mk.injEq] at hr
    obtain ⟨h1, h2, h3, h4, h5⟩ := hr
    have h1 : x.obs = s' := Fin.ext h1
    have h2 : x.action = a' := Fin.ext (Nat.cast_injective (R := ℝ) h2)
    subst h1 h2
    have h5 : x.next = e.next x.obs x.action := Fin.ext h5
    have h4 : x.ends = e.ends x.obs x.action := by
      by_cases h : x.ends <;> by_cases h' : e.ends x.obs x.action <;> simp [h, h'] at h4 ⊢
    simp only [goal, bellman, Env.scale, h3, h4, h5]
    rfl
  rw [List.map_congr_left hrow, List.map_const', List.sum_replicate, nsmul_eq_mul]
  obtain ⟨x, hx, hxa⟩ := hall s a
  have hp : 0 < (data.filter fun x => x.obs = s ∧ x.action = a).length :=
    List.length_pos_of_mem (List.mem_filter.2 ⟨hx, by simpa using hxa⟩)
  have : ((data.filter fun x => x.obs = s ∧ x.action = a).length : ℝ) ≠ 0 := by positivity
  field_simp

namespace Ex

/-- Action 0 in the first observation ended the episode with reward 1 once, and once it led to the second observation, where action 0 ended it
with reward 2. Action 1 was not seen. -/
def seen : List (Seen 2 1) := [⟨0, 0, 1, true, 0⟩, ⟨0, 0, 0, false, 1⟩, ⟨1, 0, 2, true, 0⟩]

noncomputable def values (s a : Fin 2) : ℝ := if a = 1 then 7 else if s = 0 then 9 / 4 else 2

theorem values_explain : Explains seen (1 / 2) 1 (fun _ _ => 7) values := by
  rw [explains_iff]
  funext s a
  fin_cases s <;> fin_cases a
  · simp only [average]
    rw [if_pos (by decide), meanOf_eq]
    simp [seen, goal, Dqn.Ex.top_two, values]
    norm_num
  · simp [average, seen, pairOf, values]
  · simp only [average]
    rw [if_pos (by decide), meanOf_eq]
    simp [seen, goal, values]
  · simp [average, seen, pairOf, values]

/-- The initial value 7 of what was not seen stays, and goes into the value of the first action: with what was seen alone it would be 1. -/
example : ∃ run : Nat → Learner 2 1, (∀ k, train setup (List.replicate k (seen.map Seen.row)) start = .ok (run k)) ∧
    Tendsto (fun k => (run k).net.value (0, 0)) atTop (𝓝 (9 / 4)) ∧ Tendsto (fun k => (run k).net.value (1, 0)) atTop (𝓝 2) := by
  obtain ⟨run, t, h1, -, h2⟩ := C160 seen (by simp [seen]) usual (x0 := start)
    (show start.target = table (fun (_ : Fin 2) (_ : Fin 2) => (-5 : ℝ)) from rfl)
  have := h2 values values_explain
  exact ⟨run, fun k => (h1 k).1, by simpa [values] using (this 0 0).1, by simpa [values] using (this 1 0).1⟩

example := C160_unique seen (g := 1 / 2) (by norm_num) (by norm_num) 1 fun _ _ => 7

/-- All four pairs of the environment of C116, one of them twice -/
noncomputable def all : List (Seen 2 1) := [(0, 0), (0, 1), (1, 0), (1, 1), (0, 0)].map fun x : Fin 2 × Fin 2 =>
  ⟨x.1, x.2, Dqn.Ex.env.reward x.1 x.2, Dqn.Ex.env.ends x.1 x.2, Dqn.Ex.env.next x.1 x.2⟩

example (q : Fin 2 → Fin 2 → ℝ) (h : Explains all (1 / 2) 1 (fun _ _ => 7) q) : q 0 1 = 1 / 2 := by
  have := C160_environment (m := 1) Dqn.Ex.env (data := all) (by
      intro x hx
      rw [all, List.map_map] at hx
      obtain ⟨p, -, rfl⟩ := List.mem_map.1 hx
      exact ⟨p.1, p.2, rfl⟩) (by
      intro s a
      fin_cases s <;> fin_cases a <;> simp [all]) (by norm_num) (by norm_num) 1 h 0 1
  have he : Dqn.Ex.env.scale 1 = Dqn.Ex.env := by simp [Env.scale]
  rw [he] at this
  have h2 := fixed_best Dqn.Ex.env (g := 1 / 2) (by norm_num) (by norm_num) Dqn.Ex.fixed 0 1
  rw [best_unique _ this h2]
  simp [Dqn.Ex.best]

end Ex

end DqnRun

end Verif
