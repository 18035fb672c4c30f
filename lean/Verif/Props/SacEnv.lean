import Verif.Props.SacCritics

/-!
# C164: the critics of soft actor-critic in an environment
-/

namespace Verif

namespace SacCritics

open Numerics DqnRun Dqn.Spec Filter Topology Spec

variable {n m : Nat}

/-! ## Specification -/

namespace Spec

/-- The discounted sum of `k` scaled rewards, with the bonus for the entropy of each further action, for the action `a` in the observation `s`
and then the actions of the policy. An end counts only if ends are masked. -/
noncomputable def soft (e : Env n m) (c : Setup (Fin n) (Fin (m + 1)) n m) : Nat → Fin n → Fin (m + 1) → ℝ
  | 0, _, _ => 0
  | k + 1, s, a => c.scale * e.reward s a + if c.masking = true ∧ e.ends s a = true then 0 else
      c.gamma * (soft e c k (e.next s a) (c.policy (e.next s a)).1 - Real.exp c.lnAlpha * (c.policy (e.next s a)).2)

/-- The soft value: the limit for all rewards -/
def Value (e : Env n m) (c : Setup (Fin n) (Fin (m + 1)) n m) (s : Fin n) (a : Fin (m + 1)) (x : ℝ) : Prop :=
  Tendsto (fun k => soft e c k s a) atTop (𝓝 x)

/-- One step in the environment -/
noncomputable def stepOf (e : Env n m) (x : Fin n × Fin (m + 1)) : Rollout (Fin n) (Fin (m + 1)) :=
  ⟨[⟨x.1, x.2, e.reward x.1 x.2, if e.ends x.1 x.2 then 0 else 1⟩], e.next x.1 x.2⟩

/-- Critics that tell all observations and actions apart, and rollouts of one step -/
structure Plain (c : Setup (Fin n) (Fin (m + 1)) n m) : Prop where
  first : ∀ s a, c.first.cell s a = (s, a)
  second : ∀ s a, c.second.cell s a = (s, a)
  len : c.len = 1

end Spec

/-! ## Proofs -/

/-- What critics are trained towards -/
noncomputable def backup (e : Env n m) (c : Setup (Fin n) (Fin (m + 1)) n m) (T : Tables n m) (s : Bool × Fin n) (a : Fin (m + 1)) : ℝ :=
  c.scale * e.reward s.2 a + if c.masking = true ∧ e.ends s.2 a = true then 0 else
    c.gamma * (min (T (false, e.next s.2 a) (c.policy (e.next s.2 a)).1) (T (true, e.next s.2 a) (c.policy (e.next s.2 a)).1) -
      Real.exp c.lnAlpha * (c.policy (e.next s.2 a)).2)

theorem backup_close (e : Env n m) (c : Setup (Fin n) (Fin (m + 1)) n m) (hg : 0 ≤ c.gamma) (T U : Tables n m) (d : ℝ) (hd : 0 ≤ d)
    (h : ∀ s a, |T s a - U s a| ≤ d) (s : Bool × Fin n) (a : Fin (m + 1)) : |backup e c T s a - backup e c U s a| ≤ c.gamma * d := by
  unfold backup
  rw [add_sub_add_left_eq_sub]
  split
  · rw [sub_self, abs_zero]; positivity
  · rw [← mul_sub, abs_mul, abs_of_nonneg hg, sub_sub_sub_cancel_right]
    exact mul_le_mul_of_nonneg_left ((abs_min_sub_min_le_max _ _ _ _).trans (max_le (h _ _) (h _ _))) hg

theorem exists_backup (e : Env n m) (c : Setup (Fin n) (Fin (m + 1)) n m) (hg : 0 ≤ c.gamma) (hg1 : c.gamma < 1) :
    ∃ T, backup e c T = T := by
  have : ContractingWith ⟨c.gamma, hg⟩ (backup e c) := by
    refine ⟨by exact_mod_cast hg1, LipschitzWith.of_dist_le_mul fun t u => ?_⟩
    rw [dist_pi_le_iff (by positivity)]
    intro s
    rw [dist_pi_le_iff (by positivity)]
    intro a
    rw [Real.dist_eq]
    refine backup_close e c hg t u _ dist_nonneg (fun s a => ?_) s a
    rw [← Real.dist_eq]
    exact (dist_le_pi_dist (t s) (u s) a).trans (dist_le_pi_dist t u s)
  exact ⟨_, this.fixedPoint_isFixedPt⟩

/-- The fixed pair is two times the soft value. -/
theorem backup_value (e : Env n m) (c : Setup (Fin n) (Fin (m + 1)) n m) (hg : 0 ≤ c.gamma) (hg1 : c.gamma < 1) {T : Tables n m}
    (hT : backup e c T = T) (s : Bool × Fin n) (a : Fin (m + 1)) : Value e c s.2 a (T s a) := by
  obtain ⟨d, hd, hb⟩ := exists_bound T
  have hk : ∀ k (s : Bool × Fin n) a, |soft e c k s.2 a - T s a| ≤ c.gamma ^ k * d := by
    intro k
    induction k with
    | zero =>
      intro s a
      simp only [soft, zero_sub, abs_neg, pow_zero, one_mul]
      exact hb s a
    | succ k ih =>
      intro s a
      have h := backup_close e c hg (fun s a => soft e c k s.2 a) T _ (by positivity) ih s a
      rw [hT] at h
      simp only [backup, min_self] at h
      rw [pow_succ', mul_assoc]
      exact h
  have hz : Tendsto (fun k => c.gamma ^ k * d) atTop (𝓝 0) := by
    simpa using (tendsto_pow_atTop_nhds_zero_of_lt_one hg hg1).mul_const d
  exact tendsto_iff_dist_tendsto_zero.2 (squeeze_zero (fun _ => dist_nonneg) (fun k => by rw [Real.dist_eq]; exact hk k s a) hz)

theorem times_steps (e : Env n m) (l : List (Fin n × Fin (m + 1))) :
    times (l.map (stepOf e)) = l.map fun x => ⟨⟨x.1, x.2, e.reward x.1 x.2, if e.ends x.1 x.2 then 0 else 1⟩, [], stepOf e x⟩ := by
  induction l with
  | nil => rfl
  | cons x l ih =>
    simp only [times, List.map_cons, List.flatMap_cons] at ih ⊢
    rw [ih]
    rfl

theorem pairs_steps (e : Env n m) {c : Setup (Fin n) (Fin (m + 1)) n m} (hp : Plain c) (i : Bool) (l : List (Fin n × Fin (m + 1))) :
    (times (l.map (stepOf e))).map (pairOf c i) = l := by
  rw [times_steps, List.map_map]
  conv_rhs => rw [← List.map_id l]
  refine List.map_congr_left fun x _ => ?_
  cases i
  · exact hp.first x.1 x.2
  · exact hp.second x.1 x.2

theorem worth_step (e : Env n m) {c : Setup (Fin n) (Fin (m + 1)) n m} (hp : Plain c) (T : Tables n m) (i : Bool) (x : Fin n × Fin (m + 1)) :
    yOf c T ⟨⟨x.1, x.2, e.reward x.1 x.2, if e.ends x.1 x.2 then 0 else 1⟩, [], stepOf e x⟩ = backup e c T (i, x.1) x.2 := by
  have hend : (stepOf e x).Ended ↔ e.ends x.1 x.2 = true := by
    simp [Rollout.Ended, stepOf]
  simp only [yOf, worth, discounted, backup, after, hend, part]
  rw [hp.first, hp.second]
  simp only [stepOf]
  split
  · rw [mul_zero]
  · rfl

/-- The average of the returns is what the critics are trained towards. -/
theorem average_steps (e : Env n m) {c : Setup (Fin n) (Fin (m + 1)) n m} (hp : Plain c) (l : List (Fin n × Fin (m + 1))) (T : Tables n m)
    (s : Bool × Fin n) (a : Fin (m + 1)) :
    average c (l.map (stepOf e)) (fun i p => backup e c T (i, p.1) p.2) T s a = backup e c T s a := by
  unfold average
  split
  · rename_i hm
    rw [meanOf_times]
    have hrow : ∀ x ∈ (times (l.map (stepOf e))).filter (fun x => pairOf c s.1 x = (s.2, a)), yOf c T x = backup e c T s a := by
      intro x hx
      obtain ⟨hx1, hx2⟩ := List.mem_filter.1 hx
      rw [times_steps] at hx1
      obtain ⟨p, -, rfl⟩ := List.mem_map.1 hx1
      have hpp : p = (s.2, a) := by
        have h2 : pairOf c s.1 (⟨⟨p.1, p.2, e.reward p.1 p.2, if e.ends p.1 p.2 then 0 else 1⟩, [], stepOf e p⟩ : Time _ _) = (s.2, a) := by
          simpa using hx2
        rw [← h2]
        cases s.1
        · exact (hp.first p.1 p.2).symm
        · exact (hp.second p.1 p.2).symm
      rw [worth_step e hp T s.1 p, hpp]
    rw [List.map_congr_left hrow, List.map_const', List.sum_replicate, nsmul_eq_mul]
    obtain ⟨x, hx, hxa⟩ := List.mem_map.1 hm
    have hpos : 0 < ((times (l.map (stepOf e))).filter fun x => pairOf c s.1 x = (s.2, a)).length :=
      List.length_pos_of_mem (List.mem_filter.2 ⟨hx, by simpa using hxa⟩)
    have : (((times (l.map (stepOf e))).filter fun x => pairOf c s.1 x = (s.2, a)).length : ℝ) ≠ 0 := by positivity
    field_simp
  · rfl

theorem fit_steps (e : Env n m) {c : Setup (Fin n) (Fin (m + 1)) n m} (hp : Plain c) (l : List (Fin n × Fin (m + 1))) :
    Fit c (l.map (stepOf e)) := by
  intro r hr
  obtain ⟨x, -, rfl⟩ := List.mem_map.1 hr
  refine ⟨hp.len.symm ▸ rfl, fun y hy => ?_⟩
  rw [stepOf, List.mem_singleton] at hy
  subst hy
  simp only
  split
  · exact .inl rfl
  · exact .inr rfl

/-- The gradient of a critic -/
noncomputable def gradE (e : Env n m) (c : Setup (Fin n) (Fin (m + 1)) n m) (l : List (Fin n × Fin (m + 1))) (T : Tables n m) (x : Learner n m)
    (i : Bool) (p : Entry n m) : ℝ := 2 * ((l.count p : ℝ) / l.length) * (val x i p - backup e c T (i, p.1) p.2)

theorem exists_run_env (e : Env n m) {c : Setup (Fin n) (Fin (m + 1)) n m} (hp : Plain c) (l : Nat → List (Fin n × Fin (m + 1)))
    {x0 : Learner n m} {T0 : Tables n m} (h0 : Has x0 T0) :
    ∃ (run : Nat → Learner n m) (T : Nat → Tables n m), run 0 = x0 ∧
      (∀ k, train c ((List.range k).map fun j => batchOf ((l j).map (stepOf e))) x0 = .ok (run k)) ∧ (∀ k, Has (run k) (T k)) ∧
      (∀ k i p, val (run (k + 1)) i p = val (run k) i p - eta (asSetup c i) (lossState (run k) i).steps (l k)
        (gradE e c (l k) (T k) (run k) i) p * (val (run k) i p - backup e c (T k) (i, p.1) p.2)) ∧
      ∀ k s a, T (k + 1) s a = T k s a * (1 - c.tau) + val (run (k + 1)) s.1 (s.2, a) * c.tau := by
  have hone := fun (l : List (Fin n × Fin (m + 1))) (x : {x : Learner n m × Tables n m // Has x.1 x.2}) =>
    trainBatch_ok c (by rw [hp.len]; exact one_pos) (fit_steps e hp l) (fun i p => backup e c x.1.2 (i, p.1) p.2) x.2
  choose nx nt h1 h2 h3 h4 using hone
  let run : Nat → {x : Learner n m × Tables n m // Has x.1 x.2} := fun k =>
    Nat.rec ⟨(x0, T0), h0⟩ (fun k x => ⟨(nx (l k) x, nt (l k) x), h2 (l k) x⟩) k
  refine ⟨fun k => (run k).1.1, fun k => (run k).1.2, rfl, fun k => ?_, fun k => (run k).2, fun k i p => ?_,
    fun k s a => h4 (l k) (run k) s a⟩
  · induction k with
    | zero => rfl
    | succ k ih =>
      rw [List.range_succ, List.map_append, List.map_singleton, train_snoc c _ _ ih]
      exact h1 (l k) (run k)
  · have := h3 (l k) (run k) i p
    have hg : grad c ((l k).map (stepOf e)) (fun i p => backup e c (run k).1.2 (i, p.1) p.2) (run k).1.2 (run k).1.1 i =
        gradE e c (l k) (run k).1.2 (run k).1.1 i := by
      funext p
      simp only [grad, gradE, pairs_steps e hp, average_steps e hp]
    rw [hg, pairs_steps e hp, average_steps e hp] at this
    exact this

/-! ## C164 -/

/-- C164: whatever both critics and their targets begin with, when they are trained on batches of bounded size that were made in a
deterministic environment, no batch is refused, and if each action is tried in each observation again and again, then all four networks tend
to the soft value of the policy. -/
theorem C164 (e : Env n m) {c : Setup (Fin n) (Fin (m + 1)) n m} (hc : Usual c) (hp : Plain c) {x0 : Learner n m}
    {t1 t2 : Fin n → Fin (m + 1) → ℝ} (h1 : x0.q1t = table t1) (h2 : x0.q2t = table t2) {l : Nat → List (Fin n × Fin (m + 1))} {N : Nat}
    (hN : ∀ k, l k ≠ [] ∧ (l k).length ≤ N) (hoft : ∀ x, ∃ᶠ k in atTop, x ∈ l k) :
    ∃ (run : Nat → Learner n m) (u1 u2 : Nat → Fin n → Fin (m + 1) → ℝ),
      (∀ k, train c ((List.range k).map fun j => batchOf ((l j).map (stepOf e))) x0 = .ok (run k) ∧ (run k).q1t = table (u1 k) ∧
        (run k).q2t = table (u2 k)) ∧
      ∀ s a, ∃ x, Value e c s a x ∧
        Tendsto (fun k => (run k).q1.value (s, a)) atTop (𝓝 x) ∧ Tendsto (fun k => (run k).q2.value (s, a)) atTop (𝓝 x) ∧
        Tendsto (fun k => u1 k s a) atTop (𝓝 x) ∧ Tendsto (fun k => u2 k s a) atTop (𝓝 x) := by
  let T0 : Tables n m := fun s => if s.1 then t2 s.2 else t1 s.2
  obtain ⟨run, T, hr0, hrun, hhas, hq, ht⟩ := exists_run_env e hp l (x0 := x0) (T0 := T0) ⟨h1, h2⟩
  obtain ⟨qs, hqs⟩ := exists_backup e c hc.gamma hc.gamma_lt
  obtain ⟨m1, hm1, hb1⟩ := exists_bound fun s a => val (run 0) s.1 (s.2, a) - qs s a
  obtain ⟨m2, hm2, hb2⟩ := exists_bound fun s a => T 0 s a - qs s a
  let M := m1 + m2
  have hM : 0 ≤ M := by positivity
  let v : Nat → Tables n m := fun k s a => val (run k) s.1 (s.2, a)
  have hn0 : Near qs v T M 0 := fun s a =>
    ⟨(hb1 s a).trans (le_add_of_nonneg_right hm2), (hb2 s a).trans (le_add_of_nonneg_left hm1)⟩
  let h : Nat → Tables n m := fun k s a =>
    eta (asSetup c s.1) (lossState (run k) s.1).steps (l k) (gradE e c (l k) (T k) (run k) s.1) (s.2, a)
  have hh0 : ∀ k s a, 0 ≤ h k s a ∧ h k s a ≤ 1 := fun k s a => eta_bounds (usual_asSetup hc s.1) _ _ _ _
  have hstep : ∀ k s a, v (k + 1) s a = v k s a - h k s a * (v k s a - backup e c (T k) s a) := fun k s a => hq k s.1 (s.2, a)
  have hB : ∀ t M, 0 ≤ M → (∀ s a, |t s a - qs s a| ≤ M) → ∀ s a, |backup e c t s a - qs s a| ≤ c.gamma * M := by
    intro t M hM h s a
    have := backup_close e c hc.gamma t qs M hM h s a
    rwa [hqs] at this
  have hnear := near_after (q := v) hc.gamma hc.gamma_lt hc.tau hc.tau_le hB hh0 hstep ht hM hn0
  obtain ⟨e1, he1, he1', hlow1⟩ := eta_low (n := n) (m := m) (usual_asSetup hc false) (2 * (M + c.gamma * M)) N
  obtain ⟨e2, he2, he2', hlow2⟩ := eta_low (n := n) (m := m) (usual_asSetup hc true) (2 * (M + c.gamma * M)) N
  have hgrad : ∀ k i p, |gradE e c (l k) (T k) (run k) i p| ≤ 2 * (M + c.gamma * M) := by
    intro k i p
    have hj := hnear k
    rw [Nat.zero_add] at hj
    have h1 : |val (run k) i p - qs (i, p.1) p.2| ≤ M := (hj (i, p.1) p.2).1
    have h2 := hB (T k) M hM (fun s a => (hj s a).2) (i, p.1) p.2
    have hq0 : 0 ≤ ((l k).count p : ℝ) / (l k).length := by positivity
    have hq1 : ((l k).count p : ℝ) / (l k).length ≤ 1 :=
      div_le_one_of_le₀ (by exact_mod_cast List.count_le_length) (by positivity)
    have h3 : |val (run k) i p - backup e c (T k) (i, p.1) p.2| ≤ M + c.gamma * M := by
      rw [show val (run k) i p - backup e c (T k) (i, p.1) p.2 =
        (val (run k) i p - qs (i, p.1) p.2) - (backup e c (T k) (i, p.1) p.2 - qs (i, p.1) p.2) by ring]
      exact (abs_sub _ _).trans (add_le_add h1 h2)
    unfold gradE
    rw [abs_mul, abs_of_nonneg (by positivity)]
    have h4 := abs_nonneg (val (run k) i p - backup e c (T k) (i, p.1) p.2)
    nlinarith
  have hoft' : ∀ k s a, ∃ j, min e1 e2 ≤ h (k + j) s a := by
    intro k s a
    obtain ⟨k', hk', hk''⟩ := (frequently_atTop.1 (hoft (s.2, a))) k
    obtain ⟨j, rfl⟩ := Nat.exists_eq_add_of_le hk'
    refine ⟨j, ?_⟩
    obtain ⟨i, s⟩ := s
    cases i
    · exact (min_le_left _ _).trans (hlow1 _ _ _ _ (hgrad _ false) (hN _).2 hk'')
    · exact (min_le_right _ _).trans (hlow2 _ _ _ _ (hgrad _ true) (hN _).2 hk'')
  have hlim := near_zero (q := v) hc.gamma hc.gamma_lt hc.tau hc.tau_le hB hh0 hstep ht (lt_min he1 he2) ((min_le_left _ _).trans he1') hM hn0
    hoft'
  have hval := backup_value e c hc.gamma hc.gamma_lt hqs
  refine ⟨run, fun k s => T k (false, s), fun k s => T k (true, s), fun k => ⟨hrun k, hhas k⟩, fun s a => ⟨qs (false, s) a, hval (false, s) a, ?_⟩⟩
  have hsame : qs (true, s) a = qs (false, s) a := tendsto_nhds_unique (hval (true, s) a) (hval (false, s) a)
  refine ⟨(hlim (false, s) a).1, ?_, (hlim (false, s) a).2, ?_⟩
  · rw [← hsame]; exact (hlim (true, s) a).1
  · rw [← hsame]; exact (hlim (true, s) a).2

/-! ### A case: one observation, action 0 ends the episode with reward 1, action 1 goes on with reward 2 -/

namespace ExEnv

noncomputable def env : Env 1 1 := ⟨fun _ _ => 0, fun _ a => if a = 0 then 1 else 2, fun _ a => a == 0⟩

/-- The policy takes action 1, with log-probability 1. -/
noncomputable def setup : Setup (Fin 1) (Fin 2) 1 1 where
  policy := fun _ => (1, 1)
  lnAlpha := 0
  gamma := 1 / 2
  scale := 3
  tau := 1 / 4
  len := 1
  masking := true
  first := ⟨"q1", fun o a => (o, a), 10, fun _ => 1 / 4⟩
  second := ⟨"q2", fun o a => (o, a), 5, fun _ => 1 / 8⟩

theorem usual : Usual setup where
  gamma := by norm_num [setup]
  gamma_lt := by norm_num [setup]
  tau := by norm_num [setup]
  tau_le := by norm_num [setup]
  len := by norm_num [setup]
  first := ⟨by norm_num [setup], ⟨1 / 4, by norm_num, fun _ => by norm_num [setup]⟩, fun _ => by norm_num [setup]⟩
  second := ⟨by norm_num [setup], ⟨1 / 8, by norm_num, fun _ => by norm_num [setup]⟩, fun _ => by norm_num [setup]⟩

/-- The actions in turn, one row in each batch -/
def turn (k : Nat) : List (Fin 1 × Fin 2) := [(0, ⟨k % 2, Nat.mod_lt _ (by decide)⟩)]

noncomputable def start : Learner 1 1 :=
  ⟨⟨(), 0, []⟩, ⟨(), 0, []⟩, ⟨fun _ => 9, fun _ => none⟩, ⟨fun _ => 7, fun _ => none⟩, table fun (_ : Fin 1) (_ : Fin 2) => -5,
    table fun (_ : Fin 1) (_ : Fin 2) => 8⟩

/-- The soft values: 3 for action 0, and 6 + (x - 1) / 2 = x for action 1 -/
theorem values (s : Fin 1) (a : Fin 2) : Value env setup s a (if a = 0 then 3 else 11) := by
  have := backup_value env setup (by norm_num [setup]) (by norm_num [setup]) (T := fun _ a => if a = 0 then 3 else 11) (by
    funext s a
    fin_cases a <;> norm_num [backup, env, setup]) (false, s) a
  exact this

/-- All networks tend to 3 for action 0 and to 11 for action 1. -/
example : ∃ run : Nat → Learner 1 1,
    (∀ k, train setup ((List.range k).map fun j => batchOf ((turn j).map (stepOf env))) start = .ok (run k)) ∧
    Tendsto (fun k => (run k).q1.value (0, 0)) atTop (𝓝 3) ∧ Tendsto (fun k => (run k).q2.value (0, 1)) atTop (𝓝 11) := by
  obtain ⟨run, u1, u2, hrun, hlim⟩ := C164 env usual ⟨fun _ _ => rfl, fun _ _ => rfl, rfl⟩ (x0 := start) (t1 := fun _ _ => -5)
    (t2 := fun _ _ => 8) rfl rfl (l := turn) (N := 1) (fun k => ⟨by simp [turn], by simp [turn]⟩) (by
      intro x
      rw [frequently_atTop]
      intro k
      refine ⟨2 * k + x.2.val, by omega, ?_⟩
      rw [turn, List.mem_singleton]
      refine Prod.ext (Subsingleton.elim _ _) (Fin.ext ?_)
      simp only
      have := x.2.isLt
      omega)
  refine ⟨run, fun k => (hrun k).1, ?_, ?_⟩
  · obtain ⟨x, hx, h1, -⟩ := hlim 0 0
    rw [tendsto_nhds_unique hx (values 0 0)] at h1
    simpa using h1
  · obtain ⟨x, hx, -, h2, -⟩ := hlim 0 1
    rw [tendsto_nhds_unique hx (values 0 1)] at h2
    simpa using h2

end ExEnv

end SacCritics

end Verif
