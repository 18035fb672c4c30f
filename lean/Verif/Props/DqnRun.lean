import Verif.Model.DqnRun
import Verif.Props.Dqn
import Verif.Props.LossStep
import Mathlib.Analysis.Calculus.Deriv.Pow

/-!
# C157: Q-learning with gradient steps
-/

namespace Verif

namespace DqnRun

open Numerics Dqn Dqn.Spec Filter Topology

variable {n m : Nat}

/-! ## Specification -/

/-- The row for an action in an observation -/
noncomputable def Spec.rowOf (e : Env n m) (s : Fin n) (a : Fin (m + 1)) : Sample ℝ :=
  ⟨s.val, (a.val : ℝ), e.reward s a, if e.ends s a then 0 else 1, (e.next s a).val⟩

/-- All rows were made in the environment. -/
def Spec.Made (e : Env n m) (b : List (Sample ℝ)) : Prop := ∀ x ∈ b, ∃ s a, x = rowOf e s a

/-- The action was taken in the observation. -/
def Spec.Tried (s : Fin n) (a : Fin (m + 1)) (b : List (Sample ℝ)) : Prop := ∃ x ∈ b, x.obs = s.val ∧ x.action = (a.val : ℝ)

/-- A usual setup: learning rates are between a positive number and 1/2. -/
structure Spec.Usual (c : Setup) : Prop where
  gamma : 0 ≤ c.gamma
  gamma_lt : c.gamma < 1
  tau : 0 < c.tau
  tau_le : c.tau ≤ 1
  norm : 0 < c.maxNorm
  rate : ∃ r, 0 < r ∧ ∀ k, r ≤ c.rate k
  rate_le : ∀ k, c.rate k ≤ 1 / 2

open Spec

/-! ## Proofs -/

theorem samples_of_made {e : Env n m} {b : List (Sample ℝ)} (h : Made e b) : ∃ l : List (Entry n m), b = samples e l := by
  induction b with
  | nil => exact ⟨[], rfl⟩
  | cons x b ih =>
    obtain ⟨s, a, h1⟩ := h x (by simp)
    obtain ⟨l, h2⟩ := ih fun y hy => h y (List.mem_cons_of_mem _ hy)
    exact ⟨(s, a) :: l, by rw [h1, h2]; rfl⟩

theorem tried_samples {e : Env n m} {l : List (Entry n m)} {s : Fin n} {a : Fin (m + 1)} (h : Tried s a (samples e l)) :
    (s, a) ∈ l := by
  obtain ⟨y, hy, h1, h2⟩ := h
  obtain ⟨z, hz, rfl⟩ := List.mem_map.1 hy
  have : z = (s, a) := Prod.ext (Fin.ext h1) (Fin.ext (Nat.cast_injective (R := ℝ) h2))
  rwa [← this]

theorem mem_entries (p : Entry n m) : p ∈ entries n m := List.mem_product.2 ⟨List.mem_finRange _, List.mem_finRange _⟩

theorem nodup_entries : (entries n m).Nodup := (List.nodup_finRange n).product (List.nodup_finRange (m + 1))

/-! ### The derivative -/

theorem batchLoss_samples (e : Env n m) (l : List (Entry n m)) (y : Entry n m → ℝ) (v : Entry n m → ℝ) :
    batchLoss (netOf v) (samples e l) (l.map y) = .ok ((l.map fun q => (v q - y q) ^ 2).sum / l.length) := by
  have := batchLoss_table (fun s a => v (s, a)) (l.map fun x => ((⟨x.1.val, (x.2.val : ℝ), e.reward x.1 x.2,
    if e.ends x.1 x.2 then 0 else 1, (e.next x.1 x.2).val⟩ : Sample ℝ), x, y x)) (by
      intro z hz
      obtain ⟨x, -, rfl⟩ := List.mem_map.1 hz
      exact ⟨rfl, rfl⟩)
  simp only [List.map_map, Function.comp_def, List.length_map] at this
  exact this

theorem hasDerivAt_sum (l : List (Entry n m)) (y v : Entry n m → ℝ) (p : Entry n m) :
    HasDerivAt (fun x => (l.map fun q => (Function.update v p x q - y q) ^ 2).sum) (2 * (l.count p : ℝ) * (v p - y p)) (v p) := by
  induction l with
  | nil => simpa using hasDerivAt_const (v p) (0 : ℝ)
  | cons q l ih =>
    simp only [List.map_cons, List.sum_cons]
    by_cases h : q = p
    · subst h
      simp only [Function.update_self]
      have h1 : HasDerivAt (fun x : ℝ => (x - y q) ^ 2) (2 * (v q - y q)) (v q) := by
        have := ((hasDerivAt_id' (v q)).sub_const (y q)).fun_pow 2
        refine this.congr_deriv ?_
        simp
      refine (h1.fun_add ih).congr_deriv ?_
      rw [List.count_cons_self]
      push_cast; ring
    · simp only [Function.update_of_ne h]
      rw [List.count_cons_of_ne h]
      refine ((hasDerivAt_const (v p) ((v q - y q) ^ 2)).fun_add ih).congr_deriv ?_
      ring

theorem deriv_loss (e : Env n m) (l : List (Entry n m)) (y v : Entry n m → ℝ) (p : Entry n m) :
    deriv (fun x => lossOf (samples e l, l.map y) (Function.update v p x)) (v p) =
      2 * ((l.count p : ℝ) / l.length) * (v p - y p) := by
  have : (fun x => lossOf (samples e l, l.map y) (Function.update v p x)) =
      fun x => (l.map fun q => (Function.update v p x q - y q) ^ 2).sum / l.length := by
    funext x
    simp only [lossOf, batchLoss_samples]
  rw [this, ((hasDerivAt_sum l y v p).div_const _).deriv]
  ring

/-! ### One batch -/

theorem filterMap_some {α β : Type} (f : α → β) (l : List α) : (l.filterMap fun x => some (f x)) = l.map f := by
  induction l with
  | nil => rfl
  | cons x l ih => simp [ih]

/-- The factor of the step for each entry -/
noncomputable def eta (c : Setup) (k : Nat) (l : List (Entry n m)) (d : Entry n m → ℝ) (p : Entry n m) : ℝ :=
  c.rate k * LossStep.factor c.maxNorm √(((entries n m).map fun p => d p ^ 2).sum) * (2 * ((l.count p : ℝ) / l.length))

/-- Plain gradient descent for any loss of the entries -/
noncomputable def cfgOf {β : Type} (c : Setup) (loss : β → (Entry n m → ℝ) → ℝ) : LossStep.Cfg (Entry n m) Unit β where
  name := c.name
  own := entries n m
  maxNorm := c.maxNorm
  loss := loss
  deriv := fun b v p => some (deriv (fun x => loss b (Function.update v p x)) (v p))
  step := sgd
  rate := c.rate

theorem step_of_deriv {β : Type} (loss : β → (Entry n m → ℝ) → ℝ) (c : Setup) (b : β) (l : List (Entry n m)) (y : Entry n m → ℝ) (s : LossStep.State Unit)
    (w : LossStep.World (Entry n m)) (hb : ∀ p, deriv (fun x => loss b (Function.update w.value p x)) (w.value p) =
      2 * ((l.count p : ℝ) / l.length) * (w.value p - y p)) (p : Entry n m) :
    (LossStep.backward (cfgOf c loss) b s w).2.value p =
      w.value p - eta c s.steps l (fun p => 2 * ((l.count p : ℝ) / l.length) * (w.value p - y p)) p * (w.value p - y p) := by
  have hseen : ∀ p, LossStep.clip (entries n m) c.maxNorm (LossStep.accumulate ((cfgOf c loss).deriv b w.value)
      (LossStep.zeroGrad (entries n m) w.grad)) p = some (2 * ((l.count p : ℝ) / l.length) * (w.value p - y p) *
        LossStep.factor c.maxNorm √(((entries n m).map fun p => (2 * ((l.count p : ℝ) / l.length) * (w.value p - y p)) ^ 2).sum)) := by
    intro p
    have hd : ∀ p, LossStep.accumulate ((cfgOf c loss).deriv b w.value)
        (LossStep.zeroGrad (entries n m) w.grad) p = some (2 * ((l.count p : ℝ) / l.length) * (w.value p - y p)) := by
      intro p
      rw [LossStep.accumulate_zero (mem_entries p)]
      simp only [cfgOf, hb]
    simp only [LossStep.clip, mem_entries, if_true, hd, Option.map_some, LossStep.norm, LossStep.present]
    congr 4
    rw [filterMap_some, List.map_map]
    rfl
  have hown := LossStep.assign_own (entries n m) nodup_entries
    ((sgd () (c.rate s.steps) ((entries n m).map fun p => (w.value p, LossStep.clip (entries n m) c.maxNorm
      (LossStep.accumulate ((cfgOf c loss).deriv b w.value) (LossStep.zeroGrad (entries n m) w.grad)) p))).2) w.value
    (by simp [sgd])
  have hval : (LossStep.backward (cfgOf c loss) b s w).2.value = LossStep.assign (entries n m)
      ((sgd () (c.rate s.steps) ((entries n m).map fun p => (w.value p, LossStep.clip (entries n m) c.maxNorm
      (LossStep.accumulate ((cfgOf c loss).deriv b w.value) (LossStep.zeroGrad (entries n m) w.grad)) p))).2) w.value := rfl
  rw [← hval] at hown
  simp only [sgd, List.map_map] at hown
  have := List.map_inj_left.1 hown p (mem_entries p)
  rw [this]
  simp only [Function.comp, hseen, eta]
  ring

theorem backward_of_deriv (c : Setup) (b : List (Sample ℝ) × List ℝ) (l : List (Entry n m)) (y : Entry n m → ℝ) (s : LossStep.State Unit)
    (w : LossStep.World (Entry n m)) (hb : ∀ p, deriv (fun x => lossOf b (Function.update w.value p x)) (w.value p) =
      2 * ((l.count p : ℝ) / l.length) * (w.value p - y p)) (p : Entry n m) :
    (LossStep.backward (c.cfg n m) b s w).2.value p =
      w.value p - eta c s.steps l (fun p => 2 * ((l.count p : ℝ) / l.length) * (w.value p - y p)) p * (w.value p - y p) :=
  step_of_deriv lossOf c b l y s w hb p

theorem backward_value (c : Setup) (e : Env n m) (l : List (Entry n m)) (y : Entry n m → ℝ) (s : LossStep.State Unit)
    (w : LossStep.World (Entry n m)) (p : Entry n m) :
    (LossStep.backward (c.cfg n m) (samples e l, l.map y) s w).2.value p =
      w.value p - eta c s.steps l (fun p => 2 * ((l.count p : ℝ) / l.length) * (w.value p - y p)) p * (w.value p - y p) :=
  backward_of_deriv c _ l y s w (fun p => deriv_loss e l y w.value p) p

theorem trainBatch_ok (c : Setup) (e : Env n m) (l : List (Entry n m)) {x : Learner n m} {t : Fin n → Fin (m + 1) → ℝ}
    (ht : x.target = table t) :
    ∃ x', trainBatch c (samples e l) x = .ok x' ∧ x'.loss.steps = x.loss.steps + 1 ∧
      (∀ p, x'.net.value p = x.net.value p - eta c x.loss.steps l (fun p => 2 * ((l.count p : ℝ) / l.length) *
        (x.net.value p - bellman (e.scale c.scale) c.gamma t p.1 p.2)) p * (x.net.value p - bellman (e.scale c.scale) c.gamma t p.1 p.2)) ∧
      x'.target = table fun s a => t s a * (1 - c.tau) + x'.net.value (s, a) * c.tau := by
  let y : Entry n m → ℝ := fun p => bellman (e.scale c.scale) c.gamma t p.1 p.2
  have h : trainBatch c (samples e l) x = .ok ⟨(LossStep.backward (c.cfg n m) (samples e l, l.map y) x.loss x.net).1,
      (LossStep.backward (c.cfg n m) (samples e l, l.map y) x.loss x.net).2,
      (DqnNets.endBatch ⟨netOf (LossStep.backward (c.cfg n m) (samples e l, l.map y) x.loss x.net).2.value, x.target, c.tau⟩).target⟩ := by
    simp only [trainBatch, ht, targets_ok]
    rw [show (l.map fun x => bellman (e.scale c.scale) c.gamma t x.1 x.2) = l.map y from rfl, batchLoss_samples]
  refine ⟨_, h, rfl, fun p => backward_value c e l y x.loss x.net p, ?_⟩
  simp only [DqnNets.endBatch, ht]
  exact softUpdate_table c.tau _ t

theorem eta_bounds {c : Setup} (hc : Usual c) (k : Nat) (l : List (Entry n m)) (d : Entry n m → ℝ) (p : Entry n m) :
    0 ≤ eta c k l d p ∧ eta c k l d p ≤ 1 := by
  obtain ⟨r, hr, hk⟩ := hc.rate
  have h1 : 0 ≤ c.rate k := hr.le.trans (hk k)
  obtain ⟨f0, f1, -, -⟩ := LossStep.factor_spec (n := √(((entries n m).map fun p => d p ^ 2).sum)) hc.norm (Real.sqrt_nonneg _)
  have hq0 : 0 ≤ (l.count p : ℝ) / l.length := by positivity
  have hq1 : (l.count p : ℝ) / l.length ≤ 1 := div_le_one_of_le₀ (by exact_mod_cast List.count_le_length) (by positivity)
  unfold eta
  refine ⟨by positivity, ?_⟩
  calc _ ≤ (1 / 2 : ℝ) * 1 * (2 * 1) := by
        have := hc.rate_le k
        gcongr
    _ = 1 := by norm_num

/-- Steps are not arbitrarily small. -/
theorem eta_low {c : Setup} (hc : Usual c) (D : ℝ) (N : Nat) : ∃ eta0, 0 < eta0 ∧ eta0 ≤ 1 ∧
    ∀ (k : Nat) (l : List (Entry n m)) (d : Entry n m → ℝ) (p : Entry n m), (∀ p, |d p| ≤ D) → l.length ≤ N → p ∈ l →
      eta0 ≤ eta c k l d p := by
  obtain ⟨r, hr, hk⟩ := hc.rate
  let G : ℝ := √((entries n m).length * D ^ 2)
  let f0 : ℝ := min 1 (c.maxNorm / (G + 1 / 10 ^ 6))
  have hG : 0 ≤ G := Real.sqrt_nonneg _
  have hf0 : 0 < f0 := lt_min one_pos (div_pos hc.norm (by positivity))
  refine ⟨min 1 (r * f0 * (2 * (1 / (N + 1)))), lt_min one_pos (by positivity), min_le_left _ _, fun k l d p hd hl hp => ?_⟩
  refine (min_le_right _ _).trans ?_
  have hsum : ∀ ps : List (Entry n m), (ps.map fun p => d p ^ 2).sum ≤ ps.length * D ^ 2 := by
    intro ps
    induction ps with
    | nil => simp
    | cons q ps ih =>
      simp only [List.map_cons, List.sum_cons, List.length_cons]
      have := sq_le_sq' (by linarith [(abs_le.1 (hd q)).1]) (abs_le.1 (hd q)).2
      push_cast
      linarith
  have hn : √(((entries n m).map fun p => d p ^ 2).sum) ≤ G := Real.sqrt_le_sqrt (hsum _)
  have hf : f0 ≤ LossStep.factor c.maxNorm √(((entries n m).map fun p => d p ^ 2).sum) := by
    unfold LossStep.factor
    refine min_le_min_left _ ?_
    have := hc.norm
    have := Real.sqrt_nonneg (((entries n m).map fun p => d p ^ 2).sum)
    gcongr
  have hcount : (1 : ℝ) ≤ l.count p := by exact_mod_cast List.count_pos_iff.2 hp
  have hlen : (0 : ℝ) < l.length := by exact_mod_cast List.length_pos_of_mem hp
  have hN : (l.length : ℝ) ≤ N + 1 := by
    have : (l.length : ℝ) ≤ N := by exact_mod_cast hl
    linarith
  unfold eta
  have hrk := hk k
  have hr0 : 0 ≤ c.rate k := hr.le.trans hrk
  have hfn := hf0.le.trans hf
  gcongr

/-! ### Convergence -/

section
variable {σ : Type} [Fintype σ] {B : (σ → Fin (m + 1) → ℝ) → σ → Fin (m + 1) → ℝ} {g tau : ℝ} (hg : 0 ≤ g) (hg1 : g < 1) (ht : 0 < tau) (ht1 : tau ≤ 1) {qs : σ → Fin (m + 1) → ℝ}
  (hq : ∀ t M, 0 ≤ M → (∀ s a, |t s a - qs s a| ≤ M) → ∀ s a, |B t s a - qs s a| ≤ g * M) {q t : Nat → σ → Fin (m + 1) → ℝ} {h : Nat → σ → Fin (m + 1) → ℝ}
  (h0 : ∀ k s a, 0 ≤ h k s a ∧ h k s a ≤ 1)
  (hstep : ∀ k s a, q (k + 1) s a = q k s a - h k s a * (q k s a - B (t k) s a))
  (htar : ∀ k s a, t (k + 1) s a = t k s a * (1 - tau) + q (k + 1) s a * tau)

/-- Both tables are at most `M` away from the best values. -/
def Near (qs : σ → Fin (m + 1) → ℝ) (q t : Nat → σ → Fin (m + 1) → ℝ) (M : ℝ) (k : Nat) : Prop :=
  ∀ s a, |q k s a - qs s a| ≤ M ∧ |t k s a - qs s a| ≤ M

include hq h0 hstep in
/-- The step of one entry -/
theorem entry_step {M R : ℝ} (hM : 0 ≤ M) {k : Nat} (hk : Near qs q t M k) {s : σ} {a : Fin (m + 1)} (hR : |q k s a - qs s a| ≤ R) :
    |q (k + 1) s a - qs s a| ≤ (1 - h k s a) * R + h k s a * (g * M) := by
  have hb : |B (t k) s a - qs s a| ≤ g * M := hq (t k) M hM (fun s a => (hk s a).2) s a
  rw [hstep, show q k s a - h k s a * (q k s a - B (t k) s a) - qs s a =
    (1 - h k s a) * (q k s a - qs s a) + h k s a * (B (t k) s a - qs s a) by ring]
  obtain ⟨i1, i2⟩ := h0 k s a
  refine (abs_add_le _ _).trans ?_
  rw [abs_mul, abs_mul, abs_of_nonneg i1, abs_of_nonneg (by linarith : 0 ≤ 1 - h k s a)]
  exact add_le_add (mul_le_mul_of_nonneg_left hR (by linarith)) (mul_le_mul_of_nonneg_left hb i1)

include ht ht1 htar in
theorem target_step {M R : ℝ} {k : Nat} {s : σ} {a : Fin (m + 1)} (hM : |t k s a - qs s a| ≤ M)
    (hR : |q (k + 1) s a - qs s a| ≤ R) : |t (k + 1) s a - qs s a| ≤ (1 - tau) * M + tau * R := by
  rw [htar, show t k s a * (1 - tau) + q (k + 1) s a * tau - qs s a =
    (1 - tau) * (t k s a - qs s a) + tau * (q (k + 1) s a - qs s a) by ring]
  refine (abs_add_le _ _).trans ?_
  rw [abs_mul, abs_mul, abs_of_nonneg ht.le, abs_of_nonneg (by linarith : 0 ≤ 1 - tau)]
  exact add_le_add (mul_le_mul_of_nonneg_left hM (by linarith)) (mul_le_mul_of_nonneg_left hR ht.le)

include hg hg1 ht ht1 hq h0 hstep htar

theorem near_succ {M : ℝ} (hM : 0 ≤ M) {k : Nat} (hk : Near qs q t M k) : Near qs q t M (k + 1) := by
  intro s a
  have h1 : |q (k + 1) s a - qs s a| ≤ M := by
    refine (entry_step hq h0 hstep hM hk (hk s a).1).trans ?_
    obtain ⟨i1, i2⟩ := h0 k s a
    have : h k s a * (g * M) ≤ h k s a * M := mul_le_mul_of_nonneg_left (mul_le_of_le_one_left hM hg1.le) i1
    linarith
  refine ⟨h1, (target_step ht ht1 htar (hk s a).2 h1).trans (by linarith)⟩

theorem near_after {M : ℝ} (hM : 0 ≤ M) {k : Nat} (hk : Near qs q t M k) (j : Nat) : Near qs q t M (k + j) := by
  induction j with
  | zero => exact hk
  | succ j ih => exact near_succ hg hg1 ht ht1 hq h0 hstep htar hM ih

variable {eta0 : ℝ} (he0 : 0 < eta0) (he1 : eta0 ≤ 1)
include he0 he1

/-- From some time on, both tables are nearer. -/
theorem near_shrink {M : ℝ} (hM : 0 ≤ M) {k : Nat} (hk : Near qs q t M k)
    (hoft : ∀ s a, ∃ j, eta0 ≤ h (k + j) s a) :
    ∃ j, Near qs q t ((1 - tau * (eta0 * (1 - g))) * M) (k + j) := by
  have hr1 : eta0 * (1 - g) ≤ 1 := by nlinarith
  have hr0 : 0 ≤ eta0 * (1 - g) := by have : 0 ≤ 1 - g := by linarith
                                      positivity
  have hall := near_after hg hg1 ht ht1 hq h0 hstep htar hM hk
  have hgr : g * M ≤ (1 - eta0 * (1 - g)) * M := by
    refine mul_le_mul_of_nonneg_right ?_ hM
    nlinarith
  have hone : ∀ s a, ∃ j0, ∀ j, j0 ≤ j → |q (k + j) s a - qs s a| ≤ (1 - eta0 * (1 - g)) * M := by
    intro s a
    obtain ⟨j0, hj0⟩ := hoft s a
    refine ⟨j0 + 1, fun j hj => ?_⟩
    obtain ⟨i, rfl⟩ := Nat.exists_eq_add_of_le hj
    induction i with
    | zero =>
      have := entry_step hq h0 hstep hM (hall j0) (hall j0 s a).1
      refine this.trans ?_
      obtain ⟨i1, i2⟩ := h0 (k + j0) s a
      have : 0 ≤ (h (k + j0) s a - eta0) * ((1 - g) * M) := by
        have : 0 ≤ 1 - g := by linarith
        have : 0 ≤ h (k + j0) s a - eta0 := by linarith
        positivity
      nlinarith
    | succ i ih =>
      have := entry_step hq h0 hstep hM (hall (j0 + 1 + i)) (ih (by omega))
      refine this.trans ?_
      obtain ⟨i1, i2⟩ := h0 (k + (j0 + 1 + i)) s a
      have := mul_le_mul_of_nonneg_left hgr i1
      linarith
  choose f hf using hone
  let J : Nat := ∑ s, ∑ a, f s a
  have hJ : ∀ s a, f s a ≤ J := fun s a =>
    (Finset.single_le_sum (f := fun a => f s a) (fun _ _ => Nat.zero_le _) (Finset.mem_univ a)).trans
      (Finset.single_le_sum (f := fun s => ∑ a, f s a) (fun _ _ => Nat.zero_le _) (Finset.mem_univ s))
  refine ⟨J + 1, fun s a => ?_⟩
  have h1 : |q (k + J + 1) s a - qs s a| ≤ (1 - eta0 * (1 - g)) * M := hf s a (J + 1) ((hJ s a).trans (Nat.le_succ _))
  refine ⟨h1.trans ?_, (target_step ht ht1 htar (hall J s a).2 h1).trans (by nlinarith)⟩
  refine mul_le_mul_of_nonneg_right ?_ hM
  nlinarith

theorem near_zero {M : ℝ} (hM : 0 ≤ M) (hk : Near qs q t M 0) (hoft : ∀ k s a, ∃ j, eta0 ≤ h (k + j) s a) (s : σ) (a : Fin (m + 1)) :
    Tendsto (fun k => q k s a) atTop (𝓝 (qs s a)) ∧ Tendsto (fun k => t k s a) atTop (𝓝 (qs s a)) := by
  have hx : 0 < tau * (eta0 * (1 - g)) := by
    have : 0 < 1 - g := by linarith
    positivity
  have hx1 : tau * (eta0 * (1 - g)) ≤ 1 := by
    have h1 : eta0 * (1 - g) ≤ 1 := by nlinarith
    have h2 : 0 ≤ eta0 * (1 - g) := by have : 0 ≤ 1 - g := by linarith
                                       positivity
    nlinarith
  have hpow : ∀ i : Nat, ∃ k, Near qs q t ((1 - tau * (eta0 * (1 - g))) ^ i * M) k := by
    intro i
    induction i with
    | zero => exact ⟨0, by simpa using hk⟩
    | succ i ih =>
      obtain ⟨k, ih⟩ := ih
      obtain ⟨j, hj⟩ := near_shrink hg hg1 ht ht1 hq h0 hstep htar he0 he1
        (mul_nonneg (pow_nonneg (by linarith) i) hM) ih (hoft k)
      exact ⟨k + j, by rw [pow_succ', mul_assoc]; exact hj⟩
  have hz : Tendsto (fun i => (1 - tau * (eta0 * (1 - g))) ^ i * M) atTop (𝓝 0) := by
    simpa using (tendsto_pow_atTop_nhds_zero_of_lt_one (by linarith : 0 ≤ 1 - tau * (eta0 * (1 - g))) (by linarith)).mul_const M
  have key : ∀ eps > 0, ∃ K, ∀ k ≥ K, Near qs q t eps k := by
    intro eps heps
    obtain ⟨i, hi⟩ := (hz.eventually (gt_mem_nhds heps)).exists
    obtain ⟨k, hk⟩ := hpow i
    refine ⟨k, fun k' hk' s a => ?_⟩
    obtain ⟨j, rfl⟩ := Nat.exists_eq_add_of_le hk'
    have := near_after hg hg1 ht ht1 hq h0 hstep htar (mul_nonneg (pow_nonneg (by linarith) i) hM) hk j s a
    exact ⟨this.1.trans hi.le, this.2.trans hi.le⟩
  constructor
  · rw [Metric.tendsto_atTop]
    intro eps heps
    obtain ⟨K, hK⟩ := key (eps / 2) (by linarith)
    exact ⟨K, fun k hk => by rw [Real.dist_eq]; linarith [(hK k hk s a).1]⟩
  · rw [Metric.tendsto_atTop]
    intro eps heps
    obtain ⟨K, hK⟩ := key (eps / 2) (by linarith)
    exact ⟨K, fun k hk => by rw [Real.dist_eq]; linarith [(hK k hk s a).2]⟩

end

/-! ## C157 -/

theorem train_snoc (c : Setup) (bs : List (List (Sample ℝ))) (b : List (Sample ℝ)) {x y : Learner n m} (h : train c bs x = .ok y) :
    train c (bs ++ [b]) x = trainBatch c b y := by
  induction bs generalizing x with
  | nil =>
    injection h with h
    subst h
    simp only [List.nil_append, train]
    cases trainBatch c b x <;> rfl
  | cons b' bs ih =>
    simp only [List.cons_append, train] at h ⊢
    cases h' : trainBatch c b' x with
    | error e => rw [h'] at h; cases h
    | ok x' => rw [h'] at h; exact ih h

theorem exists_run {c : Setup} {e : Env n m} {b : Nat → List (Sample ℝ)} {l : Nat → List (Entry n m)} (hb : ∀ k, b k = samples e (l k))
    {x0 : Learner n m} {t0 : Fin n → Fin (m + 1) → ℝ} (h0 : x0.target = table t0) :
    ∃ (run : Nat → Learner n m) (t : Nat → Fin n → Fin (m + 1) → ℝ), run 0 = x0 ∧
      (∀ k, train c ((List.range k).map b) x0 = .ok (run k)) ∧ (∀ k, (run k).target = table (t k)) ∧
      (∀ k p, (run (k + 1)).net.value p = (run k).net.value p - eta c (run k).loss.steps (l k) (fun p =>
        2 * (((l k).count p : ℝ) / (l k).length) * ((run k).net.value p - bellman (e.scale c.scale) c.gamma (t k) p.1 p.2)) p *
          ((run k).net.value p - bellman (e.scale c.scale) c.gamma (t k) p.1 p.2)) ∧
      ∀ k s a, t (k + 1) s a = t k s a * (1 - c.tau) + (run (k + 1)).net.value (s, a) * c.tau := by
  have hone := fun (l : List (Entry n m)) (x : {x : Learner n m // ∃ t, x.target = table t}) =>
    trainBatch_ok c e l x.2.choose_spec
  choose nx h1 h2 h3 h4 using hone
  let run : Nat → {x : Learner n m // ∃ t, x.target = table t} := fun k =>
    Nat.rec ⟨x0, t0, h0⟩ (fun k x => ⟨nx (l k) x, _, h4 (l k) x⟩) k
  refine ⟨fun k => (run k).1, fun k => (run k).2.choose, rfl, fun k => ?_, fun k => (run k).2.choose_spec, fun k p => ?_, fun k s a => ?_⟩
  · induction k with
    | zero => rfl
    | succ k ih =>
      rw [List.range_succ, List.map_append, List.map_singleton, train_snoc c _ _ ih, hb]
      exact h1 (l k) (run k)
  · exact h3 (l k) (run k) p
  · have := (run (k + 1)).2.choose_spec.symm.trans (h4 (l k) (run k))
    exact congrFun (congrFun (table_inj this) s) a

/-- C157: whatever the table and its target begin with, when it is trained by gradient descent on batches of bounded size that were made
in a deterministic environment, with usual parameters, it is never refused, and if each action is tried in each observation again and
again, then the values of the network and of the target network tend to the best discounted returns. -/
theorem C157 (e : Env n m) {c : Setup} (hc : Usual c) {x0 : Learner n m} {t0 : Fin n → Fin (m + 1) → ℝ} (h0 : x0.target = table t0)
    {b : Nat → List (Sample ℝ)} (hm : ∀ k, Made e (b k)) {N : Nat} (hN : ∀ k, b k ≠ [] ∧ (b k).length ≤ N)
    (hoft : ∀ (s : Fin n) (a : Fin (m + 1)), ∃ᶠ k in atTop, Tried s a (b k)) :
    ∃ (run : Nat → Learner n m) (t : Nat → Fin n → Fin (m + 1) → ℝ),
      (∀ k, train c ((List.range k).map b) x0 = .ok (run k) ∧ (run k).target = table (t k)) ∧
      ∀ s a x, Best (e.scale c.scale) c.gamma s a x →
        Tendsto (fun k => (run k).net.value (s, a)) atTop (𝓝 x) ∧ Tendsto (fun k => t k s a) atTop (𝓝 x) := by
  choose l hl using fun k => samples_of_made (hm k)
  obtain ⟨run, t, hr0, hrun, htab, hq, ht⟩ := exists_run (c := c) hl h0
  obtain ⟨qs, hqs⟩ := exists_fixed (e.scale c.scale) hc.gamma hc.gamma_lt
  obtain ⟨m1, hm1, hb1⟩ := exists_bound fun s a => (run 0).net.value (s, a) - qs s a
  obtain ⟨m2, hm2, hb2⟩ := exists_bound fun s a => t 0 s a - qs s a
  let M := m1 + m2
  have hM : 0 ≤ M := by positivity
  have hn0 : Near qs (fun k s a => (run k).net.value (s, a)) t M 0 := fun s a =>
    ⟨(hb1 s a).trans (le_add_of_nonneg_right hm2), (hb2 s a).trans (le_add_of_nonneg_left hm1)⟩
  let h : Nat → Fin n → Fin (m + 1) → ℝ := fun k s a => eta c (run k).loss.steps (l k) (fun p =>
        2 * (((l k).count p : ℝ) / (l k).length) * ((run k).net.value p - bellman (e.scale c.scale) c.gamma (t k) p.1 p.2)) (s, a)
  have hh0 : ∀ k s a, 0 ≤ h k s a ∧ h k s a ≤ 1 := fun k s a => eta_bounds hc _ _ _ _
  have hstep : ∀ k s a, (run (k + 1)).net.value (s, a) = (run k).net.value (s, a) - h k s a *
      ((run k).net.value (s, a) - bellman (e.scale c.scale) c.gamma (t k) s a) := fun k s a => hq k (s, a)
  have hB : ∀ t M, 0 ≤ M → (∀ s a, |t s a - qs s a| ≤ M) → ∀ s a, |bellman (e.scale c.scale) c.gamma t s a - qs s a| ≤ c.gamma * M := by
    intro t M hM h s a
    have := bellman_close (e.scale c.scale) hc.gamma t qs M hM h s a
    rwa [hqs] at this
  have hnear := near_after (q := fun k s a => (run k).net.value (s, a)) hc.gamma hc.gamma_lt hc.tau hc.tau_le hB hh0 hstep ht hM hn0
  obtain ⟨eta0, he0, he1, hlow⟩ := eta_low (n := n) (m := m) hc (2 * (M + c.gamma * M)) N
  have hoft' : ∀ k s a, ∃ j, eta0 ≤ h (k + j) s a := by
    intro k s a
    obtain ⟨k', hk', hk''⟩ := (frequently_atTop.1 (hoft s a)) k
    obtain ⟨j, rfl⟩ := Nat.exists_eq_add_of_le hk'
    rw [hl] at hk''
    refine ⟨j, hlow _ _ _ _ (fun p => ?_) ?_ (tried_samples hk'')⟩
    · have hj := hnear (k + j)
      rw [Nat.zero_add] at hj
      have h1 := (hj p.1 p.2).1
      have h2 := bellman_close (e.scale c.scale) hc.gamma (t (k + j)) qs M hM (fun s a => (hj s a).2) p.1 p.2
      rw [hqs] at h2
      have hq0 : 0 ≤ ((l (k + j)).count p : ℝ) / (l (k + j)).length := by positivity
      have hq1 : ((l (k + j)).count p : ℝ) / (l (k + j)).length ≤ 1 :=
        div_le_one_of_le₀ (by exact_mod_cast List.count_le_length) (by positivity)
      have h3 : |(run (k + j)).net.value p - bellman (e.scale c.scale) c.gamma (t (k + j)) p.1 p.2| ≤ M + c.gamma * M := by
        rw [show (run (k + j)).net.value p - bellman (e.scale c.scale) c.gamma (t (k + j)) p.1 p.2 =
          ((run (k + j)).net.value p - qs p.1 p.2) - (bellman (e.scale c.scale) c.gamma (t (k + j)) p.1 p.2 - qs p.1 p.2) by ring]
        exact (abs_sub _ _).trans (add_le_add h1 h2)
      rw [abs_mul, abs_of_nonneg (by positivity)]
      have h4 := abs_nonneg ((run (k + j)).net.value p - bellman (e.scale c.scale) c.gamma (t (k + j)) p.1 p.2)
      nlinarith
    · have := (hN (k + j)).2
      rw [hl] at this
      simpa [samples] using this
  refine ⟨run, t, fun k => ⟨hrun k, htab k⟩, fun s a x hx => ?_⟩
  rw [best_unique _ hx (fixed_best _ hc.gamma hc.gamma_lt hqs s a)]
  exact near_zero (q := fun k s a => (run k).net.value (s, a)) hc.gamma hc.gamma_lt hc.tau hc.tau_le hB hh0 hstep ht he0 he1 hM hn0
    hoft' s a

/-- When values tend to the best returns, an action that looks best is best from some time on. -/
theorem greedy_of_tendsto (e : Env n m) {g : ℝ} (hg : 0 ≤ g) (hg1 : g < 1) {q : Nat → Fin n → Fin (m + 1) → ℝ}
    (h : ∀ s a x, Best e g s a x → Tendsto (fun k => q k s a) atTop (𝓝 x)) :
    ∀ᶠ k in atTop, ∀ s a, (∀ a', q k s a' ≤ q k s a) → ∀ x, Best e g s a x → ∀ a' x', Best e g s a' x' → x' ≤ x := by
  obtain ⟨qs, hqs⟩ := exists_fixed e hg hg1
  have hb := fixed_best e hg hg1 hqs
  have : ∀ᶠ k in atTop, ∀ s a a', qs s a < qs s a' → q k s a < q k s a' := by
    rw [eventually_all]; intro s
    rw [eventually_all]; intro a
    rw [eventually_all]; intro a'
    by_cases hlt : qs s a < qs s a'
    · filter_upwards [(h s a _ (hb s a)).eventually_lt (h s a' _ (hb s a')) hlt] with k hk _ using hk
    · exact Eventually.of_forall fun _ h' => absurd h' hlt
  filter_upwards [this] with k hk s a hmax x hx a' x' hx'
  rw [best_unique _ hx (hb s a), best_unique _ hx' (hb s a')]
  by_contra hlt
  exact absurd (hk s a a' (not_le.1 hlt)) (not_lt.2 (hmax a'))

/-- C157: from some time on, an action with the largest value is best. -/
theorem C157_greedy (e : Env n m) {c : Setup} (hc : Usual c) {x0 : Learner n m} {t0 : Fin n → Fin (m + 1) → ℝ} (h0 : x0.target = table t0)
    {b : Nat → List (Sample ℝ)} (hm : ∀ k, Made e (b k)) {N : Nat} (hN : ∀ k, b k ≠ [] ∧ (b k).length ≤ N)
    (hoft : ∀ (s : Fin n) (a : Fin (m + 1)), ∃ᶠ k in atTop, Tried s a (b k)) :
    ∃ K, ∀ k, K ≤ k → ∃ x, train c ((List.range k).map b) x0 = .ok x ∧ ∀ s a, (∀ a', x.net.value (s, a') ≤ x.net.value (s, a)) →
      ∀ y, Best (e.scale c.scale) c.gamma s a y → ∀ a' y', Best (e.scale c.scale) c.gamma s a' y' → y' ≤ y := by
  obtain ⟨run, t, h1, h2⟩ := C157 e hc h0 hm hN hoft
  obtain ⟨K, hK⟩ := eventually_atTop.1 (greedy_of_tendsto (e.scale c.scale) hc.gamma hc.gamma_lt
    (q := fun k s a => (run k).net.value (s, a)) fun s a x hx => (h2 s a x hx).1)
  exact ⟨K, fun k hk => ⟨run k, (h1 k).1, hK k hk⟩⟩

/-! ### A case: the two observations of C116, one row in each batch, in turn -/

namespace Ex

noncomputable def setup : Setup where
  name := "q"
  gamma := 1 / 2
  scale := 1
  tau := 1 / 4
  maxNorm := 10
  rate := fun _ => 1 / 4

theorem usual : Usual setup where
  gamma := by norm_num [setup]
  gamma_lt := by norm_num [setup]
  tau := by norm_num [setup]
  tau_le := by norm_num [setup]
  norm := by norm_num [setup]
  rate := ⟨1 / 4, by norm_num, fun _ => le_refl _⟩
  rate_le := fun _ => by norm_num [setup]

/-- The pairs in turn -/
def turn (k : Nat) : Fin 2 × Fin 2 := (⟨k / 2 % 2, Nat.mod_lt _ (by decide)⟩, ⟨k % 2, Nat.mod_lt _ (by decide)⟩)

noncomputable def batches (k : Nat) : List (Sample ℝ) := [rowOf Dqn.Ex.env (turn k).1 (turn k).2]

def start : Learner 2 1 := ⟨⟨(), 0, []⟩, ⟨fun _ => 7, fun _ => some 3⟩, table fun (_ : Fin 2) (_ : Fin 2) => -5⟩

theorem tried (s : Fin 2) (a : Fin (1 + 1)) : ∃ᶠ k in atTop, Tried s a (batches k) := by
  rw [frequently_atTop]
  intro k
  refine ⟨4 * k + 2 * s.val + a.val, by omega, _, List.mem_singleton.2 rfl, ?_, ?_⟩
  · simp only [rowOf, turn]; have := a.isLt; omega
  · simp only [rowOf, turn]
    congr 1
    have := a.isLt; omega

/-- The value of action 0 in the first observation tends to 1/4, the one of action 1 to 1/2, from wherever they start. -/
example : ∃ run : Nat → Learner 2 1, (∀ k, train setup ((List.range k).map batches) start = .ok (run k)) ∧
    Tendsto (fun k => (run k).net.value (0, 0)) atTop (𝓝 (1 / 4)) ∧ Tendsto (fun k => (run k).net.value (0, 1)) atTop (𝓝 (1 / 2)) := by
  obtain ⟨run, t, h1, h2⟩ := C157 Dqn.Ex.env usual (x0 := start) (show start.target = table (fun (_ : Fin 2) (_ : Fin 2) => (-5 : ℝ)) from rfl) (b := batches)
    (fun k x hx => ⟨_, _, List.mem_singleton.1 hx⟩) (N := 1) (fun k => ⟨by simp [batches], by simp [batches]⟩) tried
  have he : Dqn.Ex.env.scale setup.scale = Dqn.Ex.env := by simp [Env.scale, setup]
  rw [he] at h2
  refine ⟨run, fun k => (h1 k).1, (h2 0 0 _ ?_).1, (h2 0 1 _ ?_).1⟩
  · simpa [Dqn.Ex.best, setup] using fixed_best Dqn.Ex.env (g := 1 / 2) (by norm_num) (by norm_num) Dqn.Ex.fixed 0 0
  · simpa [Dqn.Ex.best, setup] using fixed_best Dqn.Ex.env (g := 1 / 2) (by norm_num) (by norm_num) Dqn.Ex.fixed 0 1

end Ex

end DqnRun

end Verif
