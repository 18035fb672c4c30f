import Verif.Props.DqnRun

/-!
# C159: Q-learning that is resumed
-/

namespace Verif

namespace DqnRun

open Numerics Dqn Dqn.Spec Filter Topology Spec

variable {n m : Nat}

/-! ## Specification -/

/-- C159 as a user would put it: the resumed training has the network that the training without interruption has. -/
def C159_claim : Prop :=
  ∀ (n m : Nat) (e : Env n m) (c : Setup) (v w : Entry n m → ℝ) (before after : List (List (Sample ℝ))), Usual c → (∀ b ∈ before, Made e b) →
    (∀ b ∈ after, Made e b) → (∀ k, c.rate k = c.rate 0) → before ≠ [] →
    ∃ x y z, train c before (fresh v) = .ok x ∧ train c after x = .ok y ∧ train c after (load (save x) (fresh w)) = .ok z ∧
      ∀ p, z.net.value p = y.net.value p

/-! ## Proofs -/

theorem fresh_target (v : Entry n m → ℝ) : (fresh v).target = table fun s a => v (s, a) := (rfl)

theorem load_target (d : Saved n m) (v : Entry n m → ℝ) : (load d (fresh v)).target = table fun s a => v (s, a) := (rfl)

theorem train_one (c : Setup) (b : List (Sample ℝ)) (x : Learner n m) : train c [b] x = trainBatch c b x := by
  simp only [train]
  cases trainBatch c b x <;> rfl

namespace Ex

/-- One observation, one action, which never ends the episode -/
def still : Env 1 0 := ⟨fun s _ => s, fun _ _ => 0, fun _ _ => false⟩

theorem bellman_still (t : Fin 1 → Fin 1 → ℝ) : bellman (still.scale setup.scale) setup.gamma t 0 0 = 1 / 2 * t 0 0 := by
  have ht : top (t 0) = t 0 0 := by
    obtain ⟨a, ha⟩ := exists_top (t 0)
    rw [← ha, show a = 0 from Fin.ext (by omega)]
  simp only [bellman, still, Env.scale, setup, mul_zero, zero_add, Bool.false_eq_true, if_false]
  rw [ht]

end Ex

/-- C159 as a user would put it is false: after loading, the network is trained towards the target network of the new process, which is a
copy of its network from before the checkpoint was loaded. -/
theorem C159_false : ¬ C159_claim := by
  intro h
  have hb : ∀ b ∈ [[rowOf Ex.still 0 0]], Made Ex.still b := by
    intro b hb x hx
    rw [List.mem_singleton.1 hb, List.mem_singleton] at hx
    exact ⟨0, 0, hx⟩
  obtain ⟨x, y, z, h1, h2, h3, h4⟩ := h 1 0 Ex.still Ex.setup (fun _ => 0) (fun _ => 4) [[rowOf Ex.still 0 0]] [[rowOf Ex.still 0 0]] Ex.usual
    hb hb (fun _ => rfl) (by simp)
  have hs : [rowOf Ex.still 0 0] = samples Ex.still [(0, 0)] := rfl
  have hp : ∀ p : Entry 1 0, p = (0, 0) := fun p => Prod.ext (Fin.ext (by omega)) (Fin.ext (by omega))
  rw [train_one, hs] at h1 h2 h3
  obtain ⟨x', k1, k2, k3, k4⟩ := trainBatch_ok Ex.setup Ex.still [(0, 0)] (x := fresh (n := 1) (m := 0) fun _ => 0) (fresh_target _)
  rw [h1] at k1
  injection k1 with k1
  subst k1
  have hx : x.net.value (0, 0) = 0 := by
    rw [k3, Ex.bellman_still]
    simp [fresh]
  obtain ⟨y', l1, l2, l3, l4⟩ := trainBatch_ok Ex.setup Ex.still [(0, 0)] (x := x) k4
  rw [h2] at l1
  injection l1 with l1
  subst l1
  have hy : y.net.value (0, 0) = 0 := by
    rw [l3, Ex.bellman_still, hx]
    simp
  obtain ⟨z', o1, o2, o3, o4⟩ := trainBatch_ok Ex.setup Ex.still [(0, 0)] (x := load (save x) (fresh (n := 1) (m := 0) fun _ => 4)) (load_target _ _)
  rw [h3] at o1
  injection o1 with o1
  subst o1
  have hz := o3 (0, 0)
  rw [← hy, ← h4 (0, 0)] at hx
  rw [h4 (0, 0), hy, Ex.bellman_still] at hz
  have hv : (load (save x) (fresh (n := 1) (m := 0) fun _ => 4)).net.value (0, 0) = 0 := by
    show x.net.value (0, 0) = 0
    rw [hx, h4, hy]
  rw [hv] at hz
  obtain ⟨eta0, e1, -, e2⟩ := eta_low (n := 1) (m := 0) Ex.usual 4 1
  have := e2 0 [(0, 0)] (fun p => 2 * (([(0, 0)].count p : ℝ) / ([(0, 0)] : List (Entry 1 0)).length) *
    ((load (save x) (fresh (n := 1) (m := 0) fun _ => 4)).net.value p - bellman (Ex.still.scale Ex.setup.scale) Ex.setup.gamma
      (fun s a => (4 : ℝ)) p.1 p.2)) (0, 0) (fun p => by
        rw [hp p, hv, Ex.bellman_still]
        norm_num) (by simp) (by simp)
  have hz' : (0 : ℝ) = 0 - eta Ex.setup 0 [(0, 0)] (fun p => 2 * (([(0, 0)].count p : ℝ) / ([(0, 0)] : List (Entry 1 0)).length) *
    ((load (save x) (fresh (n := 1) (m := 0) fun _ => 4)).net.value p - bellman (Ex.still.scale Ex.setup.scale) Ex.setup.gamma
      (fun s a => (4 : ℝ)) p.1 p.2)) (0, 0) * (0 - 1 / 2 * 4) := hz
  linarith

/-- C159, what holds: in a deterministic environment that goes on being explored the interruption is made up for. Whatever target network the new process has,
and also with other learning rates, its networks come arbitrarily close to those of the training without interruption. -/
theorem C159_partial (e : Env n m) {c c' : Setup} (hc : Usual c) (hc' : Usual c') (hg : c'.gamma = c.gamma) (hs : c'.scale = c.scale)
    {x0 : Learner n m} {t0 : Fin n → Fin (m + 1) → ℝ} (h0 : x0.target = table t0) {new : Learner n m} {t1 : Fin n → Fin (m + 1) → ℝ}
    (h1 : new.target = table t1) {b : Nat → List (Sample ℝ)} (hm : ∀ k, Made e (b k)) {N : Nat} (hN : ∀ k, b k ≠ [] ∧ (b k).length ≤ N)
    (hoft : ∀ (s : Fin n) (a : Fin (m + 1)), ∃ᶠ k in atTop, Tried s a (b k)) (K : Nat) :
    ∃ (run run' : Nat → Learner n m) (t t' : Nat → Fin n → Fin (m + 1) → ℝ),
      (∀ k, train c ((List.range k).map b) x0 = .ok (run k) ∧ (run k).target = table (t k)) ∧
      (∀ k, train c' ((List.range k).map fun j => b (K + j)) (load (save (run K)) new) = .ok (run' k) ∧ (run' k).target = table (t' k)) ∧
      ∀ s a, Tendsto (fun k => (run' k).net.value (s, a) - (run (K + k)).net.value (s, a)) atTop (𝓝 0) ∧
        Tendsto (fun k => t' k s a - t (K + k) s a) atTop (𝓝 0) := by
  obtain ⟨run, t, h2, h3⟩ := C157 e hc h0 hm hN hoft
  obtain ⟨run', t', h4, h5⟩ := C157 e hc' (x0 := load (save (run K)) new) h1 (b := fun j => b (K + j)) (fun k => hm _) (fun k => hN _)
    (fun s a => by
      rw [frequently_atTop]
      intro k
      obtain ⟨j, hj, ht⟩ := frequently_atTop.1 (hoft s a) (K + k)
      exact ⟨j - K, by omega, by rwa [show K + (j - K) = j by omega]⟩)
  refine ⟨run, run', t, t', h2, h4, fun s a => ?_⟩
  obtain ⟨qs, hqs⟩ := exists_fixed (e.scale c.scale) hc.gamma hc.gamma_lt
  have hb := fixed_best (e.scale c.scale) hc.gamma hc.gamma_lt hqs s a
  obtain ⟨a1, a2⟩ := h3 s a _ hb
  obtain ⟨a3, a4⟩ := h5 s a _ (by rw [hg, hs]; exact hb)
  have hK : Tendsto (fun k : Nat => K + k) atTop atTop := tendsto_atTop_mono (fun k => Nat.le_add_left k K) tendsto_id
  constructor
  · have := a3.sub (a1.comp hK)
    rwa [sub_self] at this
  · have := a4.sub (a2.comp hK)
    rwa [sub_self] at this

/-- A new process with a target network of its own, after five batches -/
example := C159_partial Dqn.Ex.env Ex.usual Ex.usual rfl rfl (x0 := fresh (n := 2) (m := 1) fun _ => 1) (fresh_target _)
  (new := fresh (n := 2) (m := 1) fun p => 100 * p.2.val) (fresh_target _) (b := Ex.batches) (fun k x hx => ⟨_, _, List.mem_singleton.1 hx⟩)
  (N := 1) (fun k => ⟨by simp [Ex.batches], by simp [Ex.batches]⟩) Ex.tried 5

end DqnRun

end Verif
