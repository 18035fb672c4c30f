import Verif.Model.SacPolicy
import Verif.Model.Numerics
import Verif.Props.Returns
import Verif.Props.SacPolicy
import Mathlib.MeasureTheory.Function.L2Space
import Mathlib.MeasureTheory.Constructions.BorelSpace.Metrizable
import Mathlib.Analysis.SpecificLimits.Basic

/-!
# C128: soft actor-critic improves the policy
-/

namespace Verif

namespace SoftIter

open Real MeasureTheory ProbabilityTheory Filter Topology SacPolicy Policy Numerics
open SacPolicy.Spec (noise)

/-! ## Specification -/

namespace Spec

/-- A deterministic environment with observations `S` and actions with `n` components -/
structure Env (S : Type) (n : Nat) where
  next : S → (Fin n → ℝ) → S
  reward : S → (Fin n → ℝ) → ℝ
  ends : S → (Fin n → ℝ) → Bool

/-- What the last layers of the policy give for each observation -/
structure Pol (S : Type) (n : Nat) where
  m : S → Fin n → ℝ
  s : S → Fin n → ℝ

variable {S : Type} {n : Nat}

/-- The action with noise `ε`, and its log-probability -/
noncomputable def act (p : Pol S n) (o : S) (ε : Fin n → ℝ) : Fin n → ℝ := (trainForward (p.m o) (p.s o) ε).1

noncomputable def logp (p : Pol S n) (o : S) (ε : Fin n → ℝ) : ℝ := (trainForward (p.m o) (p.s o) ε).2

/-- The expected discounted sum of `k` rewards, with `alpha` times the entropy of each further choice, from observation `o`, for
the action `a` and then the actions of the policy -/
noncomputable def soft (e : Env S n) (p : Pol S n) (g alpha : ℝ) : Nat → S → (Fin n → ℝ) → ℝ
  | 0, _, _ => 0
  | k + 1, o, a => e.reward o a + if e.ends o a then 0 else
      g * ∫ ε, (soft e p g alpha k (e.next o a) (act p (e.next o a) ε) - alpha * logp p (e.next o a) ε) ∂(noise n)

/-- The soft value: the limit for all rewards -/
def Value (e : Env S n) (p : Pol S n) (g alpha : ℝ) (v : S → (Fin n → ℝ) → ℝ) : Prop :=
  ∀ o a, Tendsto (fun k => soft e p g alpha k o a) atTop (𝓝 (v o a))

/-- The environment with scaled rewards, that goes on after an end unless ends are masked -/
noncomputable def seen (e : Env S n) (scale : ℝ) (masking : Bool) : Env S n :=
  ⟨e.next, fun o a => scale * e.reward o a, fun o a => masking && e.ends o a⟩

/-- Measurable and bounded -/
def Tame (f : S → (Fin n → ℝ) → ℝ) : Prop := (∀ o, Measurable (f o)) ∧ ∃ c, 0 ≤ c ∧ ∀ o a, |f o a| ≤ c

/-- An environment for which expectations make sense -/
structure Env.Ok [MeasurableSpace S] (e : Env S n) : Prop where
  next : ∀ o, Measurable (e.next o)
  reward : Tame e.reward
  ends : ∀ o, MeasurableSet {a | e.ends o a = true}

/-- The targets of soft actor-critic for a batch of transitions of the environment, with the noise of each row -/
noncomputable def targets (e : Env S n) (p : Pol S n) (g alpha scale : ℝ) (masking : Bool) (t1 t2 : S → (Fin n → ℝ) → ℝ)
    {b : Nat} (rows : Fin b → S × (Fin n → ℝ)) (ε : Fin b → Fin n → ℝ) : Except Err (List ℝ) :=
  let next := fun r => e.next (rows r).1 (rows r).2
  Returns.sacTargets g alpha scale 1 masking
    (List.ofFn fun r => t1 (next r) (act p (next r) (ε r))) (List.ofFn fun r => t2 (next r) (act p (next r) (ε r)))
    (List.ofFn fun r => logp p (next r) (ε r)) (List.ofFn fun r => e.reward (rows r).1 (rows r).2)
    (List.ofFn fun r => if e.ends (rows r).1 (rows r).2 then 0 else 1)

/-- On every batch, no critic has a smaller expected loss against the targets made with `t1` and `t2`. -/
def Fitted (e : Env S n) (p : Pol S n) (g alpha scale : ℝ) (masking : Bool) (t1 t2 q : S → (Fin n → ℝ) → ℝ) : Prop :=
  ∀ (b : Nat) (rows : Fin b → S × (Fin n → ℝ)), ∃ ts : (Fin b → Fin n → ℝ) → List ℝ,
    (∀ ε, targets e p g alpha scale masking t1 t2 rows ε = .ok (ts ε)) ∧
    ∀ q' : S → (Fin n → ℝ) → ℝ,
      ∫ ε, qLoss (List.ofFn fun r => q (rows r).1 (rows r).2) (ts ε) ∂(Measure.pi fun _ => noise n) ≤
      ∫ ε, qLoss (List.ofFn fun r => q' (rows r).1 (rows r).2) (ts ε) ∂(Measure.pi fun _ => noise n)

/-- A critic whose values mix as its parameters do, as one that is linear in its parameters -/
def Mixes (value : Net ℝ → S → (Fin n → ℝ) → ℝ) : Prop :=
  ∀ (source target : Net ℝ) (tau : ℝ) o a, source.map List.length = target.map List.length →
    value (softUpdate source target tau) o a = value target o a * (1 - tau) + value source o a * tau

/-- Rounds: both critics are fitted to the targets, and then the target networks are moved. -/
inductive Rounds (e : Env S n) (p : Pol S n) (g alpha scale : ℝ) (masking : Bool) (value1 value2 : Net ℝ → S → (Fin n → ℝ) → ℝ)
    (nets0 : SacNets ℝ) : Nat → SacNets ℝ → Prop
  | zero : Rounds e p g alpha scale masking value1 value2 nets0 0 nets0
  | succ {k nets q1 q2} : Rounds e p g alpha scale masking value1 value2 nets0 k nets →
      q1.map List.length = nets.q1t.map List.length → q2.map List.length = nets.q2t.map List.length →
      Fitted e p g alpha scale masking (value1 nets.q1t) (value2 nets.q2t) (value1 q1) →
      Fitted e p g alpha scale masking (value1 nets.q1t) (value2 nets.q2t) (value2 q2) →
      Rounds e p g alpha scale masking value1 value2 nets0 (k + 1) (SacNets.endBatch { nets with q1 := q1, q2 := q2 })

/-- The expected loss of a policy at an observation, with a critic of these values -/
noncomputable def lossAt (lnAlpha : ℝ) (p : Pol S n) (q : S → (Fin n → ℝ) → ℝ) (o : S) : ℝ :=
  ∫ ε, policyLoss (b := 1) lnAlpha (fun _ => p.m o) (fun _ => p.s o) (fun _ => q o) (some fun _ => q o) ε
    ∂(Measure.pi fun _ => noise n)

end Spec

open Spec

variable {S : Type} {n : Nat}

/-! ## Moments of the log-probability -/

theorem memLp_comp {f : ℝ → ℝ} (hf : MemLp f 2 (gaussianReal 0 1)) (i : Fin n) : MemLp (fun ε : Fin n → ℝ => f (ε i)) 2 (noise n) :=
  hf.comp_measurePreserving (measurePreserving_eval (μ := fun _ : Fin n => gaussianReal 0 1) i)

theorem memLp_sq : MemLp (fun e : ℝ => e ^ 2) 2 (gaussianReal 0 1) := by
  rw [memLp_two_iff_integrable_sq (by fun_prop)]
  have := (memLp_id_gaussianReal (μ := 0) (v := 1) 4).integrable_norm_pow (p := 4) (by norm_num)
  refine this.congr (Eventually.of_forall fun e => ?_)
  simp only [id, norm_eq_abs]
  rw [← pow_mul, show 2 * 2 = 4 from rfl, Even.pow_abs (by decide)]

theorem memLp_normal (μ σ : ℝ) (hs : σ ≠ 0) : MemLp (fun e => normalLogProb μ σ (μ + σ * e)) 2 (gaussianReal 0 1) := by
  have h : MemLp (fun e : ℝ => -1 / 2 * e ^ 2 + (- log σ - log (√(2 * π)))) 2 (gaussianReal 0 1) :=
    (memLp_sq.const_mul (-1 / 2)).add (memLp_const _)
  have hfun : (fun e => normalLogProb μ σ (μ + σ * e)) = fun e : ℝ => -1 / 2 * e ^ 2 + (- log σ - log (√(2 * π))) := by
    funext e
    simp only [normalLogProb]
    field_simp
    ring
  rw [hfun]
  exact h

theorem memLp_jacobian (μ σ : ℝ) : MemLp (fun e => tanhLogJacobian (μ + σ * e)) 2 (gaussianReal 0 1) := by
  have h1 : MemLp (fun e : ℝ => e) 2 (gaussianReal 0 1) := memLp_id_gaussianReal 2
  have h2 : MemLp (fun e : ℝ => μ + σ * e) 2 (gaussianReal 0 1) := (memLp_const μ).add (h1.const_mul σ)
  have h : MemLp (fun e : ℝ => 2 * |μ + σ * e|) 2 (gaussianReal 0 1) := h2.norm.const_mul 2
  refine h.mono' ?_ (Eventually.of_forall fun e => abs_tanhLogJacobian _)
  unfold tanhLogJacobian softplus
  refine Measurable.aestronglyMeasurable ?_
  fun_prop

theorem memLp_logp (p : Pol S n) (o : S) : MemLp (logp p o) 2 (noise n) := by
  have h1 : MemLp (fun ε : Fin n → ℝ => ∑ i, normalLogProb (mean (p.m o i)) (std (p.s o i)) (mean (p.m o i) + std (p.s o i) * ε i)) 2 (noise n) :=
    memLp_finset_sum _ fun i _ => memLp_comp (memLp_normal _ _ (std_pos (p.s o i)).ne') i
  have h2 : MemLp (fun ε : Fin n → ℝ => ∑ i, tanhLogJacobian (mean (p.m o i) + std (p.s o i) * ε i)) 2 (noise n) :=
    memLp_finset_sum _ fun i _ => memLp_comp (memLp_jacobian _ _) i
  exact h1.sub h2

/-! ## The expected target -/

/-- The right side of the soft Bellman equation -/
noncomputable def backup (e : Env S n) (p : Pol S n) (g alpha : ℝ) (f : S → (Fin n → ℝ) → ℝ) (o : S) (a : Fin n → ℝ) : ℝ :=
  e.reward o a + if e.ends o a then 0 else
    g * ∫ ε, (f (e.next o a) (act p (e.next o a) ε) - alpha * logp p (e.next o a) ε) ∂(noise n)

/-- The target of one row -/
noncomputable def target (e : Env S n) (p : Pol S n) (g alpha : ℝ) (f : S → (Fin n → ℝ) → ℝ) (o : S) (a ε : Fin n → ℝ) : ℝ :=
  e.reward o a + g * if e.ends o a then 0 else f (e.next o a) (act p (e.next o a) ε) - alpha * logp p (e.next o a) ε

/-- The smaller value -/
noncomputable def least (t1 t2 : S → (Fin n → ℝ) → ℝ) (o : S) (a : Fin n → ℝ) : ℝ := min (t1 o a) (t2 o a)

theorem targets_ok (e : Env S n) (p : Pol S n) (g alpha scale : ℝ) (masking : Bool) (t1 t2 : S → (Fin n → ℝ) → ℝ)
    {b : Nat} (rows : Fin b → S × (Fin n → ℝ)) (ε : Fin b → Fin n → ℝ) :
    targets e p g alpha scale masking t1 t2 rows ε =
      .ok (List.ofFn fun r => target (seen e scale masking) p g alpha (least t1 t2) (rows r).1 (rows r).2 (ε r)) := by
  let roll : Fin b → Returns.Roll ℝ := fun r => ⟨[e.reward (rows r).1 (rows r).2], [], if e.ends (rows r).1 (rows r).2 then 0 else 1,
    t1 (e.next (rows r).1 (rows r).2) (act p (e.next (rows r).1 (rows r).2) (ε r)),
    t2 (e.next (rows r).1 (rows r).2) (act p (e.next (rows r).1 (rows r).2) (ε r)),
    logp p (e.next (rows r).1 (rows r).2) (ε r)⟩
  have h := Returns.C63_sac g alpha scale 1 masking (List.ofFn roll) one_pos
    (fun r hr => by obtain ⟨i, rfl⟩ := (List.mem_ofFn' _ _).1 hr; rfl) (fun r hr => by obtain ⟨i, rfl⟩ := (List.mem_ofFn' _ _).1 hr; rfl)
    (fun r hr => by
      obtain ⟨i, rfl⟩ := (List.mem_ofFn' _ _).1 hr
      by_cases h : e.ends (rows i).1 (rows i).2 <;> simp [roll, h])
  have flat : ∀ (l : List (Returns.Roll ℝ)) (f : Returns.Roll ℝ → ℝ), (l.flatMap fun x => [f x]) = l.map f := by
    intro l f
    induction l with
    | nil => rfl
    | cons x l ih => simp [ih]
  have r1 : (List.ofFn roll).flatMap Returns.Roll.rewards = List.ofFn fun r => e.reward (rows r).1 (rows r).2 := by
    have : ∀ x ∈ List.ofFn roll, x.rewards = [x.rewards.headD 0] := fun x hx => by
      obtain ⟨i, rfl⟩ := (List.mem_ofFn' _ _).1 hx; rfl
    rw [List.flatMap_congr this, flat, List.map_ofFn]
    rfl
  have r2 : (List.ofFn roll).flatMap Returns.Roll.allMasks = List.ofFn fun r => if e.ends (rows r).1 (rows r).2 then 0 else 1 := by
    have : ∀ x ∈ List.ofFn roll, x.allMasks = [x.lastMask] := fun x hx => by
      obtain ⟨i, rfl⟩ := (List.mem_ofFn' _ _).1 hx; rfl
    rw [List.flatMap_congr this, flat, List.map_ofFn]
    rfl
  rw [r1, r2] at h
  simp only [List.map_ofFn] at h
  refine Eq.trans ?_ (h.trans ?_)
  · rfl
  · congr 1
    have one : ∀ (b : Nat) (f : Fin b → ℝ × ℝ), Returns.allRets g (List.ofFn fun r => ([(f r).1], (f r).2)) =
        List.ofFn fun r => (f r).1 + g * (f r).2 := by
      intro b
      induction b with
      | zero => intro f; rfl
      | succ b ih =>
        intro f
        rw [List.ofFn_succ, List.ofFn_succ]
        simp only [Returns.allRets, Returns.rets, Returns.ret, ih fun r => f r.succ]
        simp
    have := one b fun r => (scale * e.reward (rows r).1 (rows r).2, (roll r).bootstrap alpha masking)
    refine Eq.trans ?_ (this.trans ?_)
    · rfl
    · congr 1
      funext r
      simp only [target, seen, roll, Returns.Roll.bootstrap, least]
      cases masking <;> by_cases he : e.ends (rows r).1 (rows r).2 <;> simp [he]

theorem measurable_act (p : Pol S n) (o : S) : Measurable (act p o) := measurable_action _ _

theorem tame_comp {f : S → (Fin n → ℝ) → ℝ} (hf : Tame f) (p : Pol S n) (o : S) : Integrable (fun ε => f o (act p o ε)) (noise n) := by
  obtain ⟨h1, c, _, h2⟩ := hf
  exact Integrable.of_bound ((h1 o).comp (measurable_act p o)).aestronglyMeasurable c (Eventually.of_forall fun _ => h2 _ _)

theorem integrable_step {f : S → (Fin n → ℝ) → ℝ} (hf : Tame f) (p : Pol S n) (alpha : ℝ) (o : S) :
    Integrable (fun ε => f o (act p o ε) - alpha * logp p o ε) (noise n) :=
  (tame_comp hf p o).sub ((integrable_logp (p.m o) (p.s o)).const_mul alpha)

theorem memLp_target (e : Env S n) (p : Pol S n) (g alpha : ℝ) {f : S → (Fin n → ℝ) → ℝ} (hf : Tame f) (o : S) (a : Fin n → ℝ) :
    MemLp (target e p g alpha f o a) 2 (noise n) := by
  unfold target
  by_cases he : e.ends o a
  · simp only [he, if_true]
    exact memLp_const _
  · simp only [he, Bool.false_eq_true, if_false]
    obtain ⟨h1, c, _, h2⟩ := hf
    have hb : MemLp (fun ε => f (e.next o a) (act p (e.next o a) ε)) 2 (noise n) :=
      MemLp.of_bound ((h1 _).comp (measurable_act p _)).aestronglyMeasurable c (Eventually.of_forall fun _ => h2 _ _)
    have hl : MemLp (fun ε => alpha * logp p (e.next o a) ε) 2 (noise n) := (memLp_logp p _).const_mul alpha
    have hs : MemLp (fun ε => g * (f (e.next o a) (act p (e.next o a) ε) - alpha * logp p (e.next o a) ε)) 2 (noise n) :=
      (hb.sub hl).const_mul g
    have hk : MemLp (fun _ : Fin n → ℝ => e.reward o a) 2 (noise n) := memLp_const _
    exact hk.add hs

theorem integral_target (e : Env S n) (p : Pol S n) (g alpha : ℝ) {f : S → (Fin n → ℝ) → ℝ} (hf : Tame f) (o : S) (a : Fin n → ℝ) :
    ∫ ε, target e p g alpha f o a ε ∂(noise n) = backup e p g alpha f o a := by
  unfold target backup
  by_cases he : e.ends o a
  · simp [he]
  · simp only [he, Bool.false_eq_true, if_false]
    rw [integral_add (integrable_const _) ((integrable_step hf p alpha _).const_mul g), integral_const_mul]
    simp

theorem sq_split {T : (Fin n → ℝ) → ℝ} (hT : MemLp T 2 (noise n)) (x : ℝ) :
    ∫ ε, (x - T ε) ^ 2 ∂(noise n) = (x - ∫ ε, T ε ∂(noise n)) ^ 2 + ∫ ε, ((∫ ε, T ε ∂(noise n)) - T ε) ^ 2 ∂(noise n) := by
  set M := ∫ ε, T ε ∂(noise n) with hM
  have hi : Integrable T (noise n) := hT.integrable one_le_two
  have h2 : Integrable (fun ε => (M - T ε) ^ 2) (noise n) := by
    have : MemLp (fun ε => M - T ε) 2 (noise n) := (memLp_const M).sub hT
    exact (memLp_two_iff_integrable_sq this.aestronglyMeasurable).1 this
  have h3 : Integrable (fun ε => 2 * (x - M) * (M - T ε)) (noise n) := ((integrable_const M).sub hi).const_mul _
  have : ∀ ε, (x - T ε) ^ 2 = (x - M) ^ 2 + 2 * (x - M) * (M - T ε) + (M - T ε) ^ 2 := fun ε => by ring
  simp only [this]
  have h4 : Integrable (fun ε => (x - M) ^ 2 + 2 * (x - M) * (M - T ε)) (noise n) := (integrable_const _).add h3
  rw [integral_add h4 h2, integral_add (integrable_const _) h3, integral_const_mul,
    integral_sub (integrable_const _) hi, ← hM]
  simp

/-- The expected loss of a batch is the mean of those of its rows. -/
theorem expected_loss {b : Nat} (x : Fin b → ℝ) (T : Fin b → (Fin n → ℝ) → ℝ) (hT : ∀ r, MemLp (T r) 2 (noise n)) :
    ∫ ε, qLoss (List.ofFn x) (List.ofFn fun r => T r (ε r)) ∂(Measure.pi fun _ : Fin b => noise n) =
      (∑ r, ∫ ε, (x r - T r ε) ^ 2 ∂(noise n)) / b := by
  have hq : ∀ ε : Fin b → Fin n → ℝ, qLoss (List.ofFn x) (List.ofFn fun r => T r (ε r)) = (∑ r, (x r - T r (ε r)) ^ 2) / b := by
    intro ε
    unfold qLoss
    have : List.zipWith (fun q t => (q - t) ^ 2) (List.ofFn x) (List.ofFn fun r => T r (ε r)) =
        List.ofFn fun r => (x r - T r (ε r)) ^ 2 := by
      apply List.ext_getElem <;> simp
    rw [this, List.sum_ofFn, List.length_ofFn]
  have hi : ∀ r, Integrable (fun ε => (x r - T r ε) ^ 2) (noise n) := fun r => by
    have : MemLp (fun ε => x r - T r ε) 2 (noise n) := (memLp_const _).sub (hT r)
    exact (memLp_two_iff_integrable_sq this.aestronglyMeasurable).1 this
  simp only [hq]
  rw [integral_div, integral_finsetSum]
  · congr 1
    refine Finset.sum_congr rfl fun r _ => ?_
    have := measurePreserving_eval (μ := fun _ : Fin b => noise n) r
    conv_rhs => rw [← this.map_eq]
    rw [integral_map this.measurable.aemeasurable]
    rw [this.map_eq]
    exact (hi r).aestronglyMeasurable
  · intro r _
    exact (measurePreserving_eval (μ := fun _ : Fin b => noise n) r).integrable_comp_of_integrable (hi r)

theorem tame_least {t1 t2 : S → (Fin n → ℝ) → ℝ} (h1 : Tame t1) (h2 : Tame t2) : Tame (least t1 t2) := by
  obtain ⟨m1, c1, p1, b1⟩ := h1
  obtain ⟨m2, c2, p2, b2⟩ := h2
  refine ⟨fun o => (m1 o).min (m2 o), max c1 c2, le_max_of_le_left p1, fun o a => ?_⟩
  unfold least
  rcases min_choice (t1 o a) (t2 o a) with h | h <;> rw [h]
  · exact (b1 o a).trans (le_max_left _ _)
  · exact (b2 o a).trans (le_max_right _ _)

/-- **C128** (fit): a critic has the least expected loss on every batch exactly if its value for each observation and action is
the expected target: the scaled reward, and unless the episode ended (and ends are masked) the discounted expectation of the
smaller value of the target networks for the policy's next action, with the entropy bonus. -/
theorem C128_fit (e : Env S n) (p : Pol S n) (g alpha scale : ℝ) (masking : Bool) {t1 t2 : S → (Fin n → ℝ) → ℝ} (h1 : Tame t1)
    (h2 : Tame t2) (q : S → (Fin n → ℝ) → ℝ) :
    Fitted e p g alpha scale masking t1 t2 q ↔ ∀ o a, q o a = scale * e.reward o a +
      if masking = true ∧ e.ends o a = true then 0 else
        g * ∫ ε, (min (t1 (e.next o a) (act p (e.next o a) ε)) (t2 (e.next o a) (act p (e.next o a) ε)) -
          alpha * logp p (e.next o a) ε) ∂(noise n) := by
  have hb : ∀ o a, backup (seen e scale masking) p g alpha (least t1 t2) o a = scale * e.reward o a +
      if masking = true ∧ e.ends o a = true then 0 else
        g * ∫ ε, (min (t1 (e.next o a) (act p (e.next o a) ε)) (t2 (e.next o a) (act p (e.next o a) ε)) -
          alpha * logp p (e.next o a) ε) ∂(noise n) := fun o a => by
    simp only [backup, seen, least, Bool.and_eq_true]
  simp only [← hb]
  have hT := memLp_target (seen e scale masking) p g alpha (tame_least h1 h2)
  have hE := integral_target (seen e scale masking) p g alpha (tame_least h1 h2)
  constructor
  · intro hf o a
    obtain ⟨ts, ht, hmin⟩ := hf 1 fun _ => (o, a)
    have hts : ts = fun ε => List.ofFn fun r : Fin 1 => target (seen e scale masking) p g alpha (least t1 t2) o a (ε r) := by
      funext ε
      have := ht ε
      rw [targets_ok] at this
      exact (Except.ok.inj this).symm
    have := hmin (backup (seen e scale masking) p g alpha (least t1 t2))
    rw [hts, expected_loss _ (fun _ => target (seen e scale masking) p g alpha (least t1 t2) o a) (fun _ => hT o a),
      expected_loss _ (fun _ => target (seen e scale masking) p g alpha (least t1 t2) o a) (fun _ => hT o a)] at this
    simp only [Finset.univ_unique, Finset.sum_singleton, Nat.cast_one, div_one] at this
    rw [sq_split (hT o a) (q o a), sq_split (hT o a) (backup (seen e scale masking) p g alpha (least t1 t2) o a), hE] at this
    have h0 : (q o a - backup (seen e scale masking) p g alpha (least t1 t2) o a) ^ 2 ≤ 0 := by
      rw [sub_self] at this
      linarith
    have := pow_eq_zero_iff two_ne_zero |>.1 (le_antisymm h0 (sq_nonneg _))
    linarith
  · intro hq b rows
    refine ⟨_, fun ε => targets_ok e p g alpha scale masking t1 t2 rows ε, fun q' => ?_⟩
    rw [expected_loss _ (fun r => target (seen e scale masking) p g alpha (least t1 t2) (rows r).1 (rows r).2) (fun r => hT _ _),
      expected_loss _ (fun r => target (seen e scale masking) p g alpha (least t1 t2) (rows r).1 (rows r).2) (fun r => hT _ _)]
    refine div_le_div_of_nonneg_right (Finset.sum_le_sum fun r _ => ?_) (Nat.cast_nonneg b)
    rw [sq_split (hT _ _) (q _ _), sq_split (hT _ _) (q' _ _), hE, hq, sub_self]
    nlinarith [sq_nonneg (q' (rows r).1 (rows r).2 - backup (seen e scale masking) p g alpha (least t1 t2) (rows r).1 (rows r).2)]

/-! ## The soft value -/

section

variable [Fintype S] [MeasurableSpace S] [DiscreteMeasurableSpace S]

theorem backup_tame {e : Env S n} (he : e.Ok) (p : Pol S n) (g alpha : ℝ) (f : S → (Fin n → ℝ) → ℝ) :
    Tame (backup e p g alpha f) := by
  obtain ⟨hr, c, hc, hb⟩ := he.reward
  let G : S → ℝ := fun o => g * ∫ ε, (f o (act p o ε) - alpha * logp p o ε) ∂(noise n)
  refine ⟨fun o => (hr o).add (Measurable.ite (he.ends o) measurable_const ((Measurable.of_discrete (f := G)).comp (he.next o))),
    c + ∑ o, |G o|, add_nonneg hc (Finset.sum_nonneg fun _ _ => abs_nonneg _), fun o a => ?_⟩
  refine (abs_add_le _ _).trans (add_le_add (hb o a) ?_)
  split
  · rw [abs_zero]; exact Finset.sum_nonneg fun _ _ => abs_nonneg _
  · exact Finset.single_le_sum (f := fun o => |G o|) (fun _ _ => abs_nonneg _) (Finset.mem_univ (e.next o a))

omit [Fintype S] [MeasurableSpace S] [DiscreteMeasurableSpace S] in
theorem backup_close (e : Env S n) (p : Pol S n) {g : ℝ} (hg : 0 ≤ g) (alpha : ℝ) {f f' : S → (Fin n → ℝ) → ℝ} (hf : Tame f)
    (hf' : Tame f') {c : ℝ} (hc : 0 ≤ c) (h : ∀ o a, |f o a - f' o a| ≤ c) (o : S) (a : Fin n → ℝ) :
    |backup e p g alpha f o a - backup e p g alpha f' o a| ≤ g * c := by
  unfold backup
  by_cases he : e.ends o a
  · simp only [he, if_true]
    rw [sub_self, abs_zero]
    positivity
  · simp only [he, Bool.false_eq_true, if_false]
    rw [show ∀ r x y : ℝ, r + g * x - (r + g * y) = g * (x - y) by intros; ring, abs_mul, abs_of_nonneg hg,
      ← integral_sub (integrable_step hf p alpha _) (integrable_step hf' p alpha _)]
    refine mul_le_mul_of_nonneg_left ?_ hg
    have := norm_integral_le_of_norm_le_const (μ := noise n) (C := c) (f := fun ε =>
      f (e.next o a) (act p (e.next o a) ε) - alpha * logp p (e.next o a) ε -
      (f' (e.next o a) (act p (e.next o a) ε) - alpha * logp p (e.next o a) ε)) (Eventually.of_forall fun ε => by
        rw [norm_eq_abs, sub_sub_sub_cancel_right]
        exact h _ _)
    simpa using this

omit [Fintype S] [MeasurableSpace S] [DiscreteMeasurableSpace S] in
theorem backup_mono (e : Env S n) (p : Pol S n) {g : ℝ} (hg : 0 ≤ g) (alpha : ℝ) {f f' : S → (Fin n → ℝ) → ℝ} (hf : Tame f)
    (hf' : Tame f') (h : ∀ o a, f o a ≤ f' o a) (o : S) (a : Fin n → ℝ) :
    backup e p g alpha f o a ≤ backup e p g alpha f' o a := by
  unfold backup
  by_cases he : e.ends o a
  · simp [he]
  · simp only [he, Bool.false_eq_true, if_false]
    have := integral_mono (integrable_step hf p alpha (e.next o a)) (integrable_step hf' p alpha (e.next o a))
      fun ε => sub_le_sub_right (h (e.next o a) (act p (e.next o a) ε)) _
    nlinarith

theorem soft_tame {e : Env S n} (he : e.Ok) (p : Pol S n) (g alpha : ℝ) (k : Nat) : Tame (soft e p g alpha k) := by
  induction k with
  | zero => exact ⟨fun o => measurable_const, 0, le_refl _, fun o a => by simp [soft]⟩
  | succ k ih => exact backup_tame he p g alpha _

theorem soft_step {e : Env S n} (he : e.Ok) (p : Pol S n) {g : ℝ} (hg : 0 ≤ g) (alpha : ℝ) :
    ∃ c, 0 ≤ c ∧ ∀ k o a, |soft e p g alpha (k + 1) o a - soft e p g alpha k o a| ≤ c * g ^ k := by
  obtain ⟨_, c, hc, hb⟩ := soft_tame he p g alpha 1
  refine ⟨c, hc, fun k => ?_⟩
  induction k with
  | zero => intro o a; simpa [soft] using hb o a
  | succ k ih =>
    intro o a
    have := backup_close e p hg alpha (soft_tame he p g alpha (k + 1)) (soft_tame he p g alpha k) (by positivity) ih o a
    refine this.trans (le_of_eq ?_)
    ring

/-- The soft value exists, is tame, and solves the soft Bellman equation. -/
theorem exists_value {e : Env S n} (he : e.Ok) (p : Pol S n) {g : ℝ} (hg : 0 ≤ g) (hg1 : g < 1) (alpha : ℝ) :
    ∃ v, Value e p g alpha v ∧ Tame v ∧ backup e p g alpha v = v := by
  obtain ⟨c, hc, hs⟩ := soft_step he p hg alpha
  have hlim : ∀ o a, ∃ x, Tendsto (fun k => soft e p g alpha k o a) atTop (𝓝 x) := fun o a =>
    cauchySeq_tendsto_of_complete (cauchySeq_of_le_geometric g c hg1 fun k => by
      rw [dist_comm, Real.dist_eq]; exact hs k o a)
  choose v hv using hlim
  have hd : ∀ k o a, |soft e p g alpha k o a - v o a| ≤ c * g ^ k / (1 - g) := fun k o a => by
    have := dist_le_of_le_geometric_of_tendsto g c hg1 (f := fun k => soft e p g alpha k o a)
      (fun k => by rw [dist_comm, Real.dist_eq]; exact hs k o a) (hv o a) k
    rwa [Real.dist_eq] at this
  have hg0 : 0 < 1 - g := by linarith
  have ht : Tame v := by
    refine ⟨fun o => measurable_of_tendsto_metrizable (fun k => (soft_tame he p g alpha k).1 o)
      (tendsto_pi_nhds.2 fun a => hv o a), c / (1 - g), by positivity, fun o a => ?_⟩
    have := hd 0 o a
    simpa [soft] using this
  refine ⟨v, hv, ht, ?_⟩
  funext o a
  have h1 : Tendsto (fun k => soft e p g alpha (k + 1) o a) atTop (𝓝 (v o a)) := (tendsto_add_atTop_iff_nat 1).2 (hv o a)
  refine tendsto_nhds_unique ?_ h1
  rw [tendsto_iff_dist_tendsto_zero]
  have hz : Tendsto (fun k => g * (c * g ^ k / (1 - g))) atTop (𝓝 0) := by
    simpa using (((tendsto_pow_atTop_nhds_zero_of_lt_one hg hg1).const_mul c).div_const (1 - g)).const_mul g
  refine squeeze_zero (fun _ => dist_nonneg) (fun k => ?_) hz
  rw [Real.dist_eq]
  exact backup_close e p hg alpha (soft_tame he p g alpha k) ht (by positivity) (hd k) o a

omit [Fintype S] [MeasurableSpace S] [DiscreteMeasurableSpace S] in
theorem value_unique {e : Env S n} {p : Pol S n} {g alpha : ℝ} {v v' : S → (Fin n → ℝ) → ℝ} (h : Value e p g alpha v)
    (h' : Value e p g alpha v') : v = v' := by
  funext o a
  exact tendsto_nhds_unique (h o a) (h' o a)

omit [Fintype S] [MeasurableSpace S] [DiscreteMeasurableSpace S] in
theorem seen_ok [MeasurableSpace S] {e : Env S n} (he : e.Ok) (scale : ℝ) (masking : Bool) : (seen e scale masking).Ok where
  next := he.next
  reward := by
    obtain ⟨hr, c, hc, hb⟩ := he.reward
    refine ⟨fun o => (hr o).const_mul scale, |scale| * c, by positivity, fun o a => ?_⟩
    simp only [seen, abs_mul]
    exact mul_le_mul_of_nonneg_left (hb o a) (abs_nonneg _)
  ends o := by
    cases masking
    · simp [seen]
    · simpa [seen] using he.ends o

/-- **C128** (critics): for a policy that stays as it is there is a soft value for each observation and action, and wherever the
target networks begin, with each round the distance of both from it shrinks at least by the factor `1 - tau (1 - gamma)`. If ends
are not masked it is the value in an environment that goes on after an end. -/
theorem C128_critics {e : Env S n} (he : e.Ok) (p : Pol S n) {g : ℝ} (hg : 0 ≤ g) (hg1 : g < 1) (alpha scale : ℝ) (masking : Bool)
    {value1 value2 : Net ℝ → S → (Fin n → ℝ) → ℝ} (hm1 : Mixes value1) (hm2 : Mixes value2) (ht1 : ∀ q, Tame (value1 q))
    (ht2 : ∀ q, Tame (value2 q)) (nets0 : SacNets ℝ) (h0 : 0 ≤ nets0.tau) (h1 : nets0.tau ≤ 1) :
    ∃ v, Value (seen e scale masking) p g alpha v ∧
      ∀ c, (∀ o a, |value1 nets0.q1t o a - v o a| ≤ c) → (∀ o a, |value2 nets0.q2t o a - v o a| ≤ c) →
        ∀ k nets, Rounds e p g alpha scale masking value1 value2 nets0 k nets → ∀ o a,
          |value1 nets.q1t o a - v o a| ≤ (1 - nets0.tau * (1 - g)) ^ k * c ∧
          |value2 nets.q2t o a - v o a| ≤ (1 - nets0.tau * (1 - g)) ^ k * c := by
  obtain ⟨v, hv, htame, hfix⟩ := exists_value (seen_ok he scale masking) p hg hg1 alpha
  refine ⟨v, hv, fun c hc1 hc2 k nets hr => ?_⟩
  suffices key : nets.tau = nets0.tau ∧ ∀ o a, |value1 nets.q1t o a - v o a| ≤ (1 - nets0.tau * (1 - g)) ^ k * c ∧
      |value2 nets.q2t o a - v o a| ≤ (1 - nets0.tau * (1 - g)) ^ k * c from key.2
  induction hr with
  | zero => exact ⟨rfl, fun o a => by simpa using ⟨hc1 o a, hc2 o a⟩⟩
  | @succ k nets q1 q2 _ hs1 hs2 hf1 hf2 ih =>
    obtain ⟨htau, ih⟩ := ih
    refine ⟨htau, fun o a => ?_⟩
    have hc0 : 0 ≤ c := (abs_nonneg _).trans (hc1 o a)
    have hf0 : 0 ≤ 1 - nets0.tau * (1 - g) := by nlinarith
    have hle : ∀ o a, |least (value1 nets.q1t) (value2 nets.q2t) o a - v o a| ≤ (1 - nets0.tau * (1 - g)) ^ k * c := fun o a => by
      unfold least
      rcases min_choice (value1 nets.q1t o a) (value2 nets.q2t o a) with h | h <;> rw [h]
      · exact (ih o a).1
      · exact (ih o a).2
    have hb := backup_close (seen e scale masking) p hg alpha (tame_least (ht1 nets.q1t) (ht2 nets.q2t)) htame (by positivity) hle o a
    rw [hfix] at hb
    have hfit : ∀ q, Fitted e p g alpha scale masking (value1 nets.q1t) (value2 nets.q2t) q →
        q o a = backup (seen e scale masking) p g alpha (least (value1 nets.q1t) (value2 nets.q2t)) o a := fun q hq => by
      rw [(C128_fit e p g alpha scale masking (ht1 _) (ht2 _) q).1 hq o a]
      simp only [backup, seen, least, Bool.and_eq_true]
    have mix : ∀ t b : ℝ, |t - v o a| ≤ (1 - nets0.tau * (1 - g)) ^ k * c → |b - v o a| ≤ g * ((1 - nets0.tau * (1 - g)) ^ k * c) →
        |t * (1 - nets.tau) + b * nets.tau - v o a| ≤ (1 - nets0.tau * (1 - g)) ^ (k + 1) * c := by
      intro t b h2 h3
      rw [htau]
      calc |t * (1 - nets0.tau) + b * nets0.tau - v o a|
          = |(t - v o a) * (1 - nets0.tau) + (b - v o a) * nets0.tau| := by congr 1; ring
        _ ≤ |t - v o a| * (1 - nets0.tau) + |b - v o a| * nets0.tau := by
          refine (abs_add_le _ _).trans ?_
          rw [abs_mul, abs_mul, abs_of_nonneg h0, abs_of_nonneg (sub_nonneg.2 h1)]
        _ ≤ (1 - nets0.tau * (1 - g)) ^ k * c * (1 - nets0.tau) + g * ((1 - nets0.tau * (1 - g)) ^ k * c) * nets0.tau := by
          gcongr
        _ = _ := by ring
    simp only [SacNets.endBatch]
    rw [hm1 _ _ _ _ _ hs1, hm2 _ _ _ _ _ hs2, hfit _ hf1, hfit _ hf2]
    exact ⟨mix _ _ (ih o a).1 hb, mix _ _ (ih o a).2 hb⟩

/-! ## The policy -/

omit [Fintype S] [MeasurableSpace S] [DiscreteMeasurableSpace S] in
theorem lossAt_eq (lnAlpha : ℝ) (p : Pol S n) {q : S → (Fin n → ℝ) → ℝ} (hq : Tame q) (o : S) :
    lossAt lnAlpha p q o = - ∫ ε, (q o (act p o ε) - exp lnAlpha * logp p o ε) ∂(noise n) := by
  have hl : ∀ ε : Fin 1 → Fin n → ℝ, policyLoss (b := 1) lnAlpha (fun _ => p.m o) (fun _ => p.s o) (fun _ => q o)
      (some fun _ => q o) ε = -(q o (act p o (ε 0)) - exp lnAlpha * logp p o (ε 0)) := by
    intro ε
    simp [policyLoss, loss, qMin, act, logp]
  unfold lossAt
  simp only [hl]
  rw [integral_neg]
  congr 1
  have := measurePreserving_eval (μ := fun _ : Fin 1 => noise n) 0
  conv_rhs => rw [← this.map_eq]
  rw [integral_map this.measurable.aemeasurable]
  rw [this.map_eq]
  exact (integrable_step hq p (exp lnAlpha) o).aestronglyMeasurable

omit [Fintype S] [MeasurableSpace S] [DiscreteMeasurableSpace S] in
theorem lossAt_backup {e : Env S n} {p p' : Pol S n} {g : ℝ} (hg : 0 ≤ g) (lnAlpha : ℝ) {q : S → (Fin n → ℝ) → ℝ} (hq : Tame q)
    (h : ∀ o, lossAt lnAlpha p' q o ≤ lossAt lnAlpha p q o) (o : S) (a : Fin n → ℝ) :
    backup e p g (exp lnAlpha) q o a ≤ backup e p' g (exp lnAlpha) q o a := by
  unfold backup
  by_cases he : e.ends o a
  · simp [he]
  · simp only [he, Bool.false_eq_true, if_false]
    have := h (e.next o a)
    rw [lossAt_eq lnAlpha p hq, lossAt_eq lnAlpha p' hq] at this
    nlinarith

/-- If one backup of `q` is at least `q`, so is the soft value; and the same with at most. -/
theorem value_compare {e : Env S n} (he : e.Ok) {p : Pol S n} {g : ℝ} (hg : 0 ≤ g) (hg1 : g < 1) {alpha : ℝ}
    {q v : S → (Fin n → ℝ) → ℝ} (hq : Tame q) (hv : Value e p g alpha v) :
    ((∀ o a, q o a ≤ backup e p g alpha q o a) → ∀ o a, q o a ≤ v o a) ∧
    ((∀ o a, backup e p g alpha q o a ≤ q o a) → ∀ o a, v o a ≤ q o a) := by
  obtain ⟨v', hv', htame, hfix⟩ := exists_value he p hg hg1 alpha
  rw [value_unique hv hv']
  obtain ⟨c1, p1, b1⟩ := hq.2
  obtain ⟨c2, p2, b2⟩ := htame.2
  let B := backup e p g alpha
  have ht : ∀ k, Tame (B^[k] q) := fun k => by
    induction k with
    | zero => exact hq
    | succ k ih => rw [Function.iterate_succ_apply']; exact backup_tame he p g alpha _
  have hclose : ∀ k o a, |(B^[k] q) o a - v' o a| ≤ g ^ k * (c1 + c2) := fun k => by
    induction k with
    | zero =>
      intro o a
      simp only [Function.iterate_zero, id, pow_zero, one_mul]
      exact (abs_sub _ _).trans (add_le_add (b1 o a) (b2 o a))
    | succ k ih =>
      intro o a
      rw [Function.iterate_succ_apply']
      have := backup_close e p hg alpha (ht k) htame (by positivity) ih o a
      rw [hfix] at this
      refine this.trans (le_of_eq (by ring))
  have hlim : ∀ o a, Tendsto (fun k => (B^[k] q) o a) atTop (𝓝 (v' o a)) := fun o a => by
    rw [tendsto_iff_dist_tendsto_zero]
    refine squeeze_zero (g := fun k => g ^ k * (c1 + c2)) (fun _ => dist_nonneg) (fun k => by rw [Real.dist_eq]; exact hclose k o a) ?_
    simpa using (tendsto_pow_atTop_nhds_zero_of_lt_one hg hg1).mul_const (c1 + c2)
  constructor
  · intro h o a
    refine ge_of_tendsto' (hlim o a) fun k => ?_
    have : ∀ k o a, q o a ≤ (B^[k] q) o a := fun k => by
      induction k with
      | zero => exact fun o a => le_refl _
      | succ k ih =>
        intro o a
        rw [Function.iterate_succ_apply']
        exact (h o a).trans (backup_mono e p hg alpha hq (ht k) ih o a)
    exact this k o a
  · intro h o a
    refine le_of_tendsto' (hlim o a) fun k => ?_
    have : ∀ k o a, (B^[k] q) o a ≤ q o a := fun k => by
      induction k with
      | zero => exact fun o a => le_refl _
      | succ k ih =>
        intro o a
        rw [Function.iterate_succ_apply']
        exact (backup_mono e p hg alpha (ht k) hq ih o a).trans (h o a)
    exact this k o a

/-- **C128** (improvement): if the expected loss of another policy, with the soft value of this policy as critic, is nowhere larger,
then its soft value is nowhere smaller. -/
theorem C128_improves {e : Env S n} (he : e.Ok) {p p' : Pol S n} {g : ℝ} (hg : 0 ≤ g) (hg1 : g < 1) (lnAlpha : ℝ)
    {v v' : S → (Fin n → ℝ) → ℝ} (hv : Value e p g (exp lnAlpha) v) (hv' : Value e p' g (exp lnAlpha) v')
    (h : ∀ o, lossAt lnAlpha p' v o ≤ lossAt lnAlpha p v o) (o : S) (a : Fin n → ℝ) : v o a ≤ v' o a := by
  obtain ⟨w, hw, ht, hfix⟩ := exists_value he p hg hg1 (exp lnAlpha)
  rw [value_unique hv hw] at h ⊢
  refine (value_compare he hg hg1 ht hv').1 (fun o a => ?_) o a
  have := lossAt_backup (e := e) hg lnAlpha ht h o a
  rwa [hfix] at this

/-- **C128** (best): a policy of which the expected loss, with its own soft value as critic, is nowhere larger than that of another
policy has a soft value that is nowhere smaller. So a policy that cannot be improved any more is the best one. -/
theorem C128_best {e : Env S n} (he : e.Ok) {p p' : Pol S n} {g : ℝ} (hg : 0 ≤ g) (hg1 : g < 1) (lnAlpha : ℝ)
    {v v' : S → (Fin n → ℝ) → ℝ} (hv : Value e p g (exp lnAlpha) v) (hv' : Value e p' g (exp lnAlpha) v')
    (h : ∀ o, lossAt lnAlpha p v o ≤ lossAt lnAlpha p' v o) (o : S) (a : Fin n → ℝ) : v' o a ≤ v o a := by
  obtain ⟨w, hw, ht, hfix⟩ := exists_value he p hg hg1 (exp lnAlpha)
  rw [value_unique hv hw] at h ⊢
  refine (value_compare he hg hg1 ht hv').2 (fun o a => ?_) o a
  have := lossAt_backup (e := e) hg lnAlpha ht h o a
  rwa [hfix] at this

end

/-! ## Critics that are linear in their parameters -/

/-- Parameter `i` of tensor `j` is the weight of the feature `phi j i`. -/
noncomputable def linear (phi : Nat → Nat → S → (Fin n → ℝ) → ℝ) (net : Net ℝ) (o : S) (a : Fin n → ℝ) : ℝ :=
  (net.mapIdx fun j row => (row.mapIdx fun i w => w * phi j i o a).sum).sum

theorem sum_mix (x : Nat → ℝ) (tau : ℝ) (t s : List ℝ) (h : s.length = t.length) :
    ((List.zipWith (fun t s => t * (1 - tau) + s * tau) t s).mapIdx fun i w => w * x i).sum =
      (t.mapIdx fun i w => w * x i).sum * (1 - tau) + (s.mapIdx fun i w => w * x i).sum * tau := by
  induction t generalizing s x with
  | nil => rw [List.eq_nil_of_length_eq_zero h]; simp
  | cons y t ih =>
    cases s with
    | nil => simp at h
    | cons z s =>
      simp only [List.zipWith_cons_cons, List.mapIdx_cons, List.sum_cons]
      rw [ih (fun i => x (i + 1)) s (by simpa using h)]
      ring

/-- **C128**: critics that are linear in their parameters, with measurable and bounded features, mix as their parameters do, and
have measurable and bounded values. -/
theorem C128_linear (phi : Nat → Nat → S → (Fin n → ℝ) → ℝ) (hphi : ∀ j i, Tame (phi j i)) :
    Mixes (linear phi) ∧ ∀ net, Tame (linear phi net) := by
  constructor
  · intro source target tau o a h
    unfold linear
    induction target generalizing source phi with
    | nil =>
      have : source = [] := by simpa using h
      subst this
      simp [softUpdate]
    | cons t target ih =>
      cases source with
      | nil => simp at h
      | cons s source =>
        simp only [List.map_cons, List.cons.injEq] at h
        simp only [softUpdate, List.mapIdx_cons, List.sum_cons]
        rw [ih (fun j => phi (j + 1)) (fun j i => hphi _ _) source h.2, sum_mix (fun i => phi 0 i o a) tau t s h.1]
        ring
  · intro net
    have zero : Tame (fun (_ : S) (_ : Fin n → ℝ) => (0 : ℝ)) := ⟨fun _ => measurable_const, 0, le_refl _, fun _ _ => by simp⟩
    have add : ∀ f f' : S → (Fin n → ℝ) → ℝ, Tame f → Tame f' → Tame fun o a => f o a + f' o a := by
      rintro f f' ⟨m1, c1, p1, b1⟩ ⟨m2, c2, p2, b2⟩
      exact ⟨fun o => (m1 o).add (m2 o), c1 + c2, by positivity, fun o a => (abs_add_le _ _).trans (add_le_add (b1 o a) (b2 o a))⟩
    have scale : ∀ (w : ℝ) (f : S → (Fin n → ℝ) → ℝ), Tame f → Tame fun o a => w * f o a := by
      rintro w f ⟨m1, c1, p1, b1⟩
      refine ⟨fun o => (m1 o).const_mul w, |w| * c1, by positivity, fun o a => ?_⟩
      rw [abs_mul]
      exact mul_le_mul_of_nonneg_left (b1 o a) (abs_nonneg _)
    have inner : ∀ (row : List ℝ) (psi : Nat → S → (Fin n → ℝ) → ℝ), (∀ i, Tame (psi i)) →
        Tame fun o a => (row.mapIdx fun i w => w * psi i o a).sum := by
      intro row
      induction row with
      | nil => intro psi _; simpa using zero
      | cons w row ih =>
        intro psi hpsi
        simp only [List.mapIdx_cons, List.sum_cons]
        exact add _ _ (scale w _ (hpsi 0)) (ih (fun i => psi (i + 1)) fun i => hpsi _)
    unfold linear
    induction net generalizing phi with
    | nil => simpa using zero
    | cons row net ih =>
      simp only [List.mapIdx_cons, List.sum_cons]
      exact add _ _ (inner row _ (hphi 0)) (ih (fun j => phi (j + 1)) fun j i => hphi _ _)

/-! ## Example -/

section Demo

/-- One observation, reward 1 for ever; the critics have one parameter, their value. -/
noncomputable def plain : Env Unit 1 := ⟨fun _ _ => (), fun _ _ => 1, fun _ _ => false⟩

noncomputable def flat : Net ℝ → Unit → (Fin 1 → ℝ) → ℝ := linear fun _ _ _ _ => 1

theorem flat_one (x : ℝ) : flat [[x]] = fun _ _ => x := by
  funext o a
  simp [flat, linear]

theorem const_tame (x : ℝ) : Tame fun (_ : Unit) (_ : Fin 1 → ℝ) => x := ⟨fun _ => measurable_const, |x|, abs_nonneg _, fun _ _ => le_refl _⟩

theorem plain_ok : plain.Ok := ⟨fun _ => measurable_const, const_tame 1, fun _ => by simp [plain]⟩

/-- There are rounds without end. -/
theorem rounds (p : Pol Unit 1) (g alpha tau : ℝ) (k : Nat) :
    ∃ nets x y, Rounds plain p g alpha 1 true flat flat ⟨[[0]], [[3]], [[0]], [[3]], tau⟩ k nets ∧ nets.q1t = [[x]] ∧ nets.q2t = [[y]] := by
  induction k with
  | zero => exact ⟨_, 0, 3, .zero, rfl, rfl⟩
  | succ k ih =>
    obtain ⟨nets, x, y, hr, hx, hy⟩ := ih
    obtain ⟨q, hq⟩ : ∃ q, Fitted plain p g alpha 1 true (flat nets.q1t) (flat nets.q2t) (flat [[q]]) := by
      refine ⟨1 + g * ∫ ε, (min x y - alpha * logp p () ε) ∂(noise 1), ?_⟩
      rw [hx, hy, flat_one, flat_one, flat_one, C128_fit _ _ _ _ _ _ (const_tame x) (const_tame y)]
      intro o a
      simp [plain]
    refine ⟨_, x * (1 - nets.tau) + q * nets.tau, y * (1 - nets.tau) + q * nets.tau, .succ hr (q1 := [[q]]) (q2 := [[q]]) (by simp [hx]) (by simp [hy]) hq hq, ?_, ?_⟩
    · simp only [SacNets.endBatch, hx, softUpdate]; rfl
    · simp only [SacNets.endBatch, hy, softUpdate]; rfl

/-- Both target networks come to the same value, within any error, after some number of rounds. -/
example (p : Pol Unit 1) : ∃ v : Unit → (Fin 1 → ℝ) → ℝ, Value (seen plain 1 true) p (9 / 10) (1 / 5) v ∧ ∀ k nets,
    Rounds plain p (9 / 10) (1 / 5) 1 true flat flat ⟨[[0]], [[3]], [[0]], [[3]], 1 / 200⟩ k nets → ∀ o a,
      |flat nets.q1t o a - flat nets.q2t o a| ≤ (1 - 1 / 200 * (1 - 9 / 10)) ^ k * (2 * (3 + |v () 0|)) := by
  obtain ⟨hm, ht⟩ := C128_linear (fun _ _ (_ : Unit) (_ : Fin 1 → ℝ) => 1) fun _ _ => const_tame 1
  obtain ⟨v, hv, h⟩ := C128_critics plain_ok p (g := 9 / 10) (by norm_num) (by norm_num) (1 / 5) 1 true hm hm ht ht
    ⟨[[0]], [[3]], [[0]], [[3]], 1 / 200⟩ (by norm_num) (by norm_num)
  have hconst : ∀ a, v () a = v () 0 := fun a => tendsto_nhds_unique (hv () a) (by
    have := hv () 0
    refine this.congr fun k => ?_
    cases k <;> rfl)
  refine ⟨v, hv, fun k nets hr o a => ?_⟩
  obtain ⟨h1, h2⟩ := h (3 + |v () 0|) (fun o a => by
      show |flat [[0]] o a - v o a| ≤ _
      rw [flat_one, hconst, zero_sub, abs_neg]
      linarith) (fun o a => by
      show |flat [[3]] o a - v o a| ≤ _
      rw [flat_one, hconst]
      refine (abs_sub _ _).trans ?_
      norm_num) k nets hr o a
  have h1' : |flat nets.q1t o a - v o a| ≤ (1 - 1 / 200 * (1 - 9 / 10)) ^ k * (3 + |v () 0|) := h1
  have h2' : |flat nets.q2t o a - v o a| ≤ (1 - 1 / 200 * (1 - 9 / 10)) ^ k * (3 + |v () 0|) := h2
  rw [abs_le] at h1' h2' ⊢
  constructor <;> linarith [h1'.1, h1'.2, h2'.1, h2'.2]

end Demo

end SoftIter

end Verif
