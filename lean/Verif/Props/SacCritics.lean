import Verif.Model.SacCritics
import Verif.Props.DqnOffline
import Verif.Props.Returns

/-!
# C163: the critics of soft actor-critic on data that does not change
-/

namespace Verif

namespace SacCritics

open Numerics DqnRun Dqn.Spec Filter Topology

variable {O A : Type} {n m : Nat}

/-! ## Specification -/

namespace Spec

/-- Steps one after the other, and what was observed after the last one -/
structure Rollout (O A : Type) where
  steps : List (Row O A)
  next : O

/-- The batch of these rollouts -/
def batchOf (rolls : List (Rollout O A)) : Batch O A := ⟨rolls.flatMap Rollout.steps, rolls.map Rollout.next⟩

/-- Rollouts have the length that is set, and masks are 0 or 1. -/
def Fit (c : Setup O A n m) (rolls : List (Rollout O A)) : Prop :=
  ∀ r ∈ rolls, r.steps.length = c.len ∧ ∀ x ∈ r.steps, x.mask = 0 ∨ x.mask = 1

/-- The episode ended with the rollout. -/
def Rollout.Ended (r : Rollout O A) : Prop := ∃ x, r.steps.getLast? = some x ∧ x.mask = 0

/-- A step in the data, with the steps after it and its rollout -/
structure Time (O A : Type) where
  row : Row O A
  rest : List (Row O A)
  roll : Rollout O A

def timesOf (r : Rollout O A) : List (Row O A) → List (Time O A)
  | [] => []
  | x :: xs => ⟨x, xs, r⟩ :: timesOf r xs

/-- All steps in the data -/
def times (rolls : List (Rollout O A)) : List (Time O A) := rolls.flatMap fun r => timesOf r r.steps

open Classical in
/-- What the rollout is worth after its last step, if the critics have these values: the smaller one for the action of the policy, with the
bonus for its entropy, and nothing if the episode ended and ends are masked. -/
noncomputable def after (c : Setup O A n m) (q1 q2 : Entry n m → ℝ) (r : Rollout O A) : ℝ :=
  if c.masking = true ∧ r.Ended then 0 else
    min (q1 (c.first.cell r.next (c.policy r.next).1)) (q2 (c.second.cell r.next (c.policy r.next).1)) -
      Real.exp c.lnAlpha * (c.policy r.next).2

/-- The discounted sum of scaled rewards -/
def discounted (g scale v : ℝ) : List (Row O A) → ℝ
  | [] => v
  | x :: xs => scale * x.reward + g * discounted g scale v xs

/-- The return of a step -/
noncomputable def worth (c : Setup O A n m) (q1 q2 : Entry n m → ℝ) (x : Time O A) : ℝ :=
  discounted c.gamma c.scale (after c q1 q2 x.roll) (x.row :: x.rest)

/-- The value of a cell is the average return of the steps in it; without any, it is the initial one. -/
structure Averages (cell : O → A → Entry n m) (data : List (Time O A)) (goal : Time O A → ℝ) (init q : Entry n m → ℝ) : Prop where
  seen : ∀ p, (∃ x ∈ data, cell x.row.obs x.row.action = p) → q p =
    ((data.filter fun x => cell x.row.obs x.row.action = p).map goal).sum / (data.filter fun x => cell x.row.obs x.row.action = p).length
  other : ∀ p, (∀ x ∈ data, cell x.row.obs x.row.action ≠ p) → q p = init p

/-- Both critics explain the data, with the returns that they give themselves. -/
structure Explain (c : Setup O A n m) (rolls : List (Rollout O A)) (init1 init2 q1 q2 : Entry n m → ℝ) : Prop where
  first : Averages c.first.cell (times rolls) (worth c q1 q2) init1 q1
  second : Averages c.second.cell (times rolls) (worth c q1 q2) init2 q2

/-- Learning rates are between a positive number and 1/2. -/
structure Critic.Usual (c : Critic O A n m) : Prop where
  norm : 0 < c.maxNorm
  rate : ∃ r, 0 < r ∧ ∀ k, r ≤ c.rate k
  rate_le : ∀ k, c.rate k ≤ 1 / 2

structure Usual (c : Setup O A n m) : Prop where
  gamma : 0 ≤ c.gamma
  gamma_lt : c.gamma < 1
  tau : 0 < c.tau
  tau_le : c.tau ≤ 1
  len : 0 < c.len
  first : Critic.Usual c.first
  second : Critic.Usual c.second

end Spec

open Spec

/-! ## Proofs -/

/-- Both critics as one table -/
abbrev Tables (n m : Nat) := Bool × Fin n → Fin (m + 1) → ℝ

def part (T : Tables n m) (i : Bool) (p : Entry n m) : ℝ := T (i, p.1) p.2

def critic (c : Setup O A n m) : Bool → Critic O A n m
  | false => c.first
  | true => c.second

def pairOf (c : Setup O A n m) (i : Bool) (x : Time O A) : Entry n m := (critic c i).cell x.row.obs x.row.action

noncomputable def yOf (c : Setup O A n m) (T : Tables n m) : Time O A → ℝ := worth c (part T false) (part T true)

noncomputable def average (c : Setup O A n m) (rolls : List (Rollout O A)) (init : Bool → Entry n m → ℝ) (T : Tables n m)
    (s : Bool × Fin n) (a : Fin (m + 1)) : ℝ :=
  if (s.2, a) ∈ (times rolls).map (pairOf c s.1) then
    meanOf ((times rolls).map fun x => (pairOf c s.1 x, yOf c T x)) (s.2, a)
  else init s.1 (s.2, a)

theorem meanOf_times (data : List (Time O A)) (f : Time O A → Entry n m) (y : Time O A → ℝ) (p : Entry n m) :
    meanOf (data.map fun x => (f x, y x)) p = ((data.filter fun x => f x = p).map y).sum / (data.filter fun x => f x = p).length := by
  unfold meanOf
  rw [List.filter_map, List.map_map, List.length_map]
  rfl

theorem averages_iff (c : Setup O A n m) (rolls : List (Rollout O A)) (init : Bool → Entry n m → ℝ) (T : Tables n m) (i : Bool) :
    Averages (critic c i).cell (times rolls) (yOf c T) (init i) (part T i) ↔
      ∀ (s : Fin n) (a : Fin (m + 1)), average c rolls init T (i, s) a = T (i, s) a := by
  have hmem : ∀ p, p ∈ (times rolls).map (pairOf c i) ↔ ∃ x ∈ times rolls, (critic c i).cell x.row.obs x.row.action = p := by
    intro p
    rw [List.mem_map]
    rfl
  constructor
  · intro h s a
    unfold average
    split
    · rename_i hm
      rw [meanOf_times]
      exact (h.seen (s, a) ((hmem _).1 hm)).symm
    · rename_i hm
      exact (h.other (s, a) fun x hx hxa => hm ((hmem _).2 ⟨x, hx, hxa⟩)).symm
  · intro h
    constructor
    · intro p hp
      have := h p.1 p.2
      unfold average at this
      rw [if_pos ((hmem _).2 hp), meanOf_times] at this
      exact this.symm
    · intro p hp
      have := h p.1 p.2
      unfold average at this
      rw [if_neg fun hm => by obtain ⟨x, h1, h2⟩ := (hmem _).1 hm; exact hp x h1 h2] at this
      exact this.symm

/-- Two critics as one -/
def joined (q1 q2 : Entry n m → ℝ) (s : Bool × Fin n) (a : Fin (m + 1)) : ℝ := if s.1 then q2 (s.2, a) else q1 (s.2, a)

theorem explain_iff (c : Setup O A n m) (rolls : List (Rollout O A)) (init : Bool → Entry n m → ℝ) (T : Tables n m) :
    Explain c rolls (init false) (init true) (part T false) (part T true) ↔ average c rolls init T = T := by
  have h1 := averages_iff c rolls init T false
  have h2 := averages_iff c rolls init T true
  constructor
  · intro h
    funext ⟨i, s⟩ a
    cases i
    · exact h1.1 h.first s a
    · exact h2.1 h.second s a
  · intro h
    exact ⟨h1.2 fun s a => by rw [h], h2.2 fun s a => by rw [h]⟩

theorem discounted_close {g : ℝ} (hg : 0 ≤ g) (hg1 : g ≤ 1) (scale v v' c : ℝ) (h : |v - v'| ≤ c) (l : List (Row O A)) :
    |discounted g scale v l - discounted g scale v' l| ≤ c := by
  induction l with
  | nil => exact h
  | cons x l ih =>
    simp only [discounted]
    rw [show scale * x.reward + g * discounted g scale v l - (scale * x.reward + g * discounted g scale v' l) =
      g * (discounted g scale v l - discounted g scale v' l) by ring, abs_mul, abs_of_nonneg hg]
    have := abs_nonneg (discounted g scale v l - discounted g scale v' l)
    nlinarith

theorem after_close (c : Setup O A n m) (T U : Tables n m) (d : ℝ) (hd : 0 ≤ d) (h : ∀ s a, |T s a - U s a| ≤ d) (r : Rollout O A) :
    |after c (part T false) (part T true) r - after c (part U false) (part U true) r| ≤ d := by
  unfold after
  split
  · simpa using hd
  · rw [sub_sub_sub_cancel_right]
    refine (abs_min_sub_min_le_max _ _ _ _).trans (max_le ?_ ?_)
    · exact h _ _
    · exact h _ _

theorem goal_close (c : Setup O A n m) (hg : 0 ≤ c.gamma) (hg1 : c.gamma ≤ 1) (T U : Tables n m) (d : ℝ) (hd : 0 ≤ d)
    (h : ∀ s a, |T s a - U s a| ≤ d) (x : Time O A) : |yOf c T x - yOf c U x| ≤ c.gamma * d := by
  simp only [yOf, worth, discounted]
  have := discounted_close hg hg1 c.scale _ _ d (after_close c T U d hd h x.roll) x.rest
  rw [add_sub_add_left_eq_sub, ← mul_sub, abs_mul, abs_of_nonneg hg]
  exact mul_le_mul_of_nonneg_left this hg

theorem average_close (c : Setup O A n m) (rolls : List (Rollout O A)) (hg : 0 ≤ c.gamma) (hg1 : c.gamma ≤ 1)
    (init : Bool → Entry n m → ℝ) (T U : Tables n m) (d : ℝ) (hd : 0 ≤ d) (h : ∀ s a, |T s a - U s a| ≤ d) (s : Bool × Fin n)
    (a : Fin (m + 1)) : |average c rolls init T s a - average c rolls init U s a| ≤ c.gamma * d := by
  unfold average
  split
  · rename_i hm
    rw [meanOf_times, meanOf_times, ← sub_div, abs_div]
    obtain ⟨x, hx, hxa⟩ := List.mem_map.1 hm
    have hp : 0 < ((times rolls).filter fun x => pairOf c s.1 x = (s.2, a)).length :=
      List.length_pos_of_mem (List.mem_filter.2 ⟨hx, by simpa using hxa⟩)
    rw [Nat.abs_cast, div_le_iff₀ (by exact_mod_cast hp), mul_comm]
    exact sum_close _ _ _ _ fun x _ => goal_close c hg hg1 T U d hd h x
  · rw [sub_self, abs_zero]; positivity

theorem exists_average (c : Setup O A n m) (rolls : List (Rollout O A)) (hg : 0 ≤ c.gamma) (hg1 : c.gamma < 1)
    (init : Bool → Entry n m → ℝ) : ∃ T, average c rolls init T = T := by
  have : ContractingWith ⟨c.gamma, hg⟩ (average c rolls init) := by
    refine ⟨by exact_mod_cast hg1, LipschitzWith.of_dist_le_mul fun t u => ?_⟩
    rw [dist_pi_le_iff (by positivity)]
    intro s
    rw [dist_pi_le_iff (by positivity)]
    intro a
    rw [Real.dist_eq]
    refine average_close c rolls hg hg1.le init t u _ dist_nonneg (fun s a => ?_) s a
    rw [← Real.dist_eq]
    exact (dist_le_pi_dist (t s) (u s) a).trans (dist_le_pi_dist t u s)
  exact ⟨_, this.fixedPoint_isFixedPt⟩

theorem exists_bound (f : Tables n m) : ∃ c, 0 ≤ c ∧ ∀ s a, |f s a| ≤ c := by
  refine ⟨∑ s, ∑ a, |f s a|, Finset.sum_nonneg fun _ _ => Finset.sum_nonneg fun _ _ => abs_nonneg _, fun s a => ?_⟩
  calc |f s a| ≤ ∑ a, |f s a| := Finset.single_le_sum (f := fun a => |f s a|) (fun _ _ => abs_nonneg _) (Finset.mem_univ a)
    _ ≤ _ := Finset.single_le_sum (f := fun s => ∑ a, |f s a|) (fun _ _ => Finset.sum_nonneg fun _ _ => abs_nonneg _) (Finset.mem_univ s)

/-! ### The targets -/

/-- The parameters of one of the target networks -/
def netOfPart (T : Tables n m) (i : Bool) : Net ℝ := table fun s => T (i, s)

theorem outputs_table (T : Tables n m) (i : Bool) (ps : List (Entry n m)) : outputs (netOfPart T i) ps = .ok (ps.map (part T i)) := by
  induction ps with
  | nil => rfl
  | cons p ps ih =>
    have : output (netOfPart T i) p = .ok (part T i p) := by
      unfold output netOfPart table
      rw [List.getElem?_ofFn, dif_pos p.1.isLt]
      simp only
      rw [List.getElem?_ofFn, dif_pos p.2.isLt]
      rfl
    simp only [outputs, this, ih, List.map_cons]

/-- A rollout as in C63 -/
noncomputable def rollOf (c : Setup O A n m) (T : Tables n m) (r : Rollout O A) : Returns.Roll ℝ where
  rewards := r.steps.map Row.reward
  masks := (r.steps.map Row.mask).dropLast
  lastMask := match r.steps.getLast? with
    | some x => x.mask
    | none => 1
  q1 := part T false (c.first.cell r.next (c.policy r.next).1)
  q2 := part T true (c.second.cell r.next (c.policy r.next).1)
  logp := (c.policy r.next).2

theorem last_of_pos {r : Rollout O A} (h : 0 < r.steps.length) : ∃ x, r.steps.getLast? = some x ∧ x ∈ r.steps := by
  have hne : r.steps ≠ [] := by rintro h'; rw [h'] at h; simp at h
  exact ⟨_, List.getLast?_eq_some_getLast hne, List.getLast_mem hne⟩

theorem rollOf_masks (c : Setup O A n m) (T : Tables n m) {r : Rollout O A} (h : 0 < r.steps.length) :
    (rollOf c T r).allMasks = r.steps.map Row.mask := by
  have hne : r.steps ≠ [] := by rintro h'; rw [h'] at h; simp at h
  simp only [Returns.Roll.allMasks, rollOf, List.getLast?_eq_some_getLast hne]
  have hne' : r.steps.map Row.mask ≠ [] := by simpa using hne
  rw [← List.getLast_map (f := Row.mask) (h := hne'), List.dropLast_append_getLast]

theorem ret_discounted (g scale v : ℝ) (l : List (Row O A)) :
    Returns.ret g v (l.map fun x => scale * x.reward) = discounted g scale v l := by
  induction l with
  | nil => rfl
  | cons x l ih => simp only [List.map_cons, Returns.ret, discounted, ih]

theorem rets_times (c : Setup O A n m) (T : Tables n m) (r : Rollout O A) (l : List (Row O A)) :
    Returns.rets c.gamma (after c (part T false) (part T true) r) (l.map fun x => c.scale * x.reward) = (timesOf r l).map (yOf c T) := by
  induction l with
  | nil => rfl
  | cons x l ih =>
    simp only [List.map_cons, Returns.rets, timesOf, ih, yOf, worth]
    rw [← ret_discounted, List.map_cons]

theorem targets_ok (c : Setup O A n m) (hl : 0 < c.len) {rolls : List (Rollout O A)} (hf : Fit c rolls) (T : Tables n m) :
    targets c (netOfPart T false) (netOfPart T true) (batchOf rolls) = .ok ((times rolls).map (yOf c T)) := by
  have hpos : ∀ r ∈ rolls, 0 < r.steps.length := fun r hr => by rw [(hf r hr).1]; exact hl
  have h63 := Returns.C63_sac c.gamma (Real.exp c.lnAlpha) c.scale c.len c.masking (rolls.map (rollOf c T)) hl
    (by
      intro r' hr'
      obtain ⟨r, hr, rfl⟩ := List.mem_map.1 hr'
      simpa [rollOf] using (hf r hr).1)
    (by
      intro r' hr'
      obtain ⟨r, hr, rfl⟩ := List.mem_map.1 hr'
      rw [rollOf_masks c T (hpos r hr)]
      simpa using (hf r hr).1)
    (by
      intro r' hr'
      obtain ⟨r, hr, rfl⟩ := List.mem_map.1 hr'
      obtain ⟨x, hx, hxm⟩ := last_of_pos (hpos r hr)
      simp only [rollOf, hx]
      exact (hf r hr).2 x hxm)
  have hrew : (rolls.map (rollOf c T)).flatMap Returns.Roll.rewards = (rolls.flatMap Rollout.steps).map Row.reward := by
    rw [List.flatMap_map, List.map_flatMap]
    rfl
  have hmask : (rolls.map (rollOf c T)).flatMap Returns.Roll.allMasks = (rolls.flatMap Rollout.steps).map Row.mask := by
    rw [List.flatMap_map, List.map_flatMap]
    clear h63 hrew hf
    induction rolls with
    | nil => rfl
    | cons r rolls ih =>
      simp only [List.flatMap_cons]
      rw [rollOf_masks c T (hpos r (by simp)), ih fun r hr => hpos r (List.mem_cons_of_mem _ hr)]
  rw [hrew, hmask] at h63
  have hboot : ∀ r ∈ rolls, (rollOf c T r).bootstrap (Real.exp c.lnAlpha) c.masking = after c (part T false) (part T true) r := by
    intro r hr
    obtain ⟨x, hx, -⟩ := last_of_pos (hpos r hr)
    have hend : r.Ended ↔ x.mask = 0 := by
      simp only [Rollout.Ended, hx, Option.some.injEq]
      exact ⟨fun ⟨y, h, h0⟩ => h ▸ h0, fun h => ⟨x, rfl, h⟩⟩
    simp only [Returns.Roll.bootstrap, after, hend, rollOf, hx]
  have hret : Returns.allRets c.gamma ((rolls.map (rollOf c T)).map fun r => (r.rewards.map (c.scale * ·),
      r.bootstrap (Real.exp c.lnAlpha) c.masking)) = (times rolls).map (yOf c T) := by
    clear h63 hrew hmask hpos hf
    induction rolls with
    | nil => rfl
    | cons r rolls ih =>
      have ih := ih fun r hr => hboot r (List.mem_cons_of_mem _ hr)
      simp only [List.map_cons, Returns.allRets, ih, times, List.flatMap_cons, List.map_append, hboot r (by simp)]
      rw [← rets_times]
      simp [rollOf, Function.comp_def]
  rw [hret] at h63
  simp only [List.map_map] at h63
  simp only [targets, batchOf, outputs_table, List.map_map]
  exact h63

/-! ### The derivative -/

theorem rows_times (rolls : List (Rollout O A)) : (batchOf rolls).rows = (times rolls).map Time.row := by
  have h : ∀ (r : Rollout O A) (l : List (Row O A)), (timesOf r l).map Time.row = l := by
    intro r l
    induction l with
    | nil => rfl
    | cons x l ih => simp only [timesOf, List.map_cons, ih]
  simp only [batchOf, times, List.map_flatMap, h]

theorem lossOf_times (cell : O → A → Entry n m) (data : List (Time O A)) (y : Time O A → ℝ) (v : Entry n m → ℝ) :
    lossOf cell (data.map Time.row, data.map y) v =
      (data.map fun x => (v (cell x.row.obs x.row.action) - y x) ^ 2).sum / data.length := by
  simp only [lossOf, SacPolicy.qLoss, List.map_map, List.length_map, Function.comp_def]
  congr 2
  induction data with
  | nil => rfl
  | cons x data ih => simp only [List.map_cons, List.zipWith_cons_cons, ih]

/-! ### Batches -/

/-- A critic as a setup of C157 -/
def asSetup (c : Setup O A n m) (i : Bool) : DqnRun.Setup := ⟨(critic c i).name, c.gamma, c.scale, c.tau, (critic c i).maxNorm, (critic c i).rate⟩

theorem usual_asSetup {c : Setup O A n m} (hc : Usual c) (i : Bool) : DqnRun.Spec.Usual (asSetup c i) := by
  cases i
  · exact ⟨hc.gamma, hc.gamma_lt, hc.tau, hc.tau_le, hc.first.norm, hc.first.rate, hc.first.rate_le⟩
  · exact ⟨hc.gamma, hc.gamma_lt, hc.tau, hc.tau_le, hc.second.norm, hc.second.rate, hc.second.rate_le⟩

def val (x : Learner n m) : Bool → Entry n m → ℝ
  | false => x.q1.value
  | true => x.q2.value

def lossState (x : Learner n m) : Bool → LossStep.State Unit
  | false => x.loss1
  | true => x.loss2

def world (x : Learner n m) : Bool → LossStep.World (Entry n m)
  | false => x.q1
  | true => x.q2

/-- The target networks are tables -/
def Has (x : Learner n m) (T : Tables n m) : Prop := x.q1t = netOfPart T false ∧ x.q2t = netOfPart T true

/-- The gradient of a critic -/
noncomputable def grad (c : Setup O A n m) (rolls : List (Rollout O A)) (init : Bool → Entry n m → ℝ) (T : Tables n m) (x : Learner n m)
    (i : Bool) (p : Entry n m) : ℝ :=
  2 * ((((times rolls).map (pairOf c i)).count p : ℝ) / ((times rolls).map (pairOf c i)).length) *
    (val x i p - average c rolls init T (i, p.1) p.2)

theorem backward_critic (c : Setup O A n m) (rolls : List (Rollout O A)) (init : Bool → Entry n m → ℝ) (T : Tables n m) (x : Learner n m)
    (i : Bool) (p : Entry n m) :
    (LossStep.backward (critic c i).cfg ((times rolls).map Time.row, (times rolls).map (yOf c T)) (lossState x i) (world x i)).2.value p =
      val x i p - eta (asSetup c i) (lossState x i).steps ((times rolls).map (pairOf c i)) (grad c rolls init T x i) p *
        (val x i p - average c rolls init T (i, p.1) p.2) := by
  have hw : ∀ p, (world x i).value p = val x i p := fun p => by cases i <;> rfl
  have := step_of_deriv (lossOf (critic c i).cell) (asSetup c i) ((times rolls).map Time.row, (times rolls).map (yOf c T))
    ((times rolls).map (pairOf c i)) (fun p => average c rolls init T (i, p.1) p.2) (lossState x i) (world x i) (fun p => by
      have h : (fun z => lossOf (critic c i).cell ((times rolls).map Time.row, (times rolls).map (yOf c T))
          (Function.update (world x i).value p z)) = fun z => ((times rolls).map fun t => (Function.update (world x i).value p z (pairOf c i t) -
            yOf c T t) ^ 2).sum / (times rolls).length := by
        funext z
        rw [lossOf_times]
        rfl
      rw [h]
      exact deriv_mean (pairOf c i) (times rolls) (yOf c T) (init i) (world x i).value p) p
  simp only [hw] at this
  exact this

theorem trainBatch_ok (c : Setup O A n m) (hl : 0 < c.len) {rolls : List (Rollout O A)} (hf : Fit c rolls) (init : Bool → Entry n m → ℝ)
    {x : Learner n m} {T : Tables n m} (hT : Has x T) :
    ∃ x' T', trainBatch c (batchOf rolls) x = .ok x' ∧ Has x' T' ∧
      (∀ i p, val x' i p = val x i p - eta (asSetup c i) (lossState x i).steps ((times rolls).map (pairOf c i))
        (grad c rolls init T x i) p * (val x i p - average c rolls init T (i, p.1) p.2)) ∧
      ∀ s a, T' s a = T s a * (1 - c.tau) + val x' s.1 (s.2, a) * c.tau := by
  let r : Bool → LossStep.State Unit × LossStep.World (Entry n m) := fun i =>
    LossStep.backward (critic c i).cfg ((times rolls).map Time.row, (times rolls).map (yOf c T)) (lossState x i) (world x i)
  let nets := SacNets.endBatch ⟨netOf (r false).2.value, netOf (r true).2.value, x.q1t, x.q2t, c.tau⟩
  have h : trainBatch c (batchOf rolls) x = .ok ⟨(r false).1, (r true).1, (r false).2, (r true).2, nets.q1t, nets.q2t⟩ := by
    have ht := targets_ok c hl hf T
    rw [← hT.1, ← hT.2] at ht
    simp only [trainBatch, ht, rows_times]
    rfl
  refine ⟨_, fun s a => T s a * (1 - c.tau) + (r s.1).2.value (s.2, a) * c.tau, h, ⟨?_, ?_⟩, fun i p => ?_, fun s a => ?_⟩
  · simp only [nets, SacNets.endBatch, hT.1]
    exact Dqn.softUpdate_table c.tau _ _
  · simp only [nets, SacNets.endBatch, hT.2]
    exact Dqn.softUpdate_table c.tau _ _
  · have := backward_critic c rolls init T x i p
    cases i
    · exact this
    · exact this
  · obtain ⟨i, s⟩ := s
    cases i <;> rfl

theorem train_snoc (c : Setup O A n m) (bs : List (Batch O A)) (b : Batch O A) {x y : Learner n m} (h : train c bs x = .ok y) :
    train c (bs ++ [b]) x = trainBatch c b y := by
  induction bs generalizing x with
  | nil =>
    injection h with h
    subst h
    simp only [List.nil_append, train]
    cases trainBatch c b x <;> rfl
  | cons b' bs ih =>
    simp only [List.cons_append, train] at h ⊢
    cases h' : trainBatch c b' x with
    | error e => rw [h'] at h; cases h
    | ok x' => rw [h'] at h; exact ih h

theorem exists_run (c : Setup O A n m) (hl : 0 < c.len) {rolls : List (Rollout O A)} (hf : Fit c rolls) (init : Bool → Entry n m → ℝ)
    {x0 : Learner n m} {T0 : Tables n m} (h0 : Has x0 T0) :
    ∃ (run : Nat → Learner n m) (T : Nat → Tables n m), run 0 = x0 ∧ T 0 = T0 ∧
      (∀ k, train c (List.replicate k (batchOf rolls)) x0 = .ok (run k)) ∧ (∀ k, Has (run k) (T k)) ∧
      (∀ k i p, val (run (k + 1)) i p = val (run k) i p - eta (asSetup c i) (lossState (run k) i).steps ((times rolls).map (pairOf c i))
        (grad c rolls init (T k) (run k) i) p * (val (run k) i p - average c rolls init (T k) (i, p.1) p.2)) ∧
      ∀ k s a, T (k + 1) s a = T k s a * (1 - c.tau) + val (run (k + 1)) s.1 (s.2, a) * c.tau := by
  have hone := fun (x : {x : Learner n m × Tables n m // Has x.1 x.2}) => trainBatch_ok c hl hf init x.2
  choose nx nt h1 h2 h3 h4 using hone
  let run : Nat → {x : Learner n m × Tables n m // Has x.1 x.2} := fun k =>
    Nat.rec ⟨(x0, T0), h0⟩ (fun _ x => ⟨(nx x, nt x), h2 x⟩) k
  refine ⟨fun k => (run k).1.1, fun k => (run k).1.2, rfl, rfl, fun k => ?_, fun k => (run k).2, fun k i p => h3 (run k) i p,
    fun k s a => h4 (run k) s a⟩
  induction k with
  | zero => rfl
  | succ k ih =>
    rw [List.replicate_succ', train_snoc c _ _ ih]
    exact h1 (run k)

/-! ## C163 -/

/-- C163: whatever the data, exactly one pair of critics explains it and keeps the initial values of what was not seen. -/
theorem C163_unique (c : Setup O A n m) (hg : 0 ≤ c.gamma) (hg1 : c.gamma < 1) (rolls : List (Rollout O A)) (init1 init2 : Entry n m → ℝ) :
    ∃! q : (Entry n m → ℝ) × (Entry n m → ℝ), Explain c rolls init1 init2 q.1 q.2 := by
  let init : Bool → Entry n m → ℝ := fun i => if i then init2 else init1
  obtain ⟨T, hT⟩ := exists_average c rolls hg hg1 init
  refine ⟨(part T false, part T true), (explain_iff c rolls init T).2 hT, fun q hq => ?_⟩
  let U : Tables n m := joined q.1 q.2
  have hU : average c rolls init U = U := (explain_iff c rolls init U).1 hq
  obtain ⟨d, hd, hb⟩ := exists_bound fun s a => U s a - T s a
  have hk : ∀ k : Nat, ∀ s a, |U s a - T s a| ≤ c.gamma ^ k * d := by
    intro k
    induction k with
    | zero => simpa using hb
    | succ k ih =>
      intro s a
      have := average_close c rolls hg hg1.le init U T (c.gamma ^ k * d) (by positivity) ih s a
      rw [hT, hU] at this
      rw [pow_succ']
      linarith
  have hz : Tendsto (fun k => c.gamma ^ k * d) atTop (𝓝 0) := by
    simpa using (tendsto_pow_atTop_nhds_zero_of_lt_one hg hg1).mul_const d
  have heq : ∀ s a, U s a = T s a := fun s a =>
    sub_eq_zero.1 (abs_nonpos_iff.1 (ge_of_tendsto' hz fun k => hk k s a))
  refine Prod.ext (funext fun p => ?_) (funext fun p => ?_)
  · exact heq (false, p.1) p.2
  · exact heq (true, p.1) p.2

/-- C163: when both critics are trained again and again on the same rollouts, whatever they are, no batch is refused, both critics and both
target networks tend to the pair that explains the data, and the values of cells that were not seen stay what they were. -/
theorem C163 {c : Setup O A n m} (hc : Usual c) {rolls : List (Rollout O A)} (hf : Fit c rolls) (_ : rolls ≠ []) {x0 : Learner n m}
    {t1 t2 : Fin n → Fin (m + 1) → ℝ} (h1 : x0.q1t = table t1) (h2 : x0.q2t = table t2) :
    ∃ (run : Nat → Learner n m) (u1 u2 : Nat → Fin n → Fin (m + 1) → ℝ),
      (∀ k, train c (List.replicate k (batchOf rolls)) x0 = .ok (run k) ∧ (run k).q1t = table (u1 k) ∧ (run k).q2t = table (u2 k)) ∧
      (∀ p, (∀ x ∈ times rolls, c.first.cell x.row.obs x.row.action ≠ p) → ∀ k, (run k).q1.value p = x0.q1.value p) ∧
      (∀ p, (∀ x ∈ times rolls, c.second.cell x.row.obs x.row.action ≠ p) → ∀ k, (run k).q2.value p = x0.q2.value p) ∧
      ∀ q1 q2, Explain c rolls x0.q1.value x0.q2.value q1 q2 → ∀ p,
        Tendsto (fun k => (run k).q1.value p) atTop (𝓝 (q1 p)) ∧ Tendsto (fun k => (run k).q2.value p) atTop (𝓝 (q2 p)) ∧
        Tendsto (fun k => u1 k p.1 p.2) atTop (𝓝 (q1 p)) ∧ Tendsto (fun k => u2 k p.1 p.2) atTop (𝓝 (q2 p)) := by
  let init : Bool → Entry n m → ℝ := val x0
  let T0 : Tables n m := fun s => if s.1 then t2 s.2 else t1 s.2
  obtain ⟨run, T, hr0, -, hrun, hhas, hq, ht⟩ := exists_run c hc.len hf init (x0 := x0) (T0 := T0) ⟨h1, h2⟩
  have hfix : ∀ i p, p ∉ (times rolls).map (pairOf c i) → ∀ k, val (run k) i p = init i p := by
    intro i p hm k
    induction k with
    | zero => rw [hr0]
    | succ k ih =>
      rw [hq, ih]
      simp only [average]
      rw [if_neg hm, sub_self, mul_zero, sub_zero]
  refine ⟨run, fun k s => T k (false, s), fun k s => T k (true, s), fun k => ⟨hrun k, hhas k⟩, fun p hp k => ?_, fun p hp k => ?_,
    fun q1 q2 hqs => ?_⟩
  · refine hfix false p (fun hm => ?_) k
    obtain ⟨x, hx, hxp⟩ := List.mem_map.1 hm
    exact hp x hx hxp
  · refine hfix true p (fun hm => ?_) k
    obtain ⟨x, hx, hxp⟩ := List.mem_map.1 hm
    exact hp x hx hxp
  let qs : Tables n m := joined q1 q2
  have hqs : average c rolls init qs = qs := (explain_iff c rolls init qs).1 hqs
  obtain ⟨m1, hm1, hb1⟩ := exists_bound fun s a => val (run 0) s.1 (s.2, a) - qs s a
  obtain ⟨m2, hm2, hb2⟩ := exists_bound fun s a => T 0 s a - qs s a
  let M := m1 + m2
  have hM : 0 ≤ M := by positivity
  let v : Nat → Tables n m := fun k s a => val (run k) s.1 (s.2, a)
  have hn0 : Near qs v T M 0 := fun s a =>
    ⟨(hb1 s a).trans (le_add_of_nonneg_right hm2), (hb2 s a).trans (le_add_of_nonneg_left hm1)⟩
  let h : Nat → Tables n m := fun k s a => if (s.2, a) ∈ (times rolls).map (pairOf c s.1) then
    eta (asSetup c s.1) (lossState (run k) s.1).steps ((times rolls).map (pairOf c s.1)) (grad c rolls init (T k) (run k) s.1) (s.2, a) else 1
  have hh0 : ∀ k s a, 0 ≤ h k s a ∧ h k s a ≤ 1 := by
    intro k s a
    simp only [h]
    split
    · exact eta_bounds (usual_asSetup hc s.1) _ _ _ _
    · exact ⟨zero_le_one, le_refl _⟩
  have hstep : ∀ k s a, v (k + 1) s a = v k s a - h k s a * (v k s a - average c rolls init (T k) s a) := by
    intro k s a
    by_cases hm : (s.2, a) ∈ (times rolls).map (pairOf c s.1)
    · simp only [h, if_pos hm]
      exact hq k s.1 (s.2, a)
    · simp only [average, if_neg hm, v]
      rw [hfix s.1 _ hm, hfix s.1 _ hm, sub_self, mul_zero, sub_zero]
  have hB : ∀ t M, 0 ≤ M → (∀ s a, |t s a - qs s a| ≤ M) → ∀ s a, |average c rolls init t s a - qs s a| ≤ c.gamma * M := by
    intro t M hM h s a
    have := average_close c rolls hc.gamma hc.gamma_lt.le init t qs M hM h s a
    rwa [hqs] at this
  have hnear := near_after (q := v) hc.gamma hc.gamma_lt hc.tau hc.tau_le hB hh0 hstep ht hM hn0
  obtain ⟨e1, he1, he1', hlow1⟩ := eta_low (n := n) (m := m) (usual_asSetup hc false) (2 * (M + c.gamma * M)) (times rolls).length
  obtain ⟨e2, he2, he2', hlow2⟩ := eta_low (n := n) (m := m) (usual_asSetup hc true) (2 * (M + c.gamma * M)) (times rolls).length
  have hgrad : ∀ k i p, |grad c rolls init (T k) (run k) i p| ≤ 2 * (M + c.gamma * M) := by
    intro k i p
    have hj := hnear k
    rw [Nat.zero_add] at hj
    have h1 : |val (run k) i p - qs (i, p.1) p.2| ≤ M := (hj (i, p.1) p.2).1
    have h2 := hB (T k) M hM (fun s a => (hj s a).2) (i, p.1) p.2
    have hq0 : 0 ≤ (((times rolls).map (pairOf c i)).count p : ℝ) / ((times rolls).map (pairOf c i)).length := by positivity
    have hq1 : (((times rolls).map (pairOf c i)).count p : ℝ) / ((times rolls).map (pairOf c i)).length ≤ 1 :=
      div_le_one_of_le₀ (by exact_mod_cast List.count_le_length) (by positivity)
    have h3 : |val (run k) i p - average c rolls init (T k) (i, p.1) p.2| ≤ M + c.gamma * M := by
      rw [show val (run k) i p - average c rolls init (T k) (i, p.1) p.2 =
        (val (run k) i p - qs (i, p.1) p.2) - (average c rolls init (T k) (i, p.1) p.2 - qs (i, p.1) p.2) by ring]
      exact (abs_sub _ _).trans (add_le_add h1 h2)
    unfold grad
    rw [abs_mul, abs_of_nonneg (by positivity)]
    have h4 := abs_nonneg (val (run k) i p - average c rolls init (T k) (i, p.1) p.2)
    nlinarith
  have hoft : ∀ k s a, ∃ j, min e1 e2 ≤ h (k + j) s a := by
    intro k s a
    refine ⟨0, ?_⟩
    simp only [h, Nat.add_zero]
    split
    · rename_i hm
      obtain ⟨i, s⟩ := s
      cases i
      · exact (min_le_left _ _).trans (hlow1 _ _ _ _ (hgrad k false) (by simp) hm)
      · exact (min_le_right _ _).trans (hlow2 _ _ _ _ (hgrad k true) (by simp) hm)
    · exact (min_le_left _ _).trans he1'
  have hlim := near_zero (q := v) hc.gamma hc.gamma_lt hc.tau hc.tau_le hB hh0 hstep ht (lt_min he1 he2) ((min_le_left _ _).trans he1') hM hn0
    hoft
  intro p
  exact ⟨(hlim (false, p.1) p.2).1, (hlim (true, p.1) p.2).1, (hlim (false, p.1) p.2).2, (hlim (true, p.1) p.2).2⟩

/-- C163: critics with the same cells come to agree on all cells that were seen, whatever they and their targets began with. -/
theorem C163_agree {c : Setup O A n m} (hc : Usual c) (hcell : c.first.cell = c.second.cell) {rolls : List (Rollout O A)} (hf : Fit c rolls)
    {x0 : Learner n m} {t1 t2 : Fin n → Fin (m + 1) → ℝ} (h1 : x0.q1t = table t1) (h2 : x0.q2t = table t2) {x : Time O A}
    (hx : x ∈ times rolls) :
    ∃ run : Nat → Learner n m, (∀ k, train c (List.replicate k (batchOf rolls)) x0 = .ok (run k)) ∧
      Tendsto (fun k => (run k).q1.value (c.first.cell x.row.obs x.row.action) - (run k).q2.value (c.first.cell x.row.obs x.row.action))
        atTop (𝓝 0) := by
  have hne : rolls ≠ [] := by rintro rfl; simp [times] at hx
  obtain ⟨run, _, _, hrun, -, -, hlim⟩ := C163 hc hf hne h1 h2
  obtain ⟨q, hq, -⟩ := C163_unique c hc.gamma hc.gamma_lt rolls x0.q1.value x0.q2.value
  refine ⟨run, fun k => (hrun k).1, ?_⟩
  obtain ⟨l1, l2, -, -⟩ := hlim q.1 q.2 hq (c.first.cell x.row.obs x.row.action)
  have e1 := hq.first.seen _ ⟨x, hx, rfl⟩
  have e2 := hq.second.seen (c.first.cell x.row.obs x.row.action) ⟨x, hx, by rw [hcell]⟩
  rw [← hcell] at e2
  have := l1.sub l2
  rwa [e1, ← e2, sub_self] at this

/-! ### A case: observations and actions are integers, the first critic tells negative observations from others, the second one nothing -/

namespace Ex

noncomputable def setup : Setup Int Int 2 0 where
  policy := fun _ => (0, 1)
  lnAlpha := 0
  gamma := 1 / 2
  scale := 1
  tau := 1 / 4
  len := 2
  masking := true
  first := ⟨"q1", fun o _ => (if o < 0 then 0 else 1, 0), 10, fun _ => 1 / 4⟩
  second := ⟨"q2", fun _ _ => (0, 0), 10, fun _ => 1 / 8⟩

theorem usual : Usual setup where
  gamma := by norm_num [setup]
  gamma_lt := by norm_num [setup]
  tau := by norm_num [setup]
  tau_le := by norm_num [setup]
  len := by norm_num [setup]
  first := ⟨by norm_num [setup], ⟨1 / 4, by norm_num, fun _ => by norm_num [setup]⟩, fun _ => by norm_num [setup]⟩
  second := ⟨by norm_num [setup], ⟨1 / 8, by norm_num, fun _ => by norm_num [setup]⟩, fun _ => by norm_num [setup]⟩

/-- Two rollouts, the second one ends. -/
noncomputable def rolls : List (Rollout Int Int) :=
  [⟨[⟨-1, 5, 1, 1⟩, ⟨3, 6, 2, 1⟩], -5⟩, ⟨[⟨3, 7, 0, 1⟩, ⟨4, 8, 4, 0⟩], 0⟩]

noncomputable def start : Learner 2 0 :=
  ⟨⟨(), 0, []⟩, ⟨(), 0, []⟩, ⟨fun _ => 9, fun _ => none⟩, ⟨fun _ => 7, fun _ => none⟩, table fun (_ : Fin 2) (_ : Fin 1) => -5,
    table fun (_ : Fin 2) (_ : Fin 1) => 8⟩

theorem fit : Fit setup rolls := by
  intro r hr
  simp only [rolls, List.mem_cons, List.not_mem_nil, or_false] at hr
  rcases hr with rfl | rfl <;> simp [setup]

noncomputable def q1 (p : Entry 2 0) : ℝ := if p.1 = 0 then 7 / 3 else 26 / 9

noncomputable def q2 (p : Entry 2 0) : ℝ := if p.1 = 0 then 11 / 4 else 7

theorem explain : Explain setup rolls (fun _ => 9) (fun _ => 7) q1 q2 := by
  have hworth : ∀ x ∈ times rolls, worth setup q1 q2 x = if x.row.action = 5 then 7 / 3 else if x.row.action = 6 then 8 / 3 else
      if x.row.action = 7 then 2 else 4 := by
    simp only [times, timesOf, rolls, List.flatMap_cons, List.flatMap_nil, List.append_nil, List.cons_append, List.nil_append]
    intro x hx
    simp only [List.mem_cons, List.not_mem_nil, or_false] at hx
    rcases hx with rfl | rfl | rfl | rfl <;>
      norm_num [worth, discounted, after, Rollout.Ended, setup, q1, q2]
  have h4 : times rolls = [⟨⟨-1, 5, 1, 1⟩, [⟨3, 6, 2, 1⟩], ⟨[⟨-1, 5, 1, 1⟩, ⟨3, 6, 2, 1⟩], -5⟩⟩, ⟨⟨3, 6, 2, 1⟩, [], ⟨[⟨-1, 5, 1, 1⟩, ⟨3, 6, 2, 1⟩], -5⟩⟩,
      ⟨⟨3, 7, 0, 1⟩, [⟨4, 8, 4, 0⟩], ⟨[⟨3, 7, 0, 1⟩, ⟨4, 8, 4, 0⟩], 0⟩⟩, ⟨⟨4, 8, 4, 0⟩, [], ⟨[⟨3, 7, 0, 1⟩, ⟨4, 8, 4, 0⟩], 0⟩⟩] := rfl
  have hsum : ∀ f : Time Int Int → Bool, ((times rolls).filter f).map (worth setup q1 q2) = ((times rolls).filter f).map fun x =>
      if x.row.action = 5 then 7 / 3 else if x.row.action = 6 then 8 / 3 else if x.row.action = 7 then 2 else 4 :=
    fun f => List.map_congr_left fun x hx => hworth x (List.mem_filter.1 hx).1
  have hp : ∀ p : Entry 2 0, p = (0, 0) ∨ p = (1, 0) := by decide
  constructor
  · constructor
    · intro p _
      rw [hsum, h4]
      rcases hp p with rfl | rfl <;> norm_num [setup, q1]
    · intro p h
      rw [h4] at h
      rcases hp p with rfl | rfl <;> simp [setup] at h
  · constructor
    · intro p h
      rw [hsum, h4]
      rw [h4] at h
      rcases hp p with rfl | rfl
      · norm_num [setup, q2]
      · simp [setup] at h
    · intro p h
      rw [h4] at h
      rcases hp p with rfl | rfl
      · exact absurd rfl (h _ (List.mem_cons_self ..))
      · simp [q2]

/-- The first critic tends to 7/3 for negative observations and to 26/9 for others, the second one to 11/4 for all; its other parameter is
not used and stays 7. -/
example : ∃ run : Nat → Learner 2 0, (∀ k, train setup (List.replicate k (batchOf rolls)) start = .ok (run k)) ∧
    Tendsto (fun k => (run k).q1.value (0, 0)) atTop (𝓝 (7 / 3)) ∧ Tendsto (fun k => (run k).q1.value (1, 0)) atTop (𝓝 (26 / 9)) ∧
    Tendsto (fun k => (run k).q2.value (0, 0)) atTop (𝓝 (11 / 4)) ∧ ∀ k, (run k).q2.value (1, 0) = 7 := by
  obtain ⟨run, u1, u2, hrun, -, hother, hlim⟩ := C163 usual fit (by simp [rolls]) (x0 := start) (t1 := fun _ _ => -5) (t2 := fun _ _ => 8) rfl rfl
  have := hlim q1 q2 explain
  refine ⟨run, fun k => (hrun k).1, by simpa [q1] using (this (0, 0)).1, by simpa [q1] using (this (1, 0)).1,
    by simpa [q2] using (this (0, 0)).2.1, fun k => ?_⟩
  rw [hother (1, 0) (fun x _ => by simp [setup]) k]
  rfl

/-- The second critic, told apart as the first one -/
example : ∃ run : Nat → Learner 2 0,
    (∀ k, train { setup with second := { setup.second with cell := setup.first.cell } } (List.replicate k (batchOf rolls)) start = .ok (run k)) ∧
    Tendsto (fun k => (run k).q1.value (0, 0) - (run k).q2.value (0, 0)) atTop (𝓝 0) :=
  C163_agree (c := { setup with second := { setup.second with cell := setup.first.cell } })
    ⟨usual.gamma, usual.gamma_lt, usual.tau, usual.tau_le, usual.len, usual.first,
      ⟨usual.second.norm, usual.second.rate, usual.second.rate_le⟩⟩ rfl (rolls := rolls) fit (x0 := start)
    (t1 := fun _ _ => -5) (t2 := fun _ _ => 8) rfl rfl (x := ⟨⟨-1, 5, 1, 1⟩, [⟨3, 6, 2, 1⟩], ⟨[⟨-1, 5, 1, 1⟩, ⟨3, 6, 2, 1⟩], -5⟩⟩)
    (List.mem_cons_self ..)

example := C163_unique setup (by norm_num [setup]) (by norm_num [setup]) rolls (fun _ => 9) fun _ => 7

end Ex

end SacCritics

end Verif
