import Verif.Model.Dqn
import Verif.Props.Returns
import Mathlib.Topology.MetricSpace.Contracting
import Mathlib.Analysis.SpecificLimits.Basic
import Mathlib.Tactic.Linarith

/-!
# C115, C116: Q-learning with discrete actions
-/

namespace Verif

namespace Dqn

open Numerics Filter Topology

/-! ## Specification -/

namespace Spec

/-- A deterministic environment with `n` observations and `m + 1` actions -/
structure Env (n m : Nat) where
  next : Fin n → Fin (m + 1) → Fin n
  reward : Fin n → Fin (m + 1) → ℝ
  ends : Fin n → Fin (m + 1) → Bool

variable {n m : Nat}

/-- The discounted sum of the first `k` rewards from observation `s`, for the action `a` and then the actions `p` -/
def sum (e : Env n m) (g : ℝ) : Nat → Fin n → Fin (m + 1) → (Nat → Fin (m + 1)) → ℝ
  | 0, _, _, _ => 0
  | k + 1, s, a, p => e.reward s a + if e.ends s a then 0 else g * sum e g k (e.next s a) (p 0) fun i => p (i + 1)

/-- The discounted return of all steps is `x`. -/
def Return (e : Env n m) (g : ℝ) (s : Fin n) (a : Fin (m + 1)) (p : Nat → Fin (m + 1)) (x : ℝ) : Prop :=
  Tendsto (fun k => sum e g k s a p) atTop (𝓝 x)

/-- `x` is the best return that can be had from `s`, beginning with the action `a`. -/
def Best (e : Env n m) (g : ℝ) (s : Fin n) (a : Fin (m + 1)) (x : ℝ) : Prop :=
  (∃ p, Return e g s a p x) ∧ ∀ p, ∃ y, Return e g s a p y ∧ y ≤ x

/-- The batch is made in the environment, and every action has been tried in every observation. -/
structure Complete (e : Env n m) (b : List (Sample ℝ)) : Prop where
  real : ∀ x ∈ b, ∃ s a, x = ⟨(s : Fin n).val, ((a : Fin (m + 1)).val : ℝ), e.reward s a, if e.ends s a then 0 else 1, (e.next s a).val⟩
  all : ∀ (s : Fin n) (a : Fin (m + 1)), ∃ x ∈ b, x.obs = s.val ∧ x.action = (a.val : ℝ)

/-- The table with the values `t` -/
def table (t : Fin n → Fin (m + 1) → ℝ) : Net ℝ := List.ofFn fun s => List.ofFn (t s)

/-- A batch on which the network is fitted to its targets exactly, and then the target network is moved. -/
structure Round (g scale tau : ℝ) (b : List (Sample ℝ)) (t t' : Fin n → Fin (m + 1) → ℝ) : Prop where
  ok : ∃ (ts : List ℝ) (q : Fin n → Fin (m + 1) → ℝ), targets g scale (table t) b = .ok ts ∧ batchLoss (table q) b ts = .ok 0 ∧
    table t' = (DqnNets.endBatch ⟨table q, table t, tau⟩).target

/-- Rounds with any complete batches -/
inductive Rounds (e : Env n m) (g scale tau : ℝ) (t0 : Fin n → Fin (m + 1) → ℝ) : Nat → (Fin n → Fin (m + 1) → ℝ) → Prop
  | zero : Rounds e g scale tau t0 0 t0
  | succ {k t t' b} : Rounds e g scale tau t0 k t → Complete e b → Round g scale tau b t t' → Rounds e g scale tau t0 (k + 1) t'

end Spec

open Spec

variable {n m : Nat}

/-! ## C115: the loss -/

theorem toInt64_nat (a : Nat) : toInt64 (a : ℝ) = a := by
  simp [toInt64]

theorem gather_ok (row : List ℝ) (a : Nat) (x : ℝ) (h : row[a]? = some x) : gather row (toInt64 (a : ℝ)) = .ok x := by
  rw [toInt64_nat]
  simp [gather, h]

theorem gatherAll_ok (l : List (List ℝ × Nat × ℝ)) (h : ∀ x ∈ l, x.1[x.2.1]? = some x.2.2) :
    gatherAll (l.map (·.1)) (l.map fun x => (x.2.1 : ℝ)) = .ok (l.map (·.2.2)) := by
  induction l with
  | nil => rfl
  | cons x l ih =>
    simp only [List.map_cons, gatherAll]
    rw [gather_ok _ _ _ (h x (by simp)), ih fun y hy => h y (List.mem_cons_of_mem _ hy)]

/-- **C115.** The loss is the mean of the squared differences between the targets and the values of the actions taken.
A row is: the values of all actions, the action, its value, the target. Nothing else of the rows matters. -/
theorem C115_loss (l : List (List ℝ × Nat × ℝ × ℝ)) (h : ∀ x ∈ l, x.1[x.2.1]? = some x.2.2.1) :
    loss (l.map (·.1)) (l.map fun x => (x.2.1 : ℝ)) (l.map (·.2.2.2)) =
      .ok ((l.map fun x => (x.2.2.1 - x.2.2.2) ^ 2).sum / l.length) := by
  have := gatherAll_ok (l.map fun x => (x.1, x.2.1, x.2.2.1)) (fun x hx => by
    obtain ⟨y, hy, rfl⟩ := List.mem_map.1 hx
    exact h y hy)
  simp only [List.map_map, Function.comp_def] at this
  simp only [loss, this, pairs, List.length_map, if_true]
  rw [List.zip_map', List.map_map, List.length_map]
  rfl

theorem sum_sq_zero (l : List ℝ) (h : (l.map fun x => x ^ 2).sum = 0) : ∀ x ∈ l, x = 0 := by
  induction l with
  | nil => simp
  | cons y l ih =>
    have hp : 0 ≤ (l.map fun x => x ^ 2).sum := List.sum_nonneg fun x hx => by
      obtain ⟨z, -, rfl⟩ := List.mem_map.1 hx
      positivity
    simp only [List.map_cons, List.sum_cons] at h
    have hy : y ^ 2 = 0 := by nlinarith [sq_nonneg y]
    intro x hx
    rcases List.mem_cons.1 hx with rfl | hx
    · exact pow_eq_zero_iff (two_ne_zero) |>.1 hy
    · exact ih (by linarith) x hx

/-- **C115.** The loss is zero exactly if the value of each action taken is its target. -/
theorem C115_zero (l : List (List ℝ × Nat × ℝ × ℝ)) (h : ∀ x ∈ l, x.1[x.2.1]? = some x.2.2.1) :
    loss (l.map (·.1)) (l.map fun x => (x.2.1 : ℝ)) (l.map (·.2.2.2)) = .ok 0 ↔ ∀ x ∈ l, x.2.2.1 = x.2.2.2 := by
  rw [C115_loss l h]
  constructor
  · intro h0
    injection h0 with h0
    by_cases hl : l = []
    · simp [hl]
    have hn : (l.length : ℝ) ≠ 0 := by
      have := List.length_pos_iff.2 hl
      positivity
    have h0 : (l.map fun x => (x.2.2.1 - x.2.2.2) ^ 2).sum = 0 := by
      rcases div_eq_zero_iff.1 h0 with h0 | h0
      · exact h0
      · exact absurd h0 hn
    have := sum_sq_zero (l.map fun x => x.2.2.1 - x.2.2.2) (by simpa [List.map_map, Function.comp_def] using h0)
    intro x hx
    have := this _ (List.mem_map.2 ⟨x, hx, rfl⟩)
    linarith
  · intro h0
    congr 1
    have : (l.map fun x => (x.2.2.1 - x.2.2.2) ^ 2) = l.map fun _ => (0 : ℝ) :=
      List.map_congr_left fun x hx => by rw [h0 x hx]; ring
    rw [this]
    simp

/-- **C115.** An action that is no index of the row raises. -/
theorem C115_range (row : List ℝ) (rows : List (List ℝ)) (a : Int) (as ts : List ℝ) (h : a < 0 ∨ row.length ≤ a) :
    loss (row :: rows) ((a : ℝ) :: as) ts = .error .runtimeError := by
  have ht : toInt64 (a : ℝ) = a := by simp [toInt64]
  have : gather row (toInt64 (a : ℝ)) = .error .runtimeError := by
    rw [ht]
    unfold gather
    by_cases h0 : a < 0
    · rw [if_pos h0]
    · rw [if_neg h0]
      have hl : row.length ≤ a.toNat := by omega
      rw [List.getElem?_eq_none hl]
  simp [loss, gatherAll, this]

theorem gatherAll_more (l : List (List ℝ × Nat × ℝ)) (h : ∀ x ∈ l, x.1[x.2.1]? = some x.2.2) (more : List (List ℝ)) :
    gatherAll (l.map (·.1) ++ more) (l.map fun x => (x.2.1 : ℝ)) = .ok (l.map (·.2.2)) := by
  induction l with
  | nil => cases more <;> rfl
  | cons x l ih =>
    have := gatherAll_ok [x] (fun y hy => h y (by simp_all))
    simp only [List.map_cons, List.map_nil, gatherAll] at this
    simp only [List.map_cons, List.cons_append, gatherAll, ih fun y hy => h y (List.mem_cons_of_mem _ hy)]
    revert this
    cases gather x.1 (toInt64 (x.2.1 : ℝ)) with
    | error e => intro h; cases h
    | ok v =>
      intro h
      injection h with h
      injection h with h
      simp only [h]

theorem gatherAll_fewer : ∀ (rows : List (List ℝ)) (actions : List ℝ), rows.length < actions.length →
    gatherAll rows actions = .error .runtimeError
  | [], [], h => absurd h (by simp)
  | [], _ :: _, _ => rfl
  | _ :: _, [], h => absurd h (by simp)
  | row :: rows, a :: actions, h => by
    have ih := gatherAll_fewer rows actions (by simpa using h)
    have hg : ∀ i, gather row i = .error .runtimeError ∨ ∃ x, gather row i = .ok x := by
      intro i
      unfold gather
      split
      · exact Or.inl rfl
      · split
        · exact Or.inr ⟨_, rfl⟩
        · exact Or.inl rfl
    rcases hg (toInt64 a) with h | ⟨x, h⟩ <;> simp only [gatherAll, h, ih]

/-- **C115.** Where the sizes differ: more actions than rows, or numbers of actions and targets that differ while none is 1, raise. One action
is compared with all targets, and all actions with one target; rows without an action do not count. -/
theorem C115_sizes (rows : List (List ℝ)) (l : List (List ℝ × Nat × ℝ)) (h : ∀ x ∈ l, x.1[x.2.1]? = some x.2.2) (more : List (List ℝ))
    (actions ts : List ℝ) :
    (rows.length < actions.length → loss rows actions ts = .error .runtimeError) ∧
    (l.length ≠ ts.length → l.length ≠ 1 → ts.length ≠ 1 →
      loss (l.map (·.1) ++ more) (l.map fun x => (x.2.1 : ℝ)) ts = .error .runtimeError) ∧
    (∀ x, l = [x] → loss (l.map (·.1) ++ more) (l.map fun x => (x.2.1 : ℝ)) ts =
      .ok ((ts.map fun t => (x.2.2 - t) ^ 2).sum / ts.length)) ∧
    (∀ t, ts = [t] → loss (l.map (·.1) ++ more) (l.map fun x => (x.2.1 : ℝ)) ts =
      .ok ((l.map fun x => (x.2.2 - t) ^ 2).sum / l.length)) ∧
    (l.length = ts.length → loss (l.map (·.1) ++ more) (l.map fun x => (x.2.1 : ℝ)) ts =
      .ok ((List.zipWith (fun x t => (x.2.2 - t) ^ 2) l ts).sum / l.length)) := by
  have hg := gatherAll_more l h more
  refine ⟨fun hl => by simp only [loss, gatherAll_fewer _ _ hl], fun h1 h2 h3 => ?_, ?_, ?_, fun h1 => ?_⟩
  · simp only [loss, hg, pairs, List.length_map, if_neg h1]
    match l, ts with
    | [], [] => exact absurd rfl h1
    | [], [_] => exact absurd rfl h3
    | [], _ :: _ :: _ => rfl
    | [_], _ => exact absurd rfl h2
    | _ :: _ :: _, [] => rfl
    | _ :: _ :: _, [_] => exact absurd rfl h3
    | _ :: _ :: _, _ :: _ :: _ => rfl
  · rintro x rfl
    simp only [loss, hg, pairs]
    match ts with
    | [] => simp
    | [t] => simp
    | t :: t' :: ts => simp [Function.comp_def]
  · rintro t rfl
    simp only [loss, hg, pairs]
    match l with
    | [] => simp
    | [x] => simp
    | x :: x' :: l => simp [Function.comp_def]
  · simp only [loss, hg, pairs, List.length_map, if_pos h1]
    rw [List.length_zip, List.length_map, h1, Nat.min_self]
    congr 3
    rw [List.zip_map_left, List.map_map, List.zip, List.map_zipWith]
    rfl

/-- The third row is not used, and both actions are compared with the one target. -/
example : loss [[1, 2], [3, 4], [5, 6]] [1, 0] [(5 : ℝ)] = .ok ((9 + 4) / 2) := by
  have := (C115_sizes [] [([1, 2], 1, 2), ([3, 4], 0, 3)] (by simp) [[5, 6]] [] [5]).2.2.2.1 5 rfl
  simp only [List.map_cons, List.map_nil, List.cons_append, List.nil_append, Nat.cast_one, Nat.cast_zero] at this
  rw [this]
  norm_num

/-- **C115.** Actions that are no whole numbers count as the whole number next to them towards zero. -/
theorem C115_towards_zero (rows : List (List ℝ)) (l : List (ℝ × Int)) (ts : List ℝ)
    (h : ∀ x ∈ l, |(x.2 : ℝ)| ≤ |x.1| ∧ |x.1| < |(x.2 : ℝ)| + 1 ∧ 0 ≤ x.1 * x.2) :
    loss rows (l.map (·.1)) ts = loss rows (l.map fun x => (x.2 : ℝ)) ts := by
  have key : ∀ x : ℝ × Int, |(x.2 : ℝ)| ≤ |x.1| ∧ |x.1| < |(x.2 : ℝ)| + 1 ∧ 0 ≤ x.1 * x.2 → toInt64 x.1 = toInt64 (x.2 : ℝ) := by
    rintro ⟨x, a⟩ ⟨h1, h2, h3⟩
    simp only at h1 h2 h3 ⊢
    have ha : toInt64 (a : ℝ) = a := by simp [toInt64]
    rw [ha, toInt64]
    by_cases hx : 0 ≤ x
    · rw [if_pos hx]
      have ha0 : (0 : ℝ) ≤ a := by
        rcases hx.eq_or_lt with h0 | h0
        · rw [← h0, abs_zero] at h1
          rw [abs_nonpos_iff.1 h1]
        · exact nonneg_of_mul_nonneg_right h3 h0
      rw [abs_of_nonneg hx, abs_of_nonneg ha0] at h1 h2
      exact Int.floor_eq_iff.2 ⟨h1, h2⟩
    · rw [if_neg hx]
      push Not at hx
      have ha0 : (a : ℝ) ≤ 0 := by
        by_contra hc
        push Not at hc
        nlinarith
      rw [abs_of_neg hx, abs_of_nonpos ha0] at h1 h2
      exact Int.ceil_eq_iff.2 ⟨by linarith, by linarith⟩
  have hg : ∀ rows : List (List ℝ), gatherAll rows (l.map (·.1)) = gatherAll rows (l.map fun x => (x.2 : ℝ)) := by
    clear ts
    induction l with
    | nil => intro _; rfl
    | cons x l ih =>
      intro rows
      cases rows with
      | nil => rfl
      | cons row rows =>
        simp only [List.map_cons, gatherAll, key x (h x (by simp)), ih fun y hy => h y (List.mem_cons_of_mem _ hy)]
  simp only [loss, hg]

/-! ## Tables -/

theorem eval_table (t : Fin n → Fin (m + 1) → ℝ) (os : List (Fin n)) :
    eval (table t) (os.map Fin.val) = .ok (os.map fun s => List.ofFn (t s)) := by
  induction os with
  | nil => rfl
  | cons o os ih =>
    simp only [List.map_cons, eval, ih]
    simp [table]

theorem softUpdate_ofFn (tau : ℝ) : ∀ (n : Nat) (q t : Fin n → List ℝ), softUpdate (List.ofFn q) (List.ofFn t) tau =
    List.ofFn fun s => List.zipWith (fun t s => t * (1 - tau) + s * tau) (t s) (q s) := by
  intro n
  induction n with
  | zero => intro q t; simp [softUpdate]
  | succ n ih => intro q t; simp [List.ofFn_succ, softUpdate, ih]

theorem softUpdate_table (tau : ℝ) (q t : Fin n → Fin (m + 1) → ℝ) :
    softUpdate (table q) (table t) tau = table fun s a => t s a * (1 - tau) + q s a * tau := by
  rw [table, table, softUpdate_ofFn, table]
  congr 1
  funext s
  apply List.ext_getElem?
  intro i
  simp only [List.getElem?_zipWith, List.getElem?_ofFn]
  by_cases h : i < m + 1 <;> simp [h]

theorem table_inj {t t' : Fin n → Fin (m + 1) → ℝ} (h : table t = table t') : t = t' := by
  have := List.ofFn_injective h
  funext s
  exact List.ofFn_injective (congrFun this s)

theorem batchLoss_table (q : Fin n → Fin (m + 1) → ℝ) (l : List (Sample ℝ × (Fin n × Fin (m + 1)) × ℝ))
    (h : ∀ x ∈ l, x.1.obs = x.2.1.1.val ∧ x.1.action = (x.2.1.2.val : ℝ)) :
    batchLoss (table q) (l.map (·.1)) (l.map (·.2.2)) =
      .ok ((l.map fun x => (q x.2.1.1 x.2.1.2 - x.2.2) ^ 2).sum / l.length) := by
  have ho : (l.map (·.1)).map Sample.obs = (l.map fun x => x.2.1.1).map Fin.val := by
    simp only [List.map_map]
    exact List.map_congr_left fun x hx => (h x hx).1
  have ha : (l.map (·.1)).map Sample.action = l.map fun x => ((x.2.1.2.val : ℕ) : ℝ) := by
    simp only [List.map_map]
    exact List.map_congr_left fun x hx => (h x hx).2
  have := C115_loss (l.map fun x => (List.ofFn (q x.2.1.1), x.2.1.2.val, q x.2.1.1 x.2.1.2, x.2.2)) (fun y hy => by
    obtain ⟨x, -, rfl⟩ := List.mem_map.1 hy
    rw [List.getElem?_ofFn]
    simp [Nat.lt_succ_iff.1 x.2.1.2.isLt])
  simp only [List.map_map, Function.comp_def, List.length_map] at this
  simp only [batchLoss, ho, eval_table, ha]
  rw [List.map_map]
  exact this

/-- The mean of the targets of a key -/
noncomputable def Spec.meanOf {κ : Type} [DecidableEq κ] (l : List (κ × ℝ)) (k : κ) : ℝ :=
  ((l.filter fun x => x.1 = k).map Prod.snd).sum / (l.filter fun x => x.1 = k).length

theorem cross_zero {κ : Type} [DecidableEq κ] (l : List (κ × ℝ)) (k : κ) :
    ((l.filter fun x => x.1 = k).map fun x => meanOf l k - x.2).sum = 0 := by
  have hs : ∀ (r : List (κ × ℝ)) (c : ℝ), (r.map fun x => c - x.2).sum = r.length * c - (r.map Prod.snd).sum := by
    intro r c
    induction r with
    | nil => simp
    | cons x r ih => simp only [List.map_cons, List.sum_cons, ih, List.length_cons]; push_cast; ring
  rw [hs, meanOf]
  by_cases hz : (l.filter fun x => x.1 = k).length = 0
  · have := List.length_eq_zero_iff.1 hz
    simp [this]
  · have : ((l.filter fun x => x.1 = k).length : ℝ) ≠ 0 := by exact_mod_cast hz
    field_simp
    ring

theorem sum_fiber {κ : Type} [Fintype κ] [DecidableEq κ] (l : List (κ × ℝ)) (f : κ × ℝ → ℝ) :
    (l.map f).sum = ∑ k, ((l.filter fun x => x.1 = k).map f).sum := by
  induction l with
  | nil => simp
  | cons x l ih =>
    have : ∀ k, (((x :: l).filter fun x => x.1 = k).map f).sum =
        (if x.1 = k then f x else 0) + ((l.filter fun x => x.1 = k).map f).sum := by
      intro k
      by_cases h : x.1 = k <;> simp [h]
    simp only [this, Finset.sum_add_distrib, ← ih]
    simp

/-- The squared error of any values is that of the means plus their squared distance from the means. -/
theorem sum_sq_split {κ : Type} [Fintype κ] [DecidableEq κ] (l : List (κ × ℝ)) (q : κ → ℝ) :
    (l.map fun x => (q x.1 - x.2) ^ 2).sum =
      (l.map fun x => (meanOf l x.1 - x.2) ^ 2).sum + (l.map fun x => (q x.1 - meanOf l x.1) ^ 2).sum := by
  have key : ∀ k, ((l.filter fun x => x.1 = k).map fun x => (q x.1 - x.2) ^ 2).sum =
      ((l.filter fun x => x.1 = k).map fun x => (meanOf l x.1 - x.2) ^ 2).sum +
        ((l.filter fun x => x.1 = k).map fun x => (q x.1 - meanOf l x.1) ^ 2).sum := by
    intro k
    have hc := cross_zero l k
    have : ∀ (r : List (κ × ℝ)) (c : ℝ), (∀ x ∈ r, x.1 = k) → (r.map fun x => (q x.1 - x.2) ^ 2).sum =
        (r.map fun x => (c - x.2) ^ 2).sum + (r.map fun x => (q x.1 - c) ^ 2).sum +
          2 * (q k - c) * (r.map fun x => c - x.2).sum := by
      intro r c hr
      induction r with
      | nil => simp
      | cons x r ih =>
        simp only [List.map_cons, List.sum_cons]
        rw [ih fun y hy => hr y (List.mem_cons_of_mem _ hy), hr x (by simp)]
        ring
    have hm : ∀ x ∈ l.filter fun x => x.1 = k, x.1 = k := fun x hx => by simpa using (List.mem_filter.1 hx).2
    rw [this _ (meanOf l k) hm, hc, mul_zero, add_zero]
    congr 2 <;> exact List.map_congr_left fun x hx => by rw [hm x hx]
  rw [sum_fiber, Finset.sum_congr rfl fun k _ => key k, Finset.sum_add_distrib, ← sum_fiber, ← sum_fiber]

/-- **C115.** On any batch, with any targets, the loss of a table is least exactly if the value of each observation with
each action taken in it is the mean of the targets of the rows with both. -/
theorem C115_least (l : List (Sample ℝ × (Fin n × Fin (m + 1)) × ℝ)) (hl : l ≠ [])
    (h : ∀ x ∈ l, x.1.obs = x.2.1.1.val ∧ x.1.action = (x.2.1.2.val : ℝ)) (q : Fin n → Fin (m + 1) → ℝ) :
    (∀ q' : Fin n → Fin (m + 1) → ℝ, ∃ x y, batchLoss (table q) (l.map (·.1)) (l.map (·.2.2)) = .ok x ∧
      batchLoss (table q') (l.map (·.1)) (l.map (·.2.2)) = .ok y ∧ x ≤ y) ↔
    ∀ x ∈ l, q x.2.1.1 x.2.1.2 = meanOf (l.map (·.2)) x.2.1 := by
  have hn : (0 : ℝ) < l.length := by exact_mod_cast List.length_pos_iff.2 hl
  have split : ∀ q : Fin n → Fin (m + 1) → ℝ, (l.map fun x => (q x.2.1.1 x.2.1.2 - x.2.2) ^ 2).sum =
      (l.map fun x => (meanOf (l.map (·.2)) x.2.1 - x.2.2) ^ 2).sum +
        (l.map fun x => (q x.2.1.1 x.2.1.2 - meanOf (l.map (·.2)) x.2.1) ^ 2).sum := by
    intro q
    have := sum_sq_split (l.map (·.2)) fun k => q k.1 k.2
    simpa only [List.map_map, Function.comp_def] using this
  constructor
  · intro hmin
    obtain ⟨x, y, h1, h2, h3⟩ := hmin fun s a => meanOf (l.map (·.2)) (s, a)
    rw [batchLoss_table _ _ h] at h1 h2
    injection h1 with h1
    injection h2 with h2
    rw [← h1, ← h2, div_le_div_iff_of_pos_right hn, split] at h3
    have h4 : (l.map fun x => (q x.2.1.1 x.2.1.2 - meanOf (l.map (·.2)) x.2.1) ^ 2).sum ≤ 0 := by linarith
    have h5 : 0 ≤ (l.map fun x => (q x.2.1.1 x.2.1.2 - meanOf (l.map (·.2)) x.2.1) ^ 2).sum :=
      List.sum_nonneg fun z hz => by obtain ⟨w, -, rfl⟩ := List.mem_map.1 hz; positivity
    have := sum_sq_zero (l.map fun x => q x.2.1.1 x.2.1.2 - meanOf (l.map (·.2)) x.2.1)
      (by simpa [List.map_map, Function.comp_def] using le_antisymm h4 h5)
    intro x hx
    have := this _ (List.mem_map.2 ⟨x, hx, rfl⟩)
    linarith
  · intro heq q'
    refine ⟨_, _, batchLoss_table _ _ h, batchLoss_table _ _ h, ?_⟩
    rw [div_le_div_iff_of_pos_right hn, split q, split q']
    have h1 : (l.map fun x => (q x.2.1.1 x.2.1.2 - meanOf (l.map (·.2)) x.2.1) ^ 2).sum = 0 := by
      rw [List.map_congr_left (g := fun _ => (0 : ℝ)) fun x hx => by rw [heq x hx]; ring]
      simp
    have h2 : 0 ≤ (l.map fun x => (q' x.2.1.1 x.2.1.2 - meanOf (l.map (·.2)) x.2.1) ^ 2).sum :=
      List.sum_nonneg fun z hz => by obtain ⟨w, -, rfl⟩ := List.mem_map.1 hz; positivity
    linarith

/-- The largest value of a row -/
noncomputable def top (f : Fin (m + 1) → ℝ) : ℝ := Finset.univ.sup' Finset.univ_nonempty f

theorem le_top (f : Fin (m + 1) → ℝ) (a : Fin (m + 1)) : f a ≤ top f := Finset.le_sup' f (Finset.mem_univ a)

theorem exists_top (f : Fin (m + 1) → ℝ) : ∃ a, f a = top f := by
  obtain ⟨a, -, h⟩ := Finset.exists_mem_eq_sup' Finset.univ_nonempty f
  exact ⟨a, h.symm⟩

/-- The right side of Bellman's equation -/
noncomputable def bellman (e : Env n m) (g : ℝ) (t : Fin n → Fin (m + 1) → ℝ) (s : Fin n) (a : Fin (m + 1)) : ℝ :=
  e.reward s a + if e.ends s a then 0 else g * top (t (e.next s a))

/-- The environment with scaled rewards -/
def _root_.Verif.Dqn.Spec.Env.scale (c : ℝ) (e : Env n m) : Env n m := { e with reward := fun s a => c * e.reward s a }

/-- The batch of pairs of observation and action -/
noncomputable def samples (e : Env n m) (l : List (Fin n × Fin (m + 1))) : List (Sample ℝ) :=
  l.map fun x => ⟨x.1.val, (x.2.val : ℝ), e.reward x.1 x.2, if e.ends x.1 x.2 then 0 else 1, (e.next x.1 x.2).val⟩

theorem flatMap_one {α β : Type} (f : α → β) (l : List α) : (l.flatMap fun x => [f x]) = l.map f := by
  induction l with
  | nil => rfl
  | cons x l ih => simp [ih]

theorem allRets_one (g : ℝ) (l : List (ℝ × ℝ)) :
    Returns.allRets g (l.map fun x => ([x.1], x.2)) = l.map fun x => x.1 + g * x.2 := by
  induction l with
  | nil => rfl
  | cons x l ih => simp [Returns.allRets, Returns.rets, Returns.ret, ih]

theorem targets_rows {ρ : Type} (g scale : ℝ) (t : Fin n → Fin (m + 1) → ℝ) (l : List ρ) (row : ρ → Sample ℝ) (next : ρ → Fin n)
    (ends : ρ → Bool) (hn : ∀ x, (row x).next = (next x).val) (hd : ∀ x, (row x).mask = if ends x then 0 else 1) :
    targets g scale (table t) (l.map row) =
      .ok (l.map fun x => scale * (row x).reward + if ends x then 0 else g * top (t (next x))) := by
  have he := eval_table t (l.map next)
  simp only [List.map_map, Function.comp_def] at he
  have hm : (l.map row).map Sample.next = l.map fun x => (next x).val := by simp [hn]
  let roll : ρ → Returns.QRoll ℝ := fun x => ⟨[(row x).reward], [], if ends x then 0 else 1,
    t (next x) 0, List.ofFn fun i : Fin m => t (next x) i.succ⟩
  obtain ⟨best, h1, h2⟩ := Returns.C63_dqn g scale 1 (l.map roll) (by decide)
    (fun r hr => by obtain ⟨x, -, rfl⟩ := List.mem_map.1 hr; rfl) (fun r hr => by obtain ⟨x, -, rfl⟩ := List.mem_map.1 hr; rfl)
    (by
      intro r hr
      obtain ⟨x, -, rfl⟩ := List.mem_map.1 hr
      by_cases h : ends x <;> simp [roll, h])
  have hb : ∀ x ∈ l, best (roll x) = top (t (next x)) := by
    intro x hx
    obtain ⟨k1, k2⟩ := h1 (roll x) (List.mem_map.2 ⟨x, hx, rfl⟩)
    have hf : (roll x).first :: (roll x).others = List.ofFn (t (next x)) := by simp [roll, List.ofFn_succ]
    rw [hf] at k1 k2
    apply le_antisymm
    · obtain ⟨a, ha⟩ := (List.mem_ofFn' _ _).1 k1
      rw [← ha]
      exact le_top _ a
    · obtain ⟨a, ha⟩ := exists_top (t (next x))
      rw [← ha]
      exact k2 _ ((List.mem_ofFn' _ _).2 ⟨a, rfl⟩)
  simp only [targets, hm, he]
  have r1 : ((l.map roll).map fun r => r.first :: r.others) = l.map fun x => List.ofFn (t (next x)) := by
    simp [roll, List.ofFn_succ]
  have r2 : (l.map roll).flatMap Returns.QRoll.rewards = (l.map row).map Sample.reward := by
    simp only [List.flatMap_map, List.map_map]
    exact flatMap_one _ _
  have r3 : ((l.map roll).flatMap fun r => r.masks ++ [r.lastMask]) = (l.map row).map Sample.mask := by
    simp only [List.flatMap_map, List.map_map]
    rw [show (Sample.mask ∘ row) = fun x => if ends x then (0 : ℝ) else 1 from funext hd]
    exact flatMap_one _ _
  rw [r1, r2, r3] at h2
  rw [h2]
  congr 1
  have := allRets_one g (l.map fun x => (scale * (row x).reward, if ends x then 0 else top (t (next x))))
  simp only [List.map_map, Function.comp_def] at this ⊢
  rw [← (List.map_congr_left (g := fun x => ((roll x).rewards.map (scale * ·),
    if (roll x).lastMask = 0 then 0 else best (roll x))) (l := l) (f := fun x => ([scale * (row x).reward],
      if ends x then 0 else top (t (next x)))) ?_), this]
  · apply List.map_congr_left
    intro x _
    by_cases h : ends x <;> simp [h]
  · intro x hx
    rw [hb x hx]
    by_cases h : ends x <;> simp [roll, h]

theorem targets_ok (e : Env n m) (g scale : ℝ) (t : Fin n → Fin (m + 1) → ℝ) (l : List (Fin n × Fin (m + 1))) :
    targets g scale (table t) (samples e l) = .ok (l.map fun x => bellman (e.scale scale) g t x.1 x.2) :=
  targets_rows g scale t l _ (fun x => e.next x.1 x.2) (fun x => e.ends x.1 x.2) (fun _ => rfl) (fun _ => rfl)

theorem samples_of {e : Env n m} {b : List (Sample ℝ)} (h : Complete e b) :
    ∃ l : List (Fin n × Fin (m + 1)), b = samples e l ∧ ∀ x, x ∈ l := by
  have : ∃ l : List (Fin n × Fin (m + 1)), b = samples e l := by
    have hr := h.real
    clear h
    induction b with
    | nil => exact ⟨[], rfl⟩
    | cons x b ih =>
      obtain ⟨s, a, h1⟩ := hr x (by simp)
      obtain ⟨l, h2⟩ := ih fun y hy => hr y (List.mem_cons_of_mem _ hy)
      exact ⟨(s, a) :: l, by rw [h1, h2]; rfl⟩
  obtain ⟨l, rfl⟩ := this
  refine ⟨l, rfl, fun x => ?_⟩
  obtain ⟨y, hy, h1, h2⟩ := h.all x.1 x.2
  obtain ⟨z, hz, rfl⟩ := List.mem_map.1 hy
  have : z = x := by
    apply Prod.ext
    · exact Fin.ext h1
    · exact Fin.ext (Nat.cast_injective (R := ℝ) h2)
  rwa [← this]

/-- A round moves the target network towards the right side of Bellman's equation. -/
theorem round_eq {e : Env n m} {g scale tau : ℝ} {b : List (Sample ℝ)} {t t' : Fin n → Fin (m + 1) → ℝ}
    (hb : Complete e b) (h : Round g scale tau b t t') :
    t' = fun s a => t s a * (1 - tau) + bellman (e.scale scale) g t s a * tau := by
  obtain ⟨l, rfl, hl⟩ := samples_of hb
  obtain ⟨ts, q, h1, h2, h3⟩ := h.ok
  rw [targets_ok] at h1
  injection h1 with h1
  subst h1
  have hq : q = bellman (e.scale scale) g t := by
    have ho : (samples e l).map Sample.obs = (l.map Prod.fst).map Fin.val := by simp [samples]
    have ha : (samples e l).map Sample.action = l.map fun x => ((x.2.val : ℕ) : ℝ) := by simp [samples]
    simp only [batchLoss, ho, eval_table, ha] at h2
    simp only [List.map_map, Function.comp_def] at h2
    have := C115_zero (l.map fun x => (List.ofFn (q x.1), x.2.val, q x.1 x.2, bellman (e.scale scale) g t x.1 x.2))
      (fun y hy => by
        obtain ⟨x, -, rfl⟩ := List.mem_map.1 hy
        rw [List.getElem?_ofFn]
        simp [Nat.lt_succ_iff.1 x.2.isLt])
    simp only [List.map_map, Function.comp_def] at this
    have := this.1 h2
    funext s a
    exact this (_, _, _, _) (List.mem_map.2 ⟨(s, a), hl _, rfl⟩)
  subst hq
  simp only [DqnNets.endBatch, softUpdate_table] at h3
  exact table_inj h3

/-! ## The optimal values -/

theorem top_close (f f' : Fin (m + 1) → ℝ) (c : ℝ) (h : ∀ a, |f a - f' a| ≤ c) : |top f - top f'| ≤ c := by
  obtain ⟨a, ha⟩ := exists_top f
  obtain ⟨b, hb⟩ := exists_top f'
  have h1 := abs_le.1 (h a)
  have h2 := abs_le.1 (h b)
  have h3 := le_top f b
  have h4 := le_top f' a
  rw [abs_le]
  constructor <;> linarith

theorem bellman_close (e : Env n m) {g : ℝ} (hg : 0 ≤ g) (t u : Fin n → Fin (m + 1) → ℝ) (c : ℝ) (hc : 0 ≤ c)
    (h : ∀ s a, |t s a - u s a| ≤ c) (s : Fin n) (a : Fin (m + 1)) : |bellman e g t s a - bellman e g u s a| ≤ g * c := by
  unfold bellman
  by_cases he : e.ends s a
  · simp only [he, if_true]
    rw [sub_self, abs_zero]
    positivity
  · simp only [he]
    have := top_close (t (e.next s a)) (u (e.next s a)) c (h _)
    calc |e.reward s a + g * top (t (e.next s a)) - (e.reward s a + g * top (u (e.next s a)))|
        = g * |top (t (e.next s a)) - top (u (e.next s a))| := by
          rw [show e.reward s a + g * top (t (e.next s a)) - (e.reward s a + g * top (u (e.next s a))) =
            g * (top (t (e.next s a)) - top (u (e.next s a))) by ring, abs_mul, abs_of_nonneg hg]
      _ ≤ g * c := by gcongr

theorem exists_fixed (e : Env n m) {g : ℝ} (hg : 0 ≤ g) (hg1 : g < 1) : ∃ q, bellman e g q = q := by
  have : ContractingWith ⟨g, hg⟩ (bellman e g) := by
    refine ⟨by exact_mod_cast hg1, LipschitzWith.of_dist_le_mul fun t u => ?_⟩
    rw [dist_pi_le_iff (by positivity)]
    intro s
    rw [dist_pi_le_iff (by positivity)]
    intro a
    rw [Real.dist_eq]
    refine bellman_close e hg t u _ dist_nonneg (fun s a => ?_) s a
    rw [← Real.dist_eq]
    exact (dist_le_pi_dist (t s) (u s) a).trans (dist_le_pi_dist t u s)
  exact ⟨_, this.fixedPoint_isFixedPt⟩

theorem exists_bound (f : Fin n → Fin (m + 1) → ℝ) : ∃ c, 0 ≤ c ∧ ∀ s a, |f s a| ≤ c := by
  refine ⟨∑ s, ∑ a, |f s a|, Finset.sum_nonneg fun _ _ => Finset.sum_nonneg fun _ _ => abs_nonneg _, fun s a => ?_⟩
  calc |f s a| ≤ ∑ a, |f s a| := Finset.single_le_sum (f := fun a => |f s a|) (fun _ _ => abs_nonneg _) (Finset.mem_univ a)
    _ ≤ _ := Finset.single_le_sum (f := fun s => ∑ a, |f s a|) (fun _ _ => Finset.sum_nonneg fun _ _ => abs_nonneg _) (Finset.mem_univ s)

theorem sum_le (e : Env n m) {g : ℝ} (hg : 0 ≤ g) {q : Fin n → Fin (m + 1) → ℝ} (hq : bellman e g q = q) {c : ℝ}
    (hc : 0 ≤ c) (hb : ∀ s a, |q s a| ≤ c) (k : Nat) (s : Fin n) (a : Fin (m + 1)) (p : Nat → Fin (m + 1)) :
    sum e g k s a p ≤ q s a + g ^ k * c := by
  induction k generalizing s a p with
  | zero => have := (abs_le.1 (hb s a)).1; simp only [sum, pow_zero]; linarith
  | succ k ih =>
    have hs : q s a = bellman e g q s a := by rw [hq]
    rw [hs]
    unfold bellman
    simp only [sum]
    by_cases he : e.ends s a
    · simp only [he, if_true]
      have : 0 ≤ g ^ (k + 1) * c := by positivity
      linarith
    · simp only [he]
      have h1 := ih (e.next s a) (p 0) fun i => p (i + 1)
      have h2 := le_top (q (e.next s a)) (p 0)
      have h3 : g * sum e g k (e.next s a) (p 0) (fun i => p (i + 1)) ≤ g * (top (q (e.next s a)) + g ^ k * c) := by
        gcongr
        linarith
      calc _ ≤ e.reward s a + g * (top (q (e.next s a)) + g ^ k * c) := by simpa using h3
        _ = _ := by simp; ring

/-- The observations when the actions are chosen by `f` -/
def walk (e : Env n m) (f : Fin n → Fin (m + 1)) (s : Fin n) : Nat → Fin n
  | 0 => s
  | k + 1 => walk e f (e.next s (f s)) k

theorem sum_greedy (e : Env n m) {g : ℝ} (hg : 0 ≤ g) {q : Fin n → Fin (m + 1) → ℝ} (hq : bellman e g q = q) {c : ℝ}
    (hc : 0 ≤ c) (hb : ∀ s a, |q s a| ≤ c) {f : Fin n → Fin (m + 1)} (hf : ∀ s, q s (f s) = top (q s)) (k : Nat) (s : Fin n)
    (a : Fin (m + 1)) : q s a - g ^ k * c ≤ sum e g k s a fun i => f (walk e f (e.next s a) i) := by
  induction k generalizing s a with
  | zero => have := (abs_le.1 (hb s a)).2; simp only [sum, pow_zero]; linarith
  | succ k ih =>
    have hs : q s a = bellman e g q s a := by rw [hq]
    rw [hs]
    unfold bellman
    simp only [sum]
    by_cases he : e.ends s a
    · simp only [he, if_true]
      have : 0 ≤ g ^ (k + 1) * c := by positivity
      linarith
    · simp only [he]
      have h1 := ih (e.next s a) (f (e.next s a))
      rw [hf] at h1
      have h3 : g * (top (q (e.next s a)) - g ^ k * c) ≤
          g * sum e g k (e.next s a) (f (e.next s a)) fun i => f (walk e f (e.next (e.next s a) (f (e.next s a))) i) := by
        gcongr
      have h4 : e.reward s a + g * top (q (e.next s a)) - g ^ (k + 1) * c =
          e.reward s a + g * (top (q (e.next s a)) - g ^ k * c) := by ring
      simp only [walk, Bool.false_eq_true, if_false]
      rw [h4]
      linarith

theorem sum_cauchy (e : Env n m) {g : ℝ} (hg : 0 ≤ g) {c : ℝ} (hb : ∀ s a, |e.reward s a| ≤ c) (k : Nat)
    (s : Fin n) (a : Fin (m + 1)) (p : Nat → Fin (m + 1)) : |sum e g (k + 1) s a p - sum e g k s a p| ≤ c * g ^ k := by
  have hc : 0 ≤ c := (abs_nonneg _).trans (hb s a)
  induction k generalizing s a p with
  | zero => by_cases he : e.ends s a <;> simpa [sum, he] using hb s a
  | succ k ih =>
    rw [show sum e g (k + 1 + 1) s a p = e.reward s a + if e.ends s a then 0 else
      g * sum e g (k + 1) (e.next s a) (p 0) fun i => p (i + 1) from rfl, show sum e g (k + 1) s a p = e.reward s a + if e.ends s a then 0 else
      g * sum e g k (e.next s a) (p 0) fun i => p (i + 1) from rfl]
    by_cases he : e.ends s a
    · simp only [he, if_true]
      rw [sub_self, abs_zero]
      positivity
    · simp only [he, Bool.false_eq_true, if_false]
      have := ih (e.next s a) (p 0) fun i => p (i + 1)
      rw [show ∀ r x y : ℝ, r + g * x - (r + g * y) = g * (x - y) by intros; ring, abs_mul, abs_of_nonneg hg]
      calc _ ≤ g * (c * g ^ k) := by gcongr
        _ = _ := by ring

theorem sum_converges (e : Env n m) {g : ℝ} (hg : 0 ≤ g) (hg1 : g < 1) (s : Fin n) (a : Fin (m + 1))
    (p : Nat → Fin (m + 1)) : ∃ y, Return e g s a p y := by
  obtain ⟨c, hc, hb⟩ := exists_bound e.reward
  refine cauchySeq_tendsto_of_complete (cauchySeq_of_le_geometric g c hg1 fun k => ?_)
  rw [dist_comm, Real.dist_eq]
  exact sum_cauchy e hg hb k s a p

/-- A solution of Bellman's equation has the best returns. -/
theorem fixed_best (e : Env n m) {g : ℝ} (hg : 0 ≤ g) (hg1 : g < 1) {q : Fin n → Fin (m + 1) → ℝ} (hq : bellman e g q = q)
    (s : Fin n) (a : Fin (m + 1)) : Best e g s a (q s a) := by
  obtain ⟨c, hc, hb⟩ := exists_bound q
  have hz : Tendsto (fun k => g ^ k * c) atTop (𝓝 0) := by
    simpa using (tendsto_pow_atTop_nhds_zero_of_lt_one hg hg1).mul_const c
  choose f hf using fun s => exists_top (q s)
  refine ⟨⟨fun i => f (walk e f (e.next s a) i), ?_⟩, fun p => ?_⟩
  · refine tendsto_of_tendsto_of_tendsto_of_le_of_le (g := fun k => q s a - g ^ k * c) (h := fun k => q s a + g ^ k * c) ?_ ?_
      (fun k => sum_greedy e hg hq hc hb hf k s a) (fun k => sum_le e hg hq hc hb k s a _)
    · simpa using hz.const_sub (q s a)
    · simpa using hz.const_add (q s a)
  · obtain ⟨y, hy⟩ := sum_converges e hg hg1 s a p
    refine ⟨y, hy, ?_⟩
    have := hz.const_add (q s a)
    rw [add_zero] at this
    exact le_of_tendsto_of_tendsto' hy this fun k => sum_le e hg hq hc hb k s a p

theorem best_unique (e : Env n m) {g : ℝ} {s : Fin n} {a : Fin (m + 1)} {x y : ℝ} (hx : Best e g s a x)
    (hy : Best e g s a y) : x = y := by
  obtain ⟨⟨p, hp⟩, hx2⟩ := hx
  obtain ⟨⟨p', hp'⟩, hy2⟩ := hy
  obtain ⟨z, hz, h1⟩ := hy2 p
  obtain ⟨z', hz', h2⟩ := hx2 p'
  have e1 := tendsto_nhds_unique hz hp
  have e2 := tendsto_nhds_unique hz' hp'
  linarith

/-! ## C116 -/

/-- **C116.** In every deterministic environment there are best returns for each observation and action, and whatever
the complete batches are and wherever the target network begins, its distance from them shrinks each time by the factor
`1 - tau (1 - gamma)`. -/
theorem C116_converges (e : Env n m) {g tau : ℝ} (scale : ℝ) (hg : 0 ≤ g) (hg1 : g < 1) (ht : 0 ≤ tau) (ht1 : tau ≤ 1)
    (t0 : Fin n → Fin (m + 1) → ℝ) :
    ∃ best : Fin n → Fin (m + 1) → ℝ, (∀ s a, Best (e.scale scale) g s a (best s a)) ∧
      ∀ c, (∀ s a, |t0 s a - best s a| ≤ c) → ∀ k t, Rounds e g scale tau t0 k t →
        ∀ s a, |t s a - best s a| ≤ (1 - tau * (1 - g)) ^ k * c := by
  obtain ⟨q, hq⟩ := exists_fixed (e.scale scale) hg hg1
  refine ⟨q, fun s a => fixed_best _ hg hg1 hq s a, fun c hc k t hr => ?_⟩
  induction hr with
  | zero => simpa using hc
  | @succ k t t' b _ hb hround ih =>
    intro s a
    have hc0 : 0 ≤ c := (abs_nonneg _).trans (hc s a)
    have hf0 : 0 ≤ 1 - tau * (1 - g) := by nlinarith
    rw [round_eq hb hround]
    have hs : q s a = bellman (e.scale scale) g q s a := by rw [hq]
    have h1 := bellman_close (e.scale scale) hg t q _ (by positivity) ih s a
    rw [← hs] at h1
    calc |t s a * (1 - tau) + bellman (e.scale scale) g t s a * tau - q s a|
        = |(t s a - q s a) * (1 - tau) + (bellman (e.scale scale) g t s a - q s a) * tau| := by congr 1; ring
      _ ≤ |t s a - q s a| * (1 - tau) + |bellman (e.scale scale) g t s a - q s a| * tau := by
        refine (abs_add_le _ _).trans ?_
        rw [abs_mul, abs_mul, abs_of_nonneg ht, abs_of_nonneg (sub_nonneg.2 ht1)]
      _ ≤ (1 - tau * (1 - g)) ^ k * c * (1 - tau) + g * ((1 - tau * (1 - g)) ^ k * c) * tau := by
        have h2 : 0 ≤ 1 - tau := by linarith
        gcongr
        exact ih s a
      _ = _ := by ring

/-- **C116.** After enough batches, an action that looks best is best. -/
theorem C116_greedy (e : Env n m) {g tau : ℝ} (scale : ℝ) (hg : 0 ≤ g) (hg1 : g < 1) (ht : 0 < tau) (ht1 : tau ≤ 1)
    (t0 : Fin n → Fin (m + 1) → ℝ) :
    ∃ K, ∀ k, K ≤ k → ∀ t, Rounds e g scale tau t0 k t → ∀ s a, (∀ a', t s a' ≤ t s a) →
      ∀ x, Best (e.scale scale) g s a x → ∀ a' x', Best (e.scale scale) g s a' x' → x' ≤ x := by
  obtain ⟨best, h1, h2⟩ := C116_converges e scale hg hg1 ht.le ht1 t0
  obtain ⟨c, hc, hb⟩ := exists_bound fun s a => t0 s a - best s a
  have h2 := h2 c hb
  have hf0 : 0 ≤ 1 - tau * (1 - g) := by nlinarith
  have hf1 : 1 - tau * (1 - g) < 1 := by nlinarith
  have hz : Tendsto (fun k => (1 - tau * (1 - g)) ^ k * c) atTop (𝓝 0) := by
    simpa using (tendsto_pow_atTop_nhds_zero_of_lt_one hf0 hf1).mul_const c
  have : ∀ᶠ k in atTop, ∀ s a a', best s a < best s a' → (1 - tau * (1 - g)) ^ k * c < (best s a' - best s a) / 2 := by
    rw [eventually_all]; intro s
    rw [eventually_all]; intro a
    rw [eventually_all]; intro a'
    by_cases h : best s a < best s a'
    · filter_upwards [hz.eventually_lt_const (show (0 : ℝ) < (best s a' - best s a) / 2 by linarith)] with k hk _ using hk
    · exact Eventually.of_forall fun _ h' => absurd h' h
  obtain ⟨K, hK⟩ := eventually_atTop.1 this
  refine ⟨K, fun k hk t hr s a hmax x hx a' x' hx' => ?_⟩
  rw [best_unique _ hx (h1 s a), best_unique _ hx' (h1 s a')]
  by_contra hlt
  push Not at hlt
  have h3 := hK k hk s a a' hlt
  have h4 := abs_le.1 (h2 k t hr s a)
  have h5 := abs_le.1 (h2 k t hr s a')
  have h6 := hmax a'
  linarith

/-! ### A case: two observations; action 1 leads from the first to the second, and ends the episode there with reward 1 -/

namespace Ex

def env : Env 2 1 where
  next s a := if a = 1 then 1 else s
  reward s a := if s = 1 ∧ a = 1 then 1 else 0
  ends s a := decide (s = 1 ∧ a = 1)

/-- the best returns for gamma 1/2 -/
noncomputable def best (s : Fin 2) (a : Fin 2) : ℝ := if s = 0 then (if a = 0 then 1 / 4 else 1 / 2) else (if a = 0 then 1 / 2 else 1)

theorem top_two (f : Fin 2 → ℝ) : top f = max (f 0) (f 1) := by
  apply le_antisymm
  · obtain ⟨a, ha⟩ := exists_top f
    rw [← ha]
    fin_cases a
    · exact le_max_left _ _
    · exact le_max_right _ _
  · exact max_le (le_top f 0) (le_top f 1)

theorem fixed : bellman env (1 / 2) best = best := by
  funext s a
  fin_cases s <;> fin_cases a <;> simp [bellman, env, top_two, best] <;> norm_num

noncomputable def batch : List (Sample ℝ) := samples env [(0, 0), (0, 1), (1, 0), (1, 1)]

theorem complete : Complete env batch := by
  refine ⟨fun x hx => ?_, fun s a => ?_⟩
  · obtain ⟨y, -, rfl⟩ := List.mem_map.1 hx
    exact ⟨y.1, y.2, rfl⟩
  · refine ⟨_, List.mem_map.2 ⟨(s, a), ?_, rfl⟩, rfl, rfl⟩
    fin_cases s <;> fin_cases a <;> simp

/-- a round exists from every table -/
theorem round (t : Fin 2 → Fin 2 → ℝ) : ∃ t', Round (1 / 2) 1 (1 / 4) batch t t' := by
  refine ⟨fun s a => t s a * (1 - 1 / 4) + bellman (env.scale 1) (1 / 2) t s a * (1 / 4), ⟨_, bellman (env.scale 1) (1 / 2) t,
    targets_ok env (1 / 2) 1 t _, ?_, (softUpdate_table _ _ _).symm⟩⟩
  have := C115_zero ([(0, 0), (0, 1), (1, 0), (1, 1)].map fun x : Fin 2 × Fin 2 => (List.ofFn (bellman (env.scale 1) (1 / 2) t x.1), x.2.val,
    bellman (env.scale 1) (1 / 2) t x.1 x.2, bellman (env.scale 1) (1 / 2) t x.1 x.2)) (fun y hy => by
      obtain ⟨x, -, rfl⟩ := List.mem_map.1 hy
      rw [List.getElem?_ofFn]
      simp [Nat.lt_succ_iff.1 x.2.isLt])
  have := this.2 (fun y hy => by obtain ⟨x, -, rfl⟩ := List.mem_map.1 hy; rfl)
  simp only [List.map_map, Function.comp_def] at this
  have ho : batch.map Sample.obs = ([(0, 0), (0, 1), (1, 0), (1, 1)].map fun x : Fin 2 × Fin 2 => x.1).map Fin.val := by simp [batch, samples]
  have ha : batch.map Sample.action = [(0, 0), (0, 1), (1, 0), (1, 1)].map fun x : Fin 2 × Fin 2 => ((x.2.val : ℕ) : ℝ) := by simp [batch, samples]
  simp only [batchLoss, ho, eval_table, ha]
  rw [List.map_map]
  exact this

end Ex

/-- The best return from the first observation with action 0 is 1/4, with action 1 it is 1/2. -/
example : Best Ex.env (1 / 2) 0 0 (1 / 4) ∧ Best Ex.env (1 / 2) 0 1 (1 / 2) :=
  ⟨by simpa [Ex.best] using fixed_best Ex.env (g := 1 / 2) (by norm_num) (by norm_num) Ex.fixed 0 0,
   by simpa [Ex.best] using fixed_best Ex.env (g := 1 / 2) (by norm_num) (by norm_num) Ex.fixed 0 1⟩

/-- There are rounds of any number. -/
example (k : Nat) : ∃ t, Rounds Ex.env (1 / 2) 1 (1 / 4) (fun _ _ => 0) k t := by
  induction k with
  | zero => exact ⟨_, .zero⟩
  | succ k ih =>
    obtain ⟨t, ht⟩ := ih
    obtain ⟨t', ht'⟩ := Ex.round t
    exact ⟨t', .succ ht Ex.complete ht'⟩

example : loss [[1, 2, 3], [4, 5, 6]] [2, 0] [(3 : ℚ), 2] = .ok 2 := by decide +kernel
example : loss [[1, 2, 3], [4, 5, 6]] [2, 3] [(3 : ℚ), 2] = .error .runtimeError := by decide +kernel

end Dqn

end Verif
