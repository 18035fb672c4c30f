import Verif.Model.DynLoss
import Verif.Props.Dynamics
import Mathlib.Algebra.BigOperators.Fin

/-!
# What the loss of a dynamics model says about its predictions (C161)
-/

namespace Verif

namespace Dyn

/-! ## Specification -/

/-- What happened: the next observation and the reward. -/
def Spec.truth (learned : Bool) (t : Transition d α) : Target d learned → ℝ := Sum.elim t.next fun _ => t.reward

/-- The model predicts these finite numbers for the observation and the action of a transition. -/
def Spec.Predicts (m : Model d α ο learned) (net : Row (ο ⊕ α) Num → Row (Target d learned) Num) (t : Transition d α)
    (p : Target d learned → ℝ) : Prop :=
  m.sample net t.action t.obs = .ok (fun i => some (p (.inl i)), fun i => some (p (.inr i)))

/-! ## Lemmas -/

theorem Num.sum_some (rs : List ℝ) : Num.sum (rs.map some) = some rs.sum := by
  unfold Num.sum
  induction rs with
  | nil => rfl
  | cons r rs ih => simp only [List.map_cons, List.foldr_cons, ih, List.sum_cons]; rfl

theorem Num.sum_none (xs : List Num) (h : none ∈ xs) : Num.sum xs = none := by
  unfold Num.sum
  induction xs with
  | nil => simp at h
  | cons x xs ih =>
    rw [List.foldr_cons]
    rcases List.mem_cons.mp h with rfl | h
    · rfl
    · rw [ih h]
      cases x <;> rfl

theorem mem_columns (j : Target d learned) : j ∈ Target.columns d learned := by
  unfold Target.columns
  rcases j with i | i <;> simp

theorem length_columns : (Target.columns d learned).length = Fintype.card (Target d learned) := by
  simp [Target.columns]

theorem sum_columns (f : Target d learned → ℝ) : ((Target.columns d learned).map f).sum = ∑ j, f j := by
  unfold Target.columns
  rw [List.map_append, List.sum_append, Fintype.sum_sum_type, List.map_map, List.map_map, Fin.sum_univ_def, Fin.sum_univ_def]
  rfl

/-- the squared differences of finite numbers -/
theorem squares_some {n : Nat} (ps ys : List (Row (Target d learned) Num)) (hp : ps.length = n) (hy : ys.length = n)
    (v w : Fin n → Target d learned → ℝ) (hv : ∀ k : Fin n, ps[k]? = some fun j => some (v k j))
    (hw : ∀ k : Fin n, ys[k]? = some fun j => some (w k j)) :
    mse ps ys = if n * Fintype.card (Target d learned) = 0 then none else
      some ((∑ k, ∑ j, (v k j - w k j) ^ 2) / (n * Fintype.card (Target d learned))) := by
  have e : squares ps ys = (List.ofFn fun k => (Target.columns d learned).map fun j => (v k j - w k j) ^ 2).flatten.map some := by
    unfold squares
    rw [List.map_flatten]
    congr 1
    apply List.ext_getElem
    · simp [hp, hy]
    · intro k h1 h2
      have hk : k < n := by simpa using h2
      have e1 := hv ⟨k, hk⟩
      have e2 := hw ⟨k, hk⟩
      rw [Fin.getElem?_fin, List.getElem?_eq_some_iff] at e1 e2
      obtain ⟨_, e1⟩ := e1
      obtain ⟨_, e2⟩ := e2
      simp only at e1 e2
      simp only [List.getElem_zipWith, e1, e2, List.getElem_map, List.getElem_ofFn, List.map_map]
      apply List.map_congr_left
      intro j _
      simp only [Num.mul, Num.sub, Num.map₂, Function.comp, Option.some.injEq]
      ring
  have hl : (squares ps ys).length = n * Fintype.card (Target d learned) := by
    rw [e, List.length_map, List.length_flatten, List.map_ofFn, List.sum_ofFn]
    simp [length_columns]
  unfold mse
  rw [hl, e, Num.sum_some, List.sum_flatten, List.map_ofFn, List.sum_ofFn]
  simp only [Num.div, Function.comp, sum_columns]
  by_cases h0 : n * Fintype.card (Target d learned) = 0
  · rw [if_pos h0, if_pos (by exact_mod_cast h0)]
  · rw [if_neg h0, if_neg (by exact_mod_cast h0)]
    push_cast
    rfl

theorem mse_none (ps ys : List (Row (Target d learned) Num)) (k : Nat) (p y : Row (Target d learned) Num) (hp : ps[k]? = some p)
    (hy : ys[k]? = some y) (j : Target d learned) (h : p j = none) : mse ps ys = none := by
  have : none ∈ squares ps ys := by
    unfold squares
    rw [List.mem_flatten]
    refine ⟨(Target.columns d learned).map fun j => Num.mul (Num.sub (p j) (y j)) (Num.sub (p j) (y j)),
      List.mem_iff_getElem?.mpr ⟨k, ?_⟩, List.mem_map.mpr ⟨j, mem_columns j, ?_⟩⟩
    · rw [List.getElem?_zipWith, hp, hy]
    · simp only [h]; rfl
  unfold mse
  rw [Num.sum_none _ this]
  rfl

/-- what the network sees and is to predict, and what its predictions mean, for a row of a batch -/
theorem row_of_batch (m : Model d α ο learned) (hm : m.Healthy) (batch : List (Transition d α)) (hb : 2 ≤ batch.length)
    (m' : Model d α ο learned) (xs : List (Row (ο ⊕ α) Num)) (ys : List (Row (Target d learned) Num))
    (hp : m.processBatch batch = .ok (m', xs, ys)) :
    ∃ μ σ : Target d learned → ℝ, m'.target.stats = some (fun j => some (μ j), fun j => some (σ j)) ∧ (∀ j, 1 / 10 ^ 5 ≤ σ j) ∧
      xs.length = batch.length ∧ ys.length = batch.length ∧
      ∀ (k : Nat) t, batch[k]? = some t → ∃ (x : Row (ο ⊕ α) Num) (w : Target d learned → ℝ) (c : Target d learned → ℝ),
        xs[k]? = some x ∧ ys[k]? = some (fun j => some (w j)) ∧ (∀ j, σ j * w j + μ j + c j = Spec.truth learned t j) ∧
        ∀ net : Row (ο ⊕ α) Num → Row (Target d learned) Num, ∃ q, m'.sample net t.action t.obs = .ok q ∧
          ∀ j, Sum.elim q.1 q.2 j = (net x j).map fun v => σ j * v + μ j + c j := by
  have hv : Spec.valid d m.noDelta := by
    by_contra hv
    cases batch with
    | nil => simp at hb
    | cons t ts => simp [Model.processBatch, targetObs, override_error _ _ _ hv] at hp
  obtain ⟨rs, h1, h2, h3⟩ := targetObs_ok m.noDelta batch hv
  simp only [Model.processBatch, h1, Except.ok.injEq, Prod.mk.injEq] at hp
  obtain ⟨rfl, rfl, rfl⟩ := hp
  have hh := healthy_update m.target hm.2
    (List.zipWith (fun o (t : Transition d α) => (Sum.elim o (fun _ => t.reward) : Row (Target d learned) ℝ)) rs batch)
    (by simp [h2]; omega)
  obtain ⟨μ, σ, hst, hσ⟩ : ∃ μ σ : Target d learned → ℝ, (m.target.update (List.zipWith (fun o (t : Transition d α) =>
      (Sum.elim o (fun _ => t.reward) : Row (Target d learned) ℝ)) rs batch)).stats = some (fun j => some (μ j), fun j => some (σ j)) ∧
      ∀ j, 1 / 10 ^ 5 ≤ σ j := by
    obtain ⟨⟨a, b⟩, hs⟩ : ∃ p, (m.target.update (List.zipWith (fun o (t : Transition d α) =>
      (Sum.elim o (fun _ => t.reward) : Row (Target d learned) ℝ)) rs batch)).stats = some p := ⟨_, rfl⟩
    have := hh a b hs
    choose μ hμ using fun j => (this j).1
    choose σ hσ hσ' using fun j => (this j).2
    refine ⟨μ, σ, ?_, hσ'⟩
    rw [hs, show a = fun j => some (μ j) from funext hμ, show b = fun j => some (σ j) from funext hσ]
  generalize htn : m.target.update (List.zipWith (fun o (t : Transition d α) =>
      (Sum.elim o (fun _ => t.reward) : Row (Target d learned) ℝ)) rs batch) = tn at *
  have hσ0 : ∀ j, σ j ≠ 0 := fun j => (lt_of_lt_of_le (by norm_num) (hσ j)).ne'
  refine ⟨μ, σ, hst, hσ, by simp, by simp [h2], fun k t ht => ?_⟩
  have hk : k < rs.length := by rw [h2]; exact (List.getElem?_eq_some_iff.mp ht).1
  have hr : rs[k]? = some rs[k] := List.getElem?_eq_getElem hk
  obtain h3 := h3 k t _ ht hr
  classical
  refine ⟨(m.input.update (batch.map fun t => m.modelInput t.obs t.action)).normalize fun i => some (m.modelInput t.obs t.action i),
    fun j => (Sum.elim rs[k] (fun _ => t.reward) j - μ j) / σ j,
    Sum.elim (fun i => if Spec.listed d m.noDelta i then 0 else t.obs i) fun _ => 0,
    by simp only [List.getElem?_map, ht, Option.map_some], ?_, ?_, fun net => ?_⟩
  · simp only [List.getElem?_map, List.getElem?_zipWith, hr, ht, Option.map_some, Option.some.injEq]
    funext j
    simp only [Normalizer.normalize, hst, Num.div, Num.sub, Num.map₂, if_neg (hσ0 j)]
  · intro j
    rw [mul_div_cancel₀ _ (hσ0 j)]
    rcases j with i | i
    · by_cases hi : Spec.listed d m.noDelta i
      · simp [Spec.truth, (h3 i).1 hi, hi]
      · simp [Spec.truth, (h3 i).2 hi, hi]
    · simp [Spec.truth]
  · simp only [Model.sample]
    have hmi : ∀ (a : Normalizer (ο ⊕ α)) (b : Normalizer (Target d learned)) o c,
      Model.modelInput ({ m with input := a, target := b } : Model d α ο learned) o c = m.modelInput o c := fun _ _ _ _ => rfl
    simp only [hmi]
    generalize net _ = z
    generalize hdn : Normalizer.denormalize _ z = p
    have hpj : ∀ j, p j = (z j).map fun v => σ j * v + μ j := by
      intro j
      rw [← hdn]
      simp only [Normalizer.denormalize, hst, Num.add, Num.mul]
      cases z j <;> rfl
    obtain ⟨y, hy, hy'⟩ := override_ok m.noDelta (fun i => Num.add (p (.inl i)) (some (t.obs i))) (fun i => p (.inl i)) hv
    rw [hy]
    refine ⟨_, rfl, fun j => ?_⟩
    rcases j with i | i
    · by_cases hi : Spec.listed d m.noDelta i
      · simp only [Sum.elim_inl, (hy' i).1 hi, hpj, hi, if_true, add_zero]
      · simp only [Sum.elim_inl, (hy' i).2 hi, hpj, hi, if_false]
        cases z (.inl i) <;> rfl
    · simp only [Sum.elim_inr, hpj, add_zero]

/-! ## C161 -/

/-- **C161**. For a network that treats each row for itself, and batches of two rows or more, on whatever the normalisers were
trained before: the loss is the mean, over all transitions of the batch and all columns, of the squared error of what `sample` predicts
from then on, in units of the scale of the column; and it is nan exactly if such a prediction is (or there is no column). (A
network in training mode with batch normalisation is no such network, see `C121_same_false`.) -/
theorem C161 (m : Model d α ο learned) (hm : m.Healthy) (batch : List (Transition d α)) (hb : 2 ≤ batch.length)
    (net : Row (ο ⊕ α) Num → Row (Target d learned) Num) (m' : Model d α ο learned) (loss : Num)
    (hl : m.loss net batch = .ok (m', loss)) :
    ∃ scale : Target d learned → ℝ, (∃ centre, m'.target.stats = some (centre, fun j => some (scale j))) ∧ (∀ j, 1 / 10 ^ 5 ≤ scale j) ∧
      (∀ e, loss = some e → ∃ p : Fin batch.length → Target d learned → ℝ, (∀ k, Spec.Predicts m' net batch[k] (p k)) ∧
        e = (∑ k, ∑ j, ((p k j - Spec.truth learned batch[k] j) / scale j) ^ 2) / (batch.length * (d + learned.toNat))) ∧
      (loss = none ↔ (d = 0 ∧ learned = false) ∨ ∃ t ∈ batch, ∃ q, m'.sample net t.action t.obs = .ok q ∧ ∃ j, Sum.elim q.1 q.2 j = none) := by
  unfold Model.loss at hl
  cases hp : m.processBatch batch with
  | error e => rw [hp] at hl; cases hl
  | ok r =>
    obtain ⟨m1, xs, ys⟩ := r
    simp only [hp, Except.ok.injEq, Prod.mk.injEq] at hl
    obtain ⟨rfl, rfl⟩ := hl
    obtain ⟨μ, σ, hst, hσ, lx, ly, hrow⟩ := row_of_batch m hm batch hb m1 xs ys hp
    have hσ0 : ∀ j, σ j ≠ 0 := fun j => (lt_of_lt_of_le (by norm_num) (hσ j)).ne'
    choose x w c hx hw hc hq using fun k : Fin batch.length => hrow k batch[k] (by simp)
    have hpx : ∀ k : Fin batch.length, (xs.map net)[k]? = some (net (x k)) := fun k => by
      have := hx k
      simp only [Fin.getElem?_fin, List.getElem?_map, Option.map_eq_some_iff]
      exact ⟨_, this, rfl⟩
    have hcard : Fintype.card (Target d learned) = d + learned.toNat := by simp
    have hn0 : batch.length ≠ 0 := by omega
    have hnone : ∀ k j, net (x k) j = none → mse (xs.map net) ys = none := fun k j h =>
      mse_none _ _ k _ _ (hpx k) (hw k) j h
    have hfin : (∀ k j, net (x k) j ≠ none) → ∃ p : Fin batch.length → Target d learned → ℝ, (∀ k, Spec.Predicts m1 net batch[k] (p k)) ∧
        mse (xs.map net) ys = if d + learned.toNat = 0 then none else
          some ((∑ k, ∑ j, ((p k j - Spec.truth learned batch[k] j) / σ j) ^ 2) / (batch.length * (d + learned.toNat))) := by
      intro h
      choose v hv using fun k j => Option.ne_none_iff_exists'.mp (h k j)
      refine ⟨fun k j => σ j * v k j + μ j + c k j, fun k => ?_, ?_⟩
      · obtain ⟨q, h1, h2⟩ := hq k net
        unfold Spec.Predicts
        rw [h1]
        have e1 : q.1 = fun i => some (σ (.inl i) * v k (.inl i) + μ (.inl i) + c k (.inl i)) := funext fun i => by
          have := h2 (.inl i)
          rw [hv] at this
          exact this
        have e2 : q.2 = fun i => some (σ (.inr i) * v k (.inr i) + μ (.inr i) + c k (.inr i)) := funext fun i => by
          have := h2 (.inr i)
          rw [hv] at this
          exact this
        rw [← e1, ← e2]
      · rw [squares_some (xs.map net) ys (by simpa using lx) ly v w (fun k => by rw [hpx]; exact congrArg some (funext (hv k))) hw, hcard]
        by_cases h0 : d + learned.toNat = 0
        · rw [if_pos h0, if_pos (by rw [h0, mul_zero])]
        · rw [if_neg h0, if_neg (mul_ne_zero hn0 h0)]
          push_cast
          congr 2
          refine Finset.sum_congr rfl fun k _ => Finset.sum_congr rfl fun j _ => ?_
          rw [← hc k j]
          have := hσ0 j
          field_simp
          ring
    refine ⟨σ, ⟨_, hst⟩, hσ, fun e he => ?_, ?_⟩
    · obtain ⟨p, h1, h2⟩ := hfin fun k j h => by rw [hnone k j h] at he; cases he
      refine ⟨p, h1, ?_⟩
      rw [h2] at he
      split at he
      · cases he
      · exact (Option.some.inj he).symm
    · constructor
      · intro h
        by_cases hall : ∀ k j, net (x k) j ≠ none
        · obtain ⟨p, -, h2⟩ := hfin hall
          rw [h2] at h
          split at h
          · next h0 =>
            refine .inl ⟨by omega, ?_⟩
            cases learned with
            | false => rfl
            | true => simp at h0
          · cases h
        · push Not at hall
          obtain ⟨k, j, hkj⟩ := hall
          obtain ⟨q, h1, h2⟩ := hq k net
          exact .inr ⟨batch[k], List.getElem_mem _, q, h1, j, by rw [h2, hkj]; rfl⟩
      · rintro (⟨rfl, rfl⟩ | ⟨t, ht, q, h1, j, h2⟩)
        · obtain ⟨p, -, h2⟩ := hfin fun k j => j.elim (fun i => i.elim0) fun i => i.elim0
          rw [h2]
          rfl
        · obtain ⟨k, hk, rfl⟩ := List.getElem_of_mem ht
          obtain ⟨q', h3, h4⟩ := hq ⟨k, hk⟩ net
          simp only [Fin.getElem_fin] at h3
          rw [h3] at h1
          cases h1
          rw [h4 j] at h2
          exact hnone ⟨k, hk⟩ j (by simpa using h2)

/-- **C161**: no prediction for a transition of the batch is further off than the scale of the column times the root of the loss
times the number of entries; and the loss is 0 exactly if everything is predicted exactly. -/
theorem C161_bound (m : Model d α ο learned) (hm : m.Healthy) (batch : List (Transition d α)) (hb : 2 ≤ batch.length)
    (net : Row (ο ⊕ α) Num → Row (Target d learned) Num) (m' : Model d α ο learned) (e : ℝ)
    (hl : m.loss net batch = .ok (m', some e)) :
    0 ≤ e ∧
    (∀ t ∈ batch, ∃ p centre scale, Spec.Predicts m' net t p ∧ m'.target.stats = some (centre, scale) ∧
      ∀ j, ∃ s, scale j = some s ∧ |p j - Spec.truth learned t j| ≤ s * √(e * (batch.length * (d + learned.toNat)))) ∧
    (e = 0 ↔ ∀ t ∈ batch, Spec.Predicts m' net t (Spec.truth learned t)) := by
  obtain ⟨σ, ⟨centre, hst⟩, hσ, h1, h2⟩ := C161 m hm batch hb net m' _ hl
  obtain ⟨p, hp, he⟩ := h1 e rfl
  have h0 : 0 < d + learned.toNat := by
    rcases Nat.eq_zero_or_pos (d + learned.toNat) with h | h
    · have : d = 0 ∧ learned = false := ⟨by omega, by cases learned with
        | false => rfl
        | true => simp at h⟩
      exact absurd (h2.mpr (.inl this)) (by simp)
    · exact h
  have hN : (0 : ℝ) < batch.length * (d + learned.toNat) := by
    have : (0 : ℝ) < batch.length := by exact_mod_cast (by omega : 0 < batch.length)
    have : (0 : ℝ) < d + learned.toNat := by exact_mod_cast h0
    positivity
  have hσp : ∀ j, 0 < σ j := fun j => lt_of_lt_of_le (by norm_num) (hσ j)
  have hS : e * (batch.length * (d + learned.toNat)) = ∑ k, ∑ j, ((p k j - Spec.truth learned batch[k] j) / σ j) ^ 2 := by
    rw [he, div_mul_cancel₀ _ hN.ne']
  have hone : ∀ k j, ((p k j - Spec.truth learned batch[k] j) / σ j) ^ 2 ≤ e * (batch.length * (d + learned.toNat)) := by
    intro k j
    rw [hS]
    exact (Finset.single_le_sum (f := fun j => ((p k j - Spec.truth learned batch[k] j) / σ j) ^ 2) (fun _ _ => sq_nonneg _)
      (Finset.mem_univ j)).trans
      (Finset.single_le_sum (f := fun k => ∑ j, ((p k j - Spec.truth learned batch[k] j) / σ j) ^ 2)
        (fun _ _ => Finset.sum_nonneg fun _ _ => sq_nonneg _) (Finset.mem_univ k))
  have hnn : 0 ≤ e := by
    rw [he]
    exact div_nonneg (Finset.sum_nonneg fun _ _ => Finset.sum_nonneg fun _ _ => sq_nonneg _) hN.le
  have hbound : ∀ k j, |p k j - Spec.truth learned batch[k] j| ≤ σ j * √(e * (batch.length * (d + learned.toNat))) := by
    intro k j
    have h := Real.abs_le_sqrt (hone k j)
    rw [abs_div, abs_of_pos (hσp j), div_le_iff₀ (hσp j)] at h
    linarith
  refine ⟨hnn, fun t ht => ?_, fun h => ?_, fun h => ?_⟩
  · obtain ⟨k, hk, rfl⟩ := List.getElem_of_mem ht
    exact ⟨p ⟨k, hk⟩, centre, _, hp ⟨k, hk⟩, hst, fun j => ⟨σ j, rfl, hbound ⟨k, hk⟩ j⟩⟩
  · intro t ht
    obtain ⟨k, hk, rfl⟩ := List.getElem_of_mem ht
    have : p ⟨k, hk⟩ = Spec.truth learned batch[k] := funext fun j => by
      have := hbound ⟨k, hk⟩ j
      rw [h, zero_mul, Real.sqrt_zero, mul_zero] at this
      exact sub_eq_zero.mp (abs_nonpos_iff.mp this)
    exact this ▸ hp ⟨k, hk⟩
  · rw [he, div_eq_zero_iff]
    left
    refine Finset.sum_eq_zero fun k _ => Finset.sum_eq_zero fun j _ => ?_
    have h1 := hp k
    have h2 := h batch[k] (List.getElem_mem _)
    unfold Spec.Predicts at h1 h2
    rw [h1] at h2
    simp only [Except.ok.injEq, Prod.mk.injEq] at h2
    have : p k j = Spec.truth learned batch[k] j := by
      rcases j with i | i
      · exact Option.some.inj (congrFun h2.1 i)
      · exact Option.some.inj (congrFun h2.2 i)
    simp [this]

/-- **C161**: the loss of a batch with a single row is nan, whatever the network predicts and whatever was trained before. -/
theorem C161_single (m : Model d α ο learned) (t : Transition d α) (net : Row (ο ⊕ α) Num → Row (Target d learned) Num)
    (m' : Model d α ο learned) (loss : Num) (hl : m.loss net [t] = .ok (m', loss)) : loss = none := by
  unfold Model.loss at hl
  cases hp : m.processBatch [t] with
  | error e => rw [hp] at hl; cases hl
  | ok r =>
    obtain ⟨m1, xs, ys⟩ := r
    simp only [hp, Except.ok.injEq, Prod.mk.injEq] at hl
    obtain ⟨rfl, rfl⟩ := hl
    simp only [Model.processBatch, targetObs] at hp
    cases ho : override m.noDelta (fun i => t.next i - t.obs i) t.next with
    | error e => rw [ho] at hp; cases hp
    | ok r =>
      simp only [ho, List.map_cons, List.map_nil, List.zipWith_cons_cons, List.zipWith_nil_left, Except.ok.injEq, Prod.mk.injEq] at hp
      obtain ⟨-, rfl, rfl⟩ := hp
      have hy : ∀ j, (m.target.update [(Sum.elim r fun _ => t.reward : Row (Target d learned) ℝ)]).normalize
          (fun i => some ((Sum.elim r fun _ => t.reward : Row (Target d learned) ℝ) i)) j = none := by
        intro j
        have hs : ∃ a b, (m.target.update [(Sum.elim r fun _ => t.reward : Row (Target d learned) ℝ)]).stats = some (a, b) ∧ b j = none := by
          cases hst : m.target.stats with
          | none => exact ⟨_, _, by simp only [Normalizer.update, hst]; rfl, by simp [std, floorStd]⟩
          | some q =>
            obtain ⟨a, b⟩ := q
            refine ⟨_, _, by simp only [Normalizer.update, hst]; rfl, ?_⟩
            have : std [(Sum.elim r fun _ => t.reward : Row (Target d learned) ℝ) j] = none := by simp [std]
            simp only [List.map_cons, List.map_nil, this]
            cases b j <;> rfl
        obtain ⟨a, b, hs, hb⟩ := hs
        simp only [Normalizer.normalize, hs, hb]
        generalize Num.sub _ _ = z
        cases z <;> rfl
      by_cases hj : Nonempty (Target d learned)
      · obtain ⟨j⟩ := hj
        have : none ∈ squares (List.map net [(m.input.update [m.modelInput t.obs t.action]).normalize fun i => some (m.modelInput t.obs t.action i)])
            [(m.target.update [(Sum.elim r fun _ => t.reward : Row (Target d learned) ℝ)]).normalize
              (fun i => some ((Sum.elim r fun _ => t.reward : Row (Target d learned) ℝ) i))] := by
          unfold squares
          simp only [List.map_cons, List.map_nil, List.zipWith_cons_cons, List.zipWith_nil_left, List.flatten_cons, List.flatten_nil,
            List.append_nil]
          refine List.mem_map.mpr ⟨j, mem_columns j, ?_⟩
          rw [hy j]
          generalize net _ j = z
          cases z <;> rfl
        unfold mse
        rw [Num.sum_none _ this]
        rfl
      · have hc : Target.columns d learned = [] := by
          rw [List.eq_nil_iff_forall_not_mem]
          exact fun j _ => hj ⟨j⟩
        simp [mse, squares, hc, Num.sum, Num.div]

/-- one column, no actions: two transitions that do not move, and a network that says 0 -/
example : ∃ (m' : Model 1 Empty (Fin 1) false) (e : ℝ),
    (Model.new [] id : Model 1 Empty (Fin 1) false).loss (fun _ _ => some 0)
      [⟨fun _ => 3, fun _ => 3, Empty.elim, 0⟩, ⟨fun _ => 5, fun _ => 5, Empty.elim, 0⟩] = .ok (m', some e) ∧
    (e = 0 ↔ ∀ t ∈ [(⟨fun _ => 3, fun _ => 3, Empty.elim, 0⟩ : Transition 1 Empty), ⟨fun _ => 5, fun _ => 5, Empty.elim, 0⟩],
      Spec.Predicts m' (fun _ _ => some 0) t (Spec.truth false t)) := by
  have h0 : (Model.new [] id : Model 1 Empty (Fin 1) false).Healthy := ⟨healthy_new, healthy_new⟩
  obtain ⟨m', xs, ys, e, -⟩ := processBatch_ok (Model.new [] id : Model 1 Empty (Fin 1) false) h0
    [⟨fun _ => 3, fun _ => 3, Empty.elim, 0⟩, ⟨fun _ => 5, fun _ => 5, Empty.elim, 0⟩] (by simp) (by intro e he; simp [Model.new] at he)
  have hl : (Model.new [] id : Model 1 Empty (Fin 1) false).loss (fun _ _ => some 0)
      [⟨fun _ => 3, fun _ => 3, Empty.elim, 0⟩, ⟨fun _ => 5, fun _ => 5, Empty.elim, 0⟩] =
      .ok (m', mse (xs.map fun _ _ => some 0) ys) := by
    unfold Model.loss
    rw [e]
  obtain ⟨-, -, -, -, hn⟩ := C161 _ h0 _ (by simp) _ _ _ hl
  cases hm : mse (xs.map fun _ _ => some 0) ys with
  | none =>
    rcases hn.mp hm with ⟨h, -⟩ | ⟨t, ht, q, h1, j, h2⟩
    · cases h
    · obtain ⟨μ, σ, -, -, -, -, hr⟩ := row_of_batch _ h0 _ (by simp) _ _ _ e
      obtain ⟨k, hk⟩ := List.mem_iff_getElem?.mp ht
      obtain ⟨_, _, _, -, -, -, hs⟩ := hr k t hk
      obtain ⟨q', h3, h4⟩ := hs fun _ _ => some 0
      rw [h3] at h1
      cases h1
      rw [h4] at h2
      cases h2
  | some r =>
    rw [hm] at hl
    exact ⟨m', r, hl, (C161_bound _ h0 _ (by simp) _ _ _ hl).2.2⟩

end Dyn

end Verif
