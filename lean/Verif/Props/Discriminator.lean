import Mathlib.Algebra.BigOperators.Group.List.Lemmas
import Mathlib.Algebra.BigOperators.Field
import Mathlib.Algebra.Order.BigOperators.Ring.Finset
import Mathlib.Analysis.Calculus.Deriv.Mul
import Mathlib.Tactic.FieldSimp
import Mathlib.Tactic.Linarith
import Verif.Model.Discriminator

/-!
# C113: the loss of the discriminators
-/

namespace Verif

namespace Disc

variable {B C J : Type} [Fintype B] [Fintype C] [Fintype J] [DecidableEq B] [DecidableEq J]

/-! ## Specification -/

namespace Spec

/-- The derivative of the discriminator after its input `j` -/
noncomputable def partialDeriv (d : (J → ℝ) → ℝ) (x : J → ℝ) (j : J) : ℝ := deriv (fun t => d (Function.update x j t)) (x j)

/-- The derivative of output `k` after the number in row `i`, column `j` -/
noncomputable def jacobian (net : (B → J → ℝ) → B → ℝ) (x : B → J → ℝ) (k i : B) (j : J) : ℝ :=
  deriv (fun t => net (Function.update x i (Function.update (x i) j t)) k) (x i j)

/-- The mean over the rows of the squared derivatives of all outputs after the row -/
noncomputable def penalty (net : (B → J → ℝ) → B → ℝ) (x : B → J → ℝ) : ℝ :=
  (∑ i, ∑ j, ∑ k, jacobian net x k i j ^ 2) / Fintype.card B

/-- A network that treats the rows independently -/
def rows (d : (J → ℝ) → ℝ) : (B → J → ℝ) → B → ℝ := fun x i => d (x i)

/-- The discriminator's best label for an input: +1 if only the reference has it, -1 if only the policy has it, in
between according to how often each has it. -/
noncomputable def best {α : Type} [DecidableEq α] (pos neg : List α) (x : α) : ℝ :=
  let p : ℝ := pos.count x / pos.length
  let q : ℝ := neg.count x / neg.length
  (p - q) / (p + q)

/-- The loss without penalty, on lists. -/
noncomputable def listLoss {α : Type} (pos neg : List α) (d : α → ℝ) : ℝ :=
  (pos.map fun x => (d x - 1) ^ 2).sum / pos.length + (neg.map fun x => (d x + 1) ^ 2).sum / neg.length

end Spec

/-! ## The gradient penalty -/

omit [Fintype J] in
theorem inputsGrad_rows (d : (J → ℝ) → ℝ) (x : B → J → ℝ) (i : B) (j : J) :
    inputsGrad (Spec.rows d) x i j = Spec.partialDeriv d (x i) j := by
  have h : (fun t => ∑ k, Spec.rows d (put x i j t) k) =
      fun t => d (Function.update (x i) j t) + ∑ k ∈ Finset.univ.erase i, d (x k) := by
    funext t
    rw [← Finset.add_sum_erase _ _ (Finset.mem_univ i)]
    congr 1
    · simp [Spec.rows, put]
    · refine Finset.sum_congr rfl fun k hk => ?_
      rw [Spec.rows, put, Function.update_of_ne (Finset.ne_of_mem_erase hk)]
  rw [inputsGrad, h, deriv_add_const, Spec.partialDeriv]

/-- **C113, partial.** For a discriminator that treats the rows of a batch independently, the loss is the mean squared
distance from 1 on the reference plus the mean squared distance from -1 on the policy plus the weighted mean of the
squared derivatives at the reference. Missing: other networks, see `C113_false`. -/
theorem C113_partial (weight : ℝ) (d : (J → ℝ) → ℝ) (pos : B → J → ℝ) (neg : C → J → ℝ) :
    loss weight (Spec.rows d) (Spec.rows d) pos neg =
      (∑ i, (d (pos i) - 1) ^ 2) / Fintype.card B + (∑ i, (d (neg i) + 1) ^ 2) / Fintype.card C +
        weight * ((∑ i, ∑ j, Spec.partialDeriv d (pos i) j ^ 2) / Fintype.card B) := by
  simp only [loss, gradientLoss, inputsGrad_rows, mean, Spec.rows]

/-- … and then the penalty is the mean of the squared derivatives of the outputs. -/
theorem C113_penalty_partial (d : (J → ℝ) → ℝ) (x : B → J → ℝ) :
    gradientLoss (Spec.rows d) x = Spec.penalty (Spec.rows d) x := by
  simp only [gradientLoss, inputsGrad_rows, mean, Spec.penalty]
  congr 1
  refine Finset.sum_congr rfl fun i _ => Finset.sum_congr rfl fun j _ => ?_
  rw [Finset.sum_eq_single i]
  · simp [Spec.jacobian, Spec.rows, Spec.partialDeriv]
  · intro k _ hk
    have : (fun t => Spec.rows d (Function.update x i (Function.update (x i) j t)) k) = fun _ => d (x k) := by
      funext t; simp [Spec.rows, Function.update_of_ne hk]
    rw [Spec.jacobian, this, deriv_const]; norm_num
  · simp

/-- **C113.** With a positive weight the loss is 0 exactly if the discriminator says 1 on the reference, -1 on the policy
and is flat at the reference; it is never negative. -/
theorem C113_zero [Nonempty B] [Nonempty C] (weight : ℝ) (hw : 0 < weight) (d : (J → ℝ) → ℝ) (pos : B → J → ℝ) (neg : C → J → ℝ) :
    0 ≤ loss weight (Spec.rows d) (Spec.rows d) pos neg ∧
      (loss weight (Spec.rows d) (Spec.rows d) pos neg = 0 ↔
        (∀ i, d (pos i) = 1) ∧ (∀ i, d (neg i) = -1) ∧ ∀ i j, Spec.partialDeriv d (pos i) j = 0) := by
  rw [C113_partial]
  have hB : (0 : ℝ) < Fintype.card B := by exact_mod_cast Fintype.card_pos
  have hC : (0 : ℝ) < Fintype.card C := by exact_mod_cast Fintype.card_pos
  have h1 : 0 ≤ ∑ i, (d (pos i) - 1) ^ 2 := Finset.sum_nonneg fun i _ => sq_nonneg _
  have h2 : 0 ≤ ∑ i, (d (neg i) + 1) ^ 2 := Finset.sum_nonneg fun i _ => sq_nonneg _
  have h3' : ∀ i, 0 ≤ ∑ j, Spec.partialDeriv d (pos i) j ^ 2 := fun i => Finset.sum_nonneg fun j _ => sq_nonneg _
  have h3 : 0 ≤ ∑ i, ∑ j, Spec.partialDeriv d (pos i) j ^ 2 := Finset.sum_nonneg fun i _ => h3' i
  have e1 := div_nonneg h1 hB.le
  have e2 := div_nonneg h2 hC.le
  have e3 := mul_nonneg hw.le (div_nonneg h3 hB.le)
  refine ⟨add_nonneg (add_nonneg e1 e2) e3, fun h => ?_, fun ⟨a, b, c⟩ => ?_⟩
  · have z1 : (∑ i, (d (pos i) - 1) ^ 2) / (Fintype.card B : ℝ) = 0 := by linarith
    have z2 : (∑ i, (d (neg i) + 1) ^ 2) / (Fintype.card C : ℝ) = 0 := by linarith
    have z3 : weight * ((∑ i, ∑ j, Spec.partialDeriv d (pos i) j ^ 2) / (Fintype.card B : ℝ)) = 0 := by linarith
    rw [div_eq_zero_iff, or_iff_left hB.ne', Finset.sum_eq_zero_iff_of_nonneg fun i _ => sq_nonneg _] at z1
    rw [div_eq_zero_iff, or_iff_left hC.ne', Finset.sum_eq_zero_iff_of_nonneg fun i _ => sq_nonneg _] at z2
    rw [mul_eq_zero, or_iff_right hw.ne', div_eq_zero_iff, or_iff_left hB.ne',
      Finset.sum_eq_zero_iff_of_nonneg fun i _ => h3' i] at z3
    refine ⟨fun i => ?_, fun i => ?_, fun i j => ?_⟩
    · have := pow_eq_zero_iff (two_ne_zero) |>.1 (z1 i (Finset.mem_univ i)); linarith
    · have := pow_eq_zero_iff (two_ne_zero) |>.1 (z2 i (Finset.mem_univ i)); linarith
    · have := z3 i (Finset.mem_univ i)
      rw [Finset.sum_eq_zero_iff_of_nonneg fun i _ => sq_nonneg _] at this
      exact pow_eq_zero_iff (two_ne_zero) |>.1 (this j (Finset.mem_univ j))
  · simp [a, b, c]

/-- The claim: for every network the penalty is the mean of the squared derivatives of the outputs. -/
def C113_claim : Prop := ∀ (net : (Fin 2 → Unit → ℝ) → Fin 2 → ℝ) (x : Fin 2 → Unit → ℝ),
  gradientLoss net x = Spec.penalty net x

/-- A network that subtracts the mean of the batch -/
noncomputable def Ex.centred : (Fin 2 → Unit → ℝ) → Fin 2 → ℝ := fun x i => x i () - (x 0 () + x 1 ()) / 2

/-- **C113** is false: with batch normalisation the derivatives of the different outputs cancel before they are
squared. -/
theorem C113_false : ¬ C113_claim := by
  intro h
  have h0 := h Ex.centred fun _ _ => 0
  have hl : gradientLoss Ex.centred (fun _ _ => 0) = 0 := by
    have : ∀ i j, (fun t : ℝ => ∑ k, Ex.centred (put (fun _ _ => 0) i j t) k) = fun _ => 0 := by
      intro i j; funext t; simp only [Fin.sum_univ_two, Ex.centred]; ring
    simp only [gradientLoss, mean, inputsGrad, this, deriv_const]
    simp
  have hj : Spec.jacobian Ex.centred (fun _ _ => 0) 0 0 () = 1 / 2 := by
    have : (fun t : ℝ => Ex.centred (Function.update (fun _ _ => 0) 0 (Function.update ((fun _ _ => 0 : Fin 2 → Unit → ℝ) 0) () t)) 0) =
        fun t => t / 2 := by
      funext t; simp [Ex.centred]; ring
    rw [Spec.jacobian, this]; simp
  have hp : (1 / 2) ^ 2 / 2 ≤ Spec.penalty Ex.centred (fun _ _ => 0) := by
    have hn : ∀ i : Fin 2, 0 ≤ ∑ j, ∑ k, Spec.jacobian Ex.centred (fun _ _ => 0) k i j ^ 2 := fun i =>
      Finset.sum_nonneg fun j _ => Finset.sum_nonneg fun k _ => sq_nonneg _
    have h1 : (1 / 2 : ℝ) ^ 2 ≤ ∑ j, ∑ k, Spec.jacobian Ex.centred (fun _ _ => 0) k 0 j ^ 2 := by
      rw [← hj]
      simp only [Finset.univ_unique, Finset.sum_singleton, Fin.sum_univ_two]
      exact le_add_of_nonneg_right (sq_nonneg _)
    have h2 : (1 / 2 : ℝ) ^ 2 ≤ ∑ i, ∑ j, ∑ k, Spec.jacobian Ex.centred (fun _ _ => 0) k i j ^ 2 := by
      rw [Fin.sum_univ_two]; linarith [hn 1]
    rw [Spec.penalty, Fintype.card_fin]
    exact div_le_div_of_nonneg_right h2 (by norm_num)
  rw [hl] at h0
  rw [← h0] at hp
  norm_num at hp

/-! ## What the discriminator learns -/

theorem mean_count {α : Type} [DecidableEq α] (l : List α) (s : Finset α) (hs : l.toFinset ⊆ s) (f : α → ℝ) :
    (l.map f).sum / l.length = ∑ x ∈ s, (l.count x / l.length : ℝ) * f x := by
  rw [Finset.sum_list_map_count, Finset.sum_div]
  rw [← Finset.sum_subset hs fun x _ hx => by
    rw [List.count_eq_zero.2 fun h => hx (List.mem_toFinset.2 h)]; simp]
  exact Finset.sum_congr rfl fun x _ => by rw [nsmul_eq_mul]; ring

/-- Without penalty, the labels (p - q) / (p + q) are the best ones, where p and q say how often an input occurs in
the reference and in the policy's data; every other labelling of these inputs is worse. -/
theorem listLoss_best {α : Type} [DecidableEq α] (pos neg : List α) (hp : pos ≠ []) (hn : neg ≠ []) (d : α → ℝ) :
    Spec.listLoss pos neg (Spec.best pos neg) ≤ Spec.listLoss pos neg d ∧
      ((∃ x, (x ∈ pos ∨ x ∈ neg) ∧ d x ≠ Spec.best pos neg x) →
        Spec.listLoss pos neg (Spec.best pos neg) < Spec.listLoss pos neg d) := by
  set s := pos.toFinset ∪ neg.toFinset with hs
  have h1 : pos.toFinset ⊆ s := Finset.subset_union_left
  have h2 : neg.toFinset ⊆ s := Finset.subset_union_right
  have lp : (0 : ℝ) < pos.length := by exact_mod_cast List.length_pos_iff.2 hp
  have ln : (0 : ℝ) < neg.length := by exact_mod_cast List.length_pos_iff.2 hn
  have key : ∀ f : α → ℝ, Spec.listLoss pos neg f = ∑ x ∈ s, ((pos.count x / pos.length : ℝ) * (f x - 1) ^ 2 +
      (neg.count x / neg.length : ℝ) * (f x + 1) ^ 2) := fun f => by
    rw [Spec.listLoss, mean_count pos s h1, mean_count neg s h2, Finset.sum_add_distrib]
  have hpos : ∀ x ∈ s, 0 < (pos.count x / pos.length : ℝ) + (neg.count x / neg.length : ℝ) := by
    intro x hx
    rcases Finset.mem_union.1 hx with h | h
    · have : (0 : ℝ) < pos.count x := by exact_mod_cast List.count_pos_iff.2 (List.mem_toFinset.1 h)
      exact add_pos_of_pos_of_nonneg (div_pos this lp) (by positivity)
    · have : (0 : ℝ) < neg.count x := by exact_mod_cast List.count_pos_iff.2 (List.mem_toFinset.1 h)
      exact add_pos_of_nonneg_of_pos (by positivity) (div_pos this ln)
  have gap : ∀ x ∈ s, (pos.count x / pos.length : ℝ) * (d x - 1) ^ 2 + (neg.count x / neg.length : ℝ) * (d x + 1) ^ 2 -
      ((pos.count x / pos.length : ℝ) * (Spec.best pos neg x - 1) ^ 2 +
        (neg.count x / neg.length : ℝ) * (Spec.best pos neg x + 1) ^ 2) =
      ((pos.count x / pos.length : ℝ) + (neg.count x / neg.length : ℝ)) * (d x - Spec.best pos neg x) ^ 2 := by
    intro x hx
    have hne := (hpos x hx).ne'
    simp only [Spec.best]
    set p := (pos.count x / pos.length : ℝ)
    set q := (neg.count x / neg.length : ℝ)
    field_simp
    ring
  have le : ∀ x ∈ s, _ ≤ _ := fun x hx => sub_nonneg.1 ((gap x hx).symm ▸ mul_nonneg (hpos x hx).le (sq_nonneg _))
  rw [key, key]
  refine ⟨Finset.sum_le_sum le, fun ⟨x, hx, hd⟩ => Finset.sum_lt_sum le ⟨x, ?_, ?_⟩⟩
  · simpa [hs] using hx
  · have hx' : x ∈ s := by simpa [hs] using hx
    have : 0 < (d x - Spec.best pos neg x) ^ 2 := by
      have := sub_ne_zero.2 hd
      positivity
    exact sub_pos.1 ((gap x hx').symm ▸ mul_pos (hpos x hx') this)

theorem loss_lists (d : (J → ℝ) → ℝ) (n m : Nat) (pos : Fin n → J → ℝ) (neg : Fin m → J → ℝ) :
    loss 0 (Spec.rows d) (Spec.rows d) pos neg = Spec.listLoss (List.ofFn pos) (List.ofFn neg) d := by
  rw [C113_partial]
  simp [Spec.listLoss, List.sum_ofFn]

open Classical in
/-- **C113.** Without penalty, the best discriminator gives an input (p - q) / (p + q), where p and q say how often the input occurs
in the reference and in the policy's data; every other labelling of these inputs is worse. -/
theorem C113_best (d : (J → ℝ) → ℝ) {n m : Nat} (hn : 0 < n) (hm : 0 < m) (pos : Fin n → J → ℝ) (neg : Fin m → J → ℝ) :
    let best := Spec.best (List.ofFn pos) (List.ofFn neg)
    loss 0 (Spec.rows best) (Spec.rows best) pos neg ≤ loss 0 (Spec.rows d) (Spec.rows d) pos neg ∧
      ((∃ x, ((∃ i, pos i = x) ∨ ∃ i, neg i = x) ∧ d x ≠ best x) →
        loss 0 (Spec.rows best) (Spec.rows best) pos neg < loss 0 (Spec.rows d) (Spec.rows d) pos neg) := by
  intro best
  rw [loss_lists, loss_lists]
  have := listLoss_best (List.ofFn pos) (List.ofFn neg) (by simp; omega) (by simp; omega) d
  refine ⟨this.1, fun ⟨x, hx, hd⟩ => this.2 ⟨x, ?_, hd⟩⟩
  simpa [List.mem_ofFn] using hx

/-- Two inputs; one is only in the reference, the other in both, there half as often: the labels are 1 and -1/3. -/
example : Spec.best [0, 1] [1, 1] 0 = 1 ∧ Spec.best [0, 1] [1, 1] 1 = -1 / 3 := by
  norm_num [Spec.best]

/-- The discriminator `2 x` on the reference 0 and the policy 1, with weight 1/2: 1 + 9 + 4 / 2 -/
example : loss (B := Fin 1) (C := Fin 1) (J := Unit) (1 / 2) (Spec.rows fun v => 2 * v ()) (Spec.rows fun v => 2 * v ())
    (fun _ _ => 0) (fun _ _ => 1) = 12 := by
  rw [C113_partial]
  simp [Spec.partialDeriv]
  norm_num

end Disc

end Verif
