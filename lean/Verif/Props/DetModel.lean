import Verif.Model.DetModel

/-!
# C121: the deterministic dynamics model
-/

namespace Verif

namespace DetNet

noncomputable section

variable {i h o b : Nat}

/-! ## Specification: a network for one row, with fixed statistics -/

/-- One hidden block. -/
def Spec.block {i o : Nat} (l : Block i o) (x : Fin i → ℝ) : Fin o → ℝ := fun k =>
  max 0 (((∑ j, l.lin.weight k j * x j) + l.lin.bias k - l.norm.mean k) / √(l.norm.var k + 1 / 10 ^ 5) * l.norm.gamma k + l.norm.beta k)

/-- The whole network. -/
def Spec.row (m : Model i h o) (x : Fin i → ℝ) : Fin o → ℝ := fun k =>
  (∑ j, m.last.weight k j * (m.rest.foldl (fun y l => Spec.block l y) (Spec.block m.first x)) j) + m.last.bias k

/-- The claims for a model as it is made: it gives a prediction for every batch, … -/
def C121_total_claim : Prop := ∀ (i h o b : Nat) (m : Model i h o) (x : Fin b → Fin i → ℝ), 0 < b → m.training = true → ∃ y, m.forward x = .ok y

/-- … which for a row does not depend on the other rows, … -/
def C121_rows_claim : Prop := ∀ (i h o b b' : Nat) (m : Model i h o) (x : Fin b → Fin i → ℝ) (x' : Fin b' → Fin i → ℝ) (r : Fin b)
  (r' : Fin b') (y : (Fin b → Fin o → ℝ) × Model i h o) (y' : (Fin b' → Fin o → ℝ) × Model i h o), m.training = true →
    m.forward x = .ok y → m.forward x' = .ok y' → x r = x' r' → y.1 r = y'.1 r'

/-- … and predicting does not change the model. -/
def C121_same_claim : Prop := ∀ (i h o b : Nat) (m : Model i h o) (x : Fin b → Fin i → ℝ) (y : (Fin b → Fin o → ℝ) × Model i h o),
  m.training = true → m.forward x = .ok y → y.2 = m

/-! ## What holds -/

theorem block_eval {i o : Nat} (l : Block i o) (x : Fin b → Fin i → ℝ) :
    l.forward false x = .ok (fun r => Spec.block l (x r), l) := by
  simp only [Block.forward, Norm.forward]
  rfl

theorem blocks_eval (ls : List (Block h h)) (x : Fin b → Fin h → ℝ) :
    blocks false ls x = .ok (fun r => ls.foldl (fun y l => Spec.block l y) (x r), ls) := by
  induction ls generalizing x with
  | nil => rfl
  | cons l ls ih =>
    simp only [blocks, block_eval]
    change (do
      let z ← blocks false ls fun r => Spec.block l (x r)
      pure (z.1, l :: z.2)) = _
    rw [ih]
    rfl

/-- C121, partial: a model that has been put into evaluation mode predicts for every batch, row by row, and is not changed by that.
Missing: nothing in the library does so, and in training mode all three are false, see `C121_total_false`, `C121_rows_false`,
`C121_same_false`. -/
theorem C121_partial (m : Model i h o) (hm : m.training = false) (x : Fin b → Fin i → ℝ) :
    m.forward x = .ok (fun r => Spec.row m (x r), m) := by
  obtain ⟨tr, first, rest, last⟩ := m
  simp only at hm
  subst hm
  simp only [Model.forward, block_eval]
  change (do
    let z ← blocks false rest fun r => Spec.block first (x r)
    pure (last.forward z.1, Model.mk false first z.2 last)) = _
  rw [blocks_eval]
  rfl

theorem colMean_perm (x : Fin b → Fin h → ℝ) (σ : Equiv.Perm (Fin b)) : colMean (x ∘ σ) = colMean x := by
  funext k
  unfold colMean
  rw [← Equiv.sum_comp σ fun r => x r k]
  rfl

theorem colVar_perm (x : Fin b → Fin h → ℝ) (σ : Equiv.Perm (Fin b)) : colVar (x ∘ σ) = colVar x := by
  funext k
  unfold colVar
  rw [← Equiv.sum_comp σ fun r => (x r k - colMean x k) ^ 2, colMean_perm]
  rfl

theorem block_perm {i o : Nat} (tr : Bool) (l : Block i o) (x : Fin b → Fin i → ℝ) (σ : Equiv.Perm (Fin b)) :
    l.forward tr (x ∘ σ) = (l.forward tr x).map fun y => (y.1 ∘ σ, y.2) := by
  have hl : l.lin.forward (x ∘ σ) = l.lin.forward x ∘ σ := rfl
  unfold Block.forward Norm.forward
  rw [hl, colMean_perm, colVar_perm]
  cases tr
  · rfl
  · by_cases hb : b = 1
    · simp only [hb, if_true]; rfl
    · simp only [hb, if_true, if_false]; rfl

theorem blocks_perm (tr : Bool) (ls : List (Block h h)) (x : Fin b → Fin h → ℝ) (σ : Equiv.Perm (Fin b)) :
    blocks tr ls (x ∘ σ) = (blocks tr ls x).map fun y => (y.1 ∘ σ, y.2) := by
  induction ls generalizing x with
  | nil => rfl
  | cons l ls ih =>
    unfold blocks
    rw [block_perm]
    cases l.forward tr x with
    | error e => rfl
    | ok y =>
      change (do
        let z ← blocks tr ls (y.1 ∘ σ)
        pure (z.1, y.2 :: z.2)) = Except.map (fun y => (y.1 ∘ σ, y.2)) (do
        let z ← blocks tr ls y.1
        pure (z.1, y.2 :: z.2))
      rw [ih]
      cases blocks tr ls y.1 <;> rfl

/-- C121: in both modes the order of the rows does not matter: they are only predicted in the new order. -/
theorem C121_order (m : Model i h o) (x : Fin b → Fin i → ℝ) (σ : Equiv.Perm (Fin b)) :
    m.forward (x ∘ σ) = (m.forward x).map fun y => (y.1 ∘ σ, y.2) := by
  unfold Model.forward
  rw [block_perm]
  cases m.first.forward m.training x with
  | error e => rfl
  | ok y =>
    change (do
      let z ← blocks m.training m.rest (y.1 ∘ σ)
      pure (m.last.forward z.1, Model.mk m.training y.2 z.2 m.last)) = Except.map (fun y => (y.1 ∘ σ, y.2)) (do
      let z ← blocks m.training m.rest y.1
      pure (m.last.forward z.1, Model.mk m.training y.2 z.2 m.last))
    rw [blocks_perm]
    cases blocks m.training m.rest y.1 <;> rfl

theorem block_total {i o : Nat} (tr : Bool) (l : Block i o) (x : Fin b → Fin i → ℝ) (hb : b ≠ 1) : ∃ y, l.forward tr x = .ok y := by
  unfold Block.forward Norm.forward
  cases tr
  · exact ⟨_, rfl⟩
  · simp only [hb, if_true, if_false]
    exact ⟨_, rfl⟩

theorem blocks_total (tr : Bool) (ls : List (Block h h)) (x : Fin b → Fin h → ℝ) (hb : b ≠ 1) : ∃ y, blocks tr ls x = .ok y := by
  induction ls generalizing x with
  | nil => exact ⟨_, rfl⟩
  | cons l ls ih =>
    obtain ⟨y, hy⟩ := block_total tr l x hb
    obtain ⟨z, hz⟩ := ih y.1
    refine ⟨(z.1, y.2 :: z.2), ?_⟩
    unfold blocks
    rw [hy]
    change (do
      let z ← blocks tr ls y.1
      pure (z.1, y.2 :: z.2)) = _
    rw [hz]
    rfl

/-- C121: in training mode exactly the batches of one row are refused. -/
theorem C121_single_row (m : Model i h o) (hm : m.training = true) (x : Fin b → Fin i → ℝ) :
    (b = 1 → m.forward x = .error .valueError) ∧ (b ≠ 1 → ∃ y, m.forward x = .ok y) := by
  constructor
  · intro hb
    unfold Model.forward Block.forward Norm.forward
    simp only [hm, hb, if_true]
    rfl
  · intro hb
    obtain ⟨y, hy⟩ := block_total m.training m.first x hb
    obtain ⟨z, hz⟩ := blocks_total m.training m.rest y.1 hb
    refine ⟨(m.last.forward z.1, ⟨m.training, y.2, z.2, m.last⟩), ?_⟩
    unfold Model.forward
    rw [hy]
    change (do
      let z ← blocks m.training m.rest y.1
      pure (m.last.forward z.1, Model.mk m.training y.2 z.2 m.last)) = _
    rw [hz]
    rfl

/-- What training mode does to a block: the numbers of the linear layer are normalised by the mean and the variance of the batch, and the
running statistics move by a tenth towards that mean and the unbiased estimate of the variance. -/
theorem C121_training {i o : Nat} (l : Block i o) (x : Fin b → Fin i → ℝ) (hb : b ≠ 1) :
    ∃ y : (Fin b → Fin o → ℝ) × Block i o, l.forward true x = .ok y ∧ ∀ k,
      let z := fun r => (∑ j, l.lin.weight k j * x r j) + l.lin.bias k
      let μ := (∑ r, z r) / b
      (∀ r, y.1 r k = max 0 ((z r - μ) / √((∑ r, (z r - μ) ^ 2) / b + 1 / 10 ^ 5) * l.norm.gamma k + l.norm.beta k)) ∧
      y.2.norm.mean k = l.norm.mean k + 1 / 10 * (μ - l.norm.mean k) ∧
      (0 < b → y.2.norm.var k = l.norm.var k + 1 / 10 * ((∑ r, (z r - μ) ^ 2) / (b - 1) - l.norm.var k)) ∧
      y.2.lin = l.lin ∧ y.2.norm.gamma = l.norm.gamma ∧ y.2.norm.beta = l.norm.beta := by
  refine ⟨_, (by simp only [Block.forward, Norm.forward, hb, if_true, if_false]; rfl), fun k => ⟨fun r => rfl, ?_, fun hb0 => ?_, rfl, rfl, rfl⟩⟩
  · simp only [colMean, Linear.forward]
    ring
  · have h0 : (b : ℝ) ≠ 0 := by exact_mod_cast hb0.ne'
    simp only [colVar, colMean, Linear.forward]
    rw [div_mul_cancel₀ _ h0]
    ring

/-- C121: the loss is the mean of the squared differences between predictions and targets, over all rows and outputs. -/
theorem C121_loss (m : Model i h o) (x : Fin b → Fin i → ℝ) (target : Fin b → Fin o → ℝ) :
    m.loss x target = (m.forward x).map fun y =>
      ((∑ p : Fin b × Fin o, (y.1 p.1 p.2 - target p.1 p.2) ^ 2) / (Fintype.card (Fin b × Fin o) : ℝ), y.2) := by
  unfold Model.loss
  cases m.forward x with
  | error e => rfl
  | ok y =>
    simp only [Except.map, Fintype.sum_prod_type, Fintype.card_prod, Fintype.card_fin, Nat.cast_mul]
    rfl

/-! ## What does not hold -/

/-- A model with one input, one hidden number and one output. -/
def Ex.m : Model 1 1 1 where
  training := true
  first := ⟨⟨fun _ _ => 1, fun _ => 0⟩, ⟨fun _ => 1, fun _ => 0, fun _ => 0, fun _ => 1⟩⟩
  rest := []
  last := ⟨fun _ _ => 1, fun _ => 0⟩

/-- The prediction of the example in training mode. -/
theorem Ex.forward (x : Fin 2 → Fin 1 → ℝ) : ∃ y, Ex.m.forward x = .ok y ∧
    y.1 = (fun r _ => max 0 ((x r 0 - (x 0 0 + x 1 0) / 2) /
      √(((x 0 0 - (x 0 0 + x 1 0) / 2) ^ 2 + (x 1 0 - (x 0 0 + x 1 0) / 2) ^ 2) / 2 + 1 / 10 ^ 5))) ∧
    y.2.first.norm.mean = fun _ => (x 0 0 + x 1 0) / 20 := by
  have hl : (Linear.mk (i := 1) (o := 1) (fun _ _ => 1) fun _ => 0).forward x = x := by
    funext r k
    simp [Linear.forward, Subsingleton.elim k 0]
  refine ⟨_, (by simp only [Model.forward, Block.forward, Norm.forward, Ex.m, hl, if_true]; rfl), ?_, ?_⟩
  · funext r k
    simp [Linear.forward, colMean, colVar, Fin.sum_univ_two]
  · funext k
    simp only [colMean, Fin.sum_univ_two]
    rw [Subsingleton.elim k 0]
    ring

theorem C121_total_false : ¬ C121_total_claim := by
  intro hc
  obtain ⟨y, hy⟩ := hc 1 1 1 1 Ex.m (fun _ _ => 0) one_pos rfl
  rw [(C121_single_row Ex.m rfl _).1 rfl] at hy
  cases hy

theorem C121_rows_false : ¬ C121_rows_claim := by
  intro hc
  obtain ⟨y, hy, h1, _⟩ := Ex.forward fun _ _ => 1
  obtain ⟨y', hy', h1', _⟩ := Ex.forward fun r _ => if r = 0 then -1 else 1
  have h2 := congrFun (hc 1 1 1 2 2 Ex.m _ _ 1 1 y y' rfl hy hy' (by simp)) 0
  rw [h1, h1'] at h2
  have h3 : (0 : ℝ) < (1 - (-1 + 1) / 2) / √(((-1 - (-1 + 1) / 2) ^ 2 + (1 - (-1 + 1) / 2) ^ 2) / 2 + 1 / 10 ^ 5) :=
    div_pos (by norm_num) (Real.sqrt_pos.2 (by norm_num))
  simp only [if_true, show ((1 : Fin 2) = 0) = False by decide, if_false] at h2
  rw [max_eq_right h3.le] at h2
  rw [← h2] at h3
  norm_num at h3

theorem C121_same_false : ¬ C121_same_claim := by
  intro hc
  obtain ⟨y, hy, _, h1⟩ := Ex.forward fun _ _ => 1
  have h2 := hc 1 1 1 2 Ex.m _ y rfl hy
  rw [h2] at h1
  have h3 := congrFun h1 0
  norm_num [Ex.m] at h3

/-- In evaluation mode the example predicts for a single row. -/
example : (⟨false, Ex.m.first, [], Ex.m.last⟩ : Model 1 1 1).forward (b := 1) (fun _ _ => -7) =
    .ok (fun _ _ => 0, ⟨false, Ex.m.first, [], Ex.m.last⟩) := by
  rw [C121_partial _ rfl]
  congr 2
  funext r k
  have : ((-7 : ℝ) - 0) / √(1 + 1 / 10 ^ 5) ≤ 0 := div_nonpos_of_nonpos_of_nonneg (by norm_num) (Real.sqrt_nonneg _)
  simp [Spec.row, Spec.block, Ex.m] at this ⊢
  exact this

end

end DetNet

end Verif
