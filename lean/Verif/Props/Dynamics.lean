import Verif.Model.Dynamics
import Mathlib.Tactic.Ring
import Mathlib.Tactic.Linarith
import Mathlib.Tactic.FieldSimp
import Mathlib.Tactic.NormNum

/-!
# Normaliser and dynamics model (C65, C66)
-/

namespace Verif

namespace Dyn

/-! ## C65 -/

/-- The normaliser after batches. -/
noncomputable def after (batches : List (List (Row ι ℝ))) : Normalizer ι := batches.foldl Normalizer.update Normalizer.new

theorem after_snoc (batches : List (List (Row ι ℝ))) (b : List (Row ι ℝ)) : after (batches ++ [b]) = (after batches).update b := by
  simp [after]

theorem rate_update (n : Normalizer ι) (b : List (Row ι ℝ)) : (n.update b).rate = max (n.rate - 1 / 100) (1 / 100) := by
  simp only [Normalizer.update]
  split
  · next h => exact (max_eq_right h.le).symm
  · next h => exact (max_eq_left (not_lt.mp h)).symm

/-- C65: the update rate begins with 1/2, goes down by 1/100 with every batch and stays at 1/100. -/
theorem C65_rate (batches : List (List (Row ι ℝ))) :
    (after batches).rate = max (1 / 2 - (batches.length : ℝ) / 100) (1 / 100) := by
  induction batches using List.reverseRecOn with
  | nil => simp only [after, List.foldl_nil, Normalizer.new, List.length_nil]; norm_num
  | append_singleton batches b ih =>
    rw [after_snoc, rate_update, ih, List.length_append, List.length_singleton]
    push_cast
    rcases le_total (1 / 2 - (batches.length : ℝ) / 100) (1 / 100) with h | h
    · rw [max_eq_right h, max_eq_right (by norm_num), max_eq_right (by linarith)]
    · rw [max_eq_left h]
      congr 1
      ring

/-- C65: so it is between 1/100 and 1/2 and never goes up. -/
theorem C65_rate_bounds (batches : List (List (Row ι ℝ))) (b : List (Row ι ℝ)) :
    1 / 100 ≤ (after batches).rate ∧ (after batches).rate ≤ 1 / 2 ∧ (after (batches ++ [b])).rate ≤ (after batches).rate := by
  have hn : (0 : ℝ) ≤ batches.length := by positivity
  have h1 : 1 / 100 ≤ (after batches).rate := by rw [C65_rate]; exact le_max_right _ _
  refine ⟨h1, ?_, ?_⟩
  · rw [C65_rate]; apply max_le <;> linarith
  · rw [after_snoc, rate_update]; apply max_le <;> linarith

/-- Every entry of the standard deviation is a number, and not less than the smallest one allowed. -/
def Healthy (n : Normalizer ι) : Prop :=
  ∀ m s, n.stats = some (m, s) → ∀ i, (∃ x, m i = some x) ∧ ∃ x, s i = some x ∧ 1 / 10 ^ 5 ≤ x

theorem eps_le_floor (s : Num) (x : ℝ) (h : floorStd s = some x) : 1 / 10 ^ 5 ≤ x := by
  cases s with
  | none => cases h
  | some s =>
    simp only [floorStd] at h
    split at h
    · cases h; exact le_refl _
    · next h' => cases h; exact not_lt.mp h'

theorem floor_some (s : ℝ) : ∃ x, floorStd (some s) = some x := by
  simp only [floorStd]; split <;> exact ⟨_, rfl⟩

/-- C65: after any batches, an entry of the standard deviation is nan or at least 1e-5. -/
theorem C65_floor (batches : List (List (Row ι ℝ))) (m s : Row ι Num) (h : (after batches).stats = some (m, s)) (i : ι) (x : ℝ)
    (hx : s i = some x) : 1 / 10 ^ 5 ≤ x := by
  induction batches using List.reverseRecOn with
  | nil => cases h
  | append_singleton batches b ih =>
    rw [after_snoc] at h
    simp only [Normalizer.update, Option.some.injEq, Prod.mk.injEq] at h
    rw [← h.2] at hx
    exact eps_le_floor _ _ hx

/-- The sample mean and the sample standard deviation (of at least two numbers). -/
def IsMeanStd (xs : List ℝ) (m s : ℝ) : Prop :=
  m * xs.length = xs.sum ∧ 0 ≤ s ∧ s ^ 2 * (xs.length - 1) = (xs.map fun x => (x - m) ^ 2).sum

theorem mean_std (xs : List ℝ) (h : 2 ≤ xs.length) : ∃ m s, mean xs = some m ∧ std xs = some s ∧ IsMeanStd xs m s := by
  have h2 : (2 : ℝ) ≤ xs.length := by exact_mod_cast h
  refine ⟨_, _, by rw [mean, if_neg (by omega)], by rw [std, if_neg (by omega)], ?_, Real.sqrt_nonneg _, ?_⟩
  · field_simp
  · rw [Real.sq_sqrt]
    · exact div_mul_cancel₀ _ (by linarith)
    · refine div_nonneg (List.sum_nonneg fun x hx => ?_) (by linarith)
      obtain ⟨_, _, rfl⟩ := List.mem_map.1 hx
      positivity

/-- C65: with the first batch the tracked numbers are the sample mean and standard deviation of its columns (the latter at least
1e-5); with every later one they move towards those of the batch, by the rate. -/
theorem C65_tracks (batches : List (List (Row ι ℝ))) (b : List (Row ι ℝ)) (hb : 2 ≤ b.length) (i : ι) :
    ∃ m s, IsMeanStd (b.map fun row => row i) m s ∧ ∃ M S, (after (batches ++ [b])).stats = some (M, S) ∧
      (batches = [] → M i = some m ∧ S i = some (max s (1 / 10 ^ 5))) ∧
      (∀ M₀ S₀ m₀ s₀, (after batches).stats = some (M₀, S₀) → M₀ i = some m₀ → S₀ i = some s₀ →
        M i = some (m₀ + (after batches).rate * (m - m₀)) ∧
          S i = some (max (s₀ + (after batches).rate * (s - s₀)) (1 / 10 ^ 5))) := by
  obtain ⟨m, s, h1, h2, h3⟩ := mean_std (b.map fun row => row i) (by simpa using hb)
  have hf : ∀ x : ℝ, floorStd (some x) = some (max x (1 / 10 ^ 5)) := by
    intro x
    rw [floorStd]
    by_cases h : x < eps
    · rw [if_pos h, ← eps, max_eq_right h.le]
    · rw [if_neg h, ← eps, max_eq_left (not_lt.1 h)]
  refine ⟨m, s, h3, _, _, (by rw [after_snoc]; simp only [Normalizer.update]; rfl), ?_, ?_⟩
  · rintro rfl
    simp only [after, List.foldl_nil, Normalizer.new]
    rw [h1, h2, hf]
    exact ⟨rfl, rfl⟩
  · intro M₀ S₀ m₀ s₀ hs hm hs'
    simp only [hs, hm, hs', h1, h2, Num.mul, Num.add, Num.map₂]
    rw [hf]
    constructor <;> congr 1
    · ring
    · congr 1
      ring

theorem healthy_new : Healthy (Normalizer.new : Normalizer ι) := by intro m s h; cases h

theorem healthy_update (n : Normalizer ι) (hn : Healthy n) (b : List (Row ι ℝ)) (hb : 2 ≤ b.length) : Healthy (n.update b) := by
  intro m s h i
  have hm : ∃ x, mean (b.map fun row => row i) = some x := by
    rw [mean, if_neg (by rw [List.length_map]; omega)]; exact ⟨_, rfl⟩
  have hs : ∃ x, std (b.map fun row => row i) = some x := by
    rw [std, if_neg (by rw [List.length_map]; omega)]; exact ⟨_, rfl⟩
  obtain ⟨bm, hbm⟩ := hm
  obtain ⟨bs, hbs⟩ := hs
  cases hst : n.stats with
  | none =>
    simp only [Normalizer.update, hst, Option.some.injEq, Prod.mk.injEq] at h
    obtain ⟨rfl, rfl⟩ := h
    refine ⟨⟨bm, hbm⟩, ?_⟩
    simp only [hbs]
    obtain ⟨x, hx⟩ := floor_some bs
    exact ⟨x, hx, eps_le_floor _ _ hx⟩
  | some p =>
    obtain ⟨m0, s0⟩ := p
    obtain ⟨⟨x0, h1⟩, y0, h2, h3⟩ := hn m0 s0 hst i
    simp only [Normalizer.update, hst, Option.some.injEq, Prod.mk.injEq] at h
    obtain ⟨rfl, rfl⟩ := h
    simp only [h1, h2, hbm, hbs, Num.mul, Num.add, Num.map₂]
    refine ⟨⟨_, rfl⟩, ?_⟩
    obtain ⟨x, hx⟩ := floor_some ((1 - n.rate) * y0 + n.rate * bs)
    exact ⟨x, hx, eps_le_floor _ _ hx⟩

theorem healthy_after (batches : List (List (Row ι ℝ))) (h : ∀ b ∈ batches, 2 ≤ b.length) : Healthy (after batches) := by
  induction batches using List.reverseRecOn with
  | nil => exact healthy_new
  | append_singleton batches b ih =>
    rw [after_snoc]
    exact healthy_update _ (ih fun b hb => h b (by simp [hb])) b (h b (by simp))

theorem inverse_of_healthy (n : Normalizer ι) (h : Healthy n) (v : Row ι ℝ) :
    n.denormalize (n.normalize fun i => some (v i)) = (fun i => some (v i)) ∧
      n.normalize (n.denormalize fun i => some (v i)) = fun i => some (v i) := by
  cases hst : n.stats with
  | none => simp [Normalizer.normalize, Normalizer.denormalize, hst]
  | some p =>
    obtain ⟨m, s⟩ := p
    constructor <;>
    · funext i
      obtain ⟨⟨x, h1⟩, y, h2, h3⟩ := h m s hst i
      have hy : y ≠ 0 := by have : (0 : ℝ) < 1 / 10 ^ 5 := by norm_num
                            linarith
      simp only [Normalizer.normalize, Normalizer.denormalize, hst, h1, h2, Num.mul, Num.sub, Num.add, Num.div, Num.map₂,
        if_neg hy, Option.some.injEq]
      field_simp
      ring

/-- C65 for batches of two rows or more: `denormalize` and `normalize` are inverse to each other at all times. -/
theorem C65_inverse_partial (batches : List (List (Row ι ℝ))) (h : ∀ b ∈ batches, 2 ≤ b.length) (v : Row ι ℝ) :
    (after batches).denormalize ((after batches).normalize fun i => some (v i)) = (fun i => some (v i)) ∧
      (after batches).normalize ((after batches).denormalize fun i => some (v i)) = fun i => some (v i) :=
  inverse_of_healthy _ (healthy_after batches h) v

/-- C65 for batches of two rows or more: the standard deviation is a number, and at least 1e-5. -/
theorem C65_floor_partial (batches : List (List (Row ι ℝ))) (h : ∀ b ∈ batches, 2 ≤ b.length) (m s : Row ι Num)
    (hs : (after batches).stats = some (m, s)) (i : ι) : ∃ x, s i = some x ∧ 1 / 10 ^ 5 ≤ x :=
  (healthy_after batches h m s hs i).2

theorem sum_bounds (xs : List ℝ) (lo hi : ℝ) (h : ∀ x ∈ xs, lo ≤ x ∧ x ≤ hi) :
    xs.length * lo ≤ xs.sum ∧ xs.sum ≤ xs.length * hi := by
  induction xs with
  | nil => simp
  | cons x xs ih =>
    obtain ⟨h1, h2⟩ := ih fun y hy => h y (List.mem_cons_of_mem _ hy)
    obtain ⟨h3, h4⟩ := h x List.mem_cons_self
    rw [List.length_cons, List.sum_cons]
    push_cast
    constructor <;> linarith

theorem mean_bounds (xs : List ℝ) (lo hi : ℝ) (h : ∀ x ∈ xs, lo ≤ x ∧ x ≤ hi) (hn : xs ≠ []) :
    ∃ x, mean xs = some x ∧ lo ≤ x ∧ x ≤ hi := by
  have hl : xs.length ≠ 0 := by simpa [List.length_eq_zero_iff] using hn
  have hp : (0 : ℝ) < xs.length := by exact_mod_cast Nat.pos_of_ne_zero hl
  obtain ⟨h1, h2⟩ := sum_bounds xs lo hi h
  refine ⟨xs.sum / xs.length, by rw [mean, if_neg hl], ?_, ?_⟩
  · rw [le_div_iff₀ hp]; linarith
  · rw [div_le_iff₀ hp]; linarith

/-- C65: the tracked mean lies within the range of the data it has been given, column by column. -/
theorem C65_mean (batches : List (List (Row ι ℝ))) (h : ∀ b ∈ batches, b ≠ []) (i : ι) (lo hi : ℝ)
    (hd : ∀ b ∈ batches, ∀ row ∈ b, lo ≤ row i ∧ row i ≤ hi) (m s : Row ι Num) (hs : (after batches).stats = some (m, s)) :
    ∃ x, m i = some x ∧ lo ≤ x ∧ x ≤ hi := by
  induction batches using List.reverseRecOn generalizing m s with
  | nil => cases hs
  | append_singleton batches b ih =>
    rw [after_snoc] at hs
    obtain ⟨x, e, h1, h2⟩ := mean_bounds (b.map fun row => row i) lo hi
      (by intro x hx; obtain ⟨r, hr, rfl⟩ := List.mem_map.mp hx; exact hd b (by simp) r hr)
      (by simpa using h b (by simp))
    cases hst : (after batches).stats with
    | none =>
      simp only [Normalizer.update, hst, Option.some.injEq, Prod.mk.injEq] at hs
      rw [← hs.1]
      exact ⟨x, e, h1, h2⟩
    | some p =>
      obtain ⟨m0, s0⟩ := p
      obtain ⟨y, e', h3, h4⟩ := ih (fun b hb => h b (by simp [hb])) (fun b hb => hd b (by simp [hb])) m0 s0 hst
      simp only [Normalizer.update, hst, Option.some.injEq, Prod.mk.injEq] at hs
      rw [← hs.1]
      simp only [e, e', Num.mul, Num.add, Num.map₂]
      obtain ⟨r1, r2, -⟩ := C65_rate_bounds batches []
      refine ⟨_, rfl, ?_, ?_⟩ <;> nlinarith

theorem poisoned_update (n : Normalizer ι) (b : List (Row ι ℝ)) (i : ι) (m s : Row ι Num) (h : n.stats = some (m, s))
    (hs : s i = none) : ∃ m' s', (n.update b).stats = some (m', s') ∧ s' i = none := by
  refine ⟨_, _, by simp only [Normalizer.update]; rfl, ?_⟩
  simp [h, hs, Num.mul, Num.add, Num.map₂, floorStd]

/-- C65: one batch with a single row turns all entries of the standard deviation into nan, for ever: from then on
everything that is normalised or denormalised is nan, whatever batches come before and after. -/
theorem C65_poisoned (before later : List (List (Row ι ℝ))) (row : Row ι ℝ) (v : Row ι Num) (i : ι) :
    let n := after (before ++ [[row]] ++ later)
    n.normalize v i = none ∧ n.denormalize v i = none := by
  intro n
  have key : ∃ m s, n.stats = some (m, s) ∧ s i = none := by
    induction later using List.reverseRecOn with
    | nil =>
      simp only [n, List.append_nil, after_snoc]
      refine ⟨_, _, by simp only [Normalizer.update]; rfl, ?_⟩
      cases (after before).stats with
      | none => simp [std, floorStd]
      | some p => 
        obtain ⟨m, s⟩ := p
        cases hs : s i <;> simp [std, floorStd, Num.mul, Num.add, Num.map₂, hs]
    | append_singleton later b ih =>
      obtain ⟨m, s, h1, h2⟩ := ih
      simp only [n, ← List.append_assoc, after_snoc]
      exact poisoned_update _ b i m s (by simpa using h1) h2
  obtain ⟨m, s, h1, h2⟩ := key
  constructor
  · simp only [Normalizer.normalize, h1, h2]
    cases (Num.sub (v i) (m i)) <;> rfl
  · simp [Normalizer.denormalize, h1, h2, Num.mul, Num.add, Num.map₂]

/-- C65, the claim for all batches. -/
def C65_claim : Prop :=
  ∀ (batches : List (List (Row Unit ℝ))) (v : Row Unit ℝ),
    (after batches).denormalize ((after batches).normalize fun i => some (v i)) = fun i => some (v i)

/-- C65 is false for the code. -/
theorem C65_false : ¬ C65_claim := by
  intro h
  have h1 := congrFun (h [[fun _ => 0]] fun _ => 0) ()
  have h2 := (C65_poisoned [] [] (fun _ => 0) ((after [[fun _ => 0]]).normalize fun _ => some 0) ()).2
  simp only [List.nil_append, List.append_nil] at h2
  rw [h2] at h1
  cases h1

example : ((after [[fun _ => 0, fun _ => 1, fun _ => (2 : ℝ)]] : Normalizer Unit).normalize fun _ => some 5) () = some 4 := by
  have h1 : (0 + (1 + 2) : ℝ) / 3 = 1 := by norm_num
  simp [after, Normalizer.update, Normalizer.new, mean, std, Normalizer.normalize, floorStd, eps]
  norm_num
  simp [Num.div, Num.sub, Num.map₂]
  norm_num

/-! ## C66 -/

/-- The dimensions in a list, counted from the end if negative. -/
def Spec.listed (d : Nat) (dims : List Int) (i : Fin d) : Prop := ∃ dim ∈ dims, dim = i ∨ dim = (i : Int) - d

/-- All of the list are dimensions. -/
def Spec.valid (d : Nat) (dims : List Int) : Prop := ∀ dim ∈ dims, -(d : Int) ≤ dim ∧ dim < d

theorem resolve_ok (d : Nat) (dim : Int) (h : -(d : Int) ≤ dim ∧ dim < d) :
    ∃ i, resolve d dim = .ok i ∧ ∀ j : Fin d, j = i ↔ dim = j ∨ dim = (j : Int) - d := by
  unfold resolve
  by_cases h0 : 0 ≤ dim ∧ dim < d
  · rw [dif_pos h0]
    refine ⟨_, rfl, fun j => ?_⟩
    rw [Fin.ext_iff]
    have := j.isLt
    simp only
    omega
  · rw [dif_neg h0, dif_pos (by omega)]
    refine ⟨_, rfl, fun j => ?_⟩
    rw [Fin.ext_iff]
    have := j.isLt
    simp only
    omega

theorem resolve_error (d : Nat) (dim : Int) (h : ¬ (-(d : Int) ≤ dim ∧ dim < d)) : resolve d dim = .error .indexError := by
  unfold resolve
  rw [dif_neg (by omega), dif_neg (by omega)]

theorem override_ok (dims : List Int) (x y : Row (Fin d) β) (h : Spec.valid d dims) :
    ∃ z, override dims x y = .ok z ∧ ∀ i, (Spec.listed d dims i → z i = y i) ∧ (¬ Spec.listed d dims i → z i = x i) := by
  induction dims generalizing x with
  | nil => exact ⟨x, rfl, fun i => ⟨fun ⟨_, hm, _⟩ => absurd hm List.not_mem_nil, fun _ => rfl⟩⟩
  | cons dim dims ih =>
    obtain ⟨k, hk, hk'⟩ := resolve_ok d dim (h dim List.mem_cons_self)
    obtain ⟨z, hz, hz'⟩ := ih (fun j => if j = k then y j else x j) fun e he => h e (List.mem_cons_of_mem _ he)
    refine ⟨z, by simp only [override, hk, hz], fun i => ?_⟩
    obtain ⟨h1, h2⟩ := hz' i
    have hk' := hk' i
    constructor
    · rintro ⟨e, he, he'⟩
      rcases List.mem_cons.mp he with rfl | he
      · by_cases hl : Spec.listed d dims i
        · exact h1 hl
        · rw [h2 hl, if_pos (hk'.mpr he')]
      · exact h1 ⟨e, he, he'⟩
    · intro hn
      have n1 : ¬ Spec.listed d dims i := fun ⟨e, he, he'⟩ => hn ⟨e, List.mem_cons_of_mem _ he, he'⟩
      rw [h2 n1, if_neg]
      intro e
      exact hn ⟨dim, List.mem_cons_self, hk'.mp e⟩

theorem override_error (dims : List Int) (x y : Row (Fin d) β) (h : ¬ Spec.valid d dims) :
    override dims x y = .error .indexError := by
  induction dims generalizing x with
  | nil => exact absurd (fun _ hm => absurd hm List.not_mem_nil) h
  | cons dim dims ih =>
    by_cases hd : -(d : Int) ≤ dim ∧ dim < d
    · obtain ⟨k, hk, -⟩ := resolve_ok d dim hd
      simp only [override, hk]
      apply ih
      intro hv
      apply h
      intro e he
      rcases List.mem_cons.mp he with rfl | he
      · exact hd
      · exact hv e he
    · simp only [override, resolve_error d dim hd]

/-- The unnormalised training target of a transition: the observation's change, or for the listed dimensions the next
observation itself, and the reward. -/
def Spec.IsTarget (dims : List Int) (learned : Bool) (t : Transition d α) (y : Row (Target d learned) Num) : Prop :=
  (∀ i, (Spec.listed d dims i → y (.inl i) = some (t.next i)) ∧
    (¬ Spec.listed d dims i → y (.inl i) = some (t.next i - t.obs i))) ∧ ∀ k, y (.inr k) = some t.reward

/-- The two normalisers of the model have only been given batches of two rows or more. -/
def Model.Healthy (m : Model d α ο learned) : Prop := Dyn.Healthy m.input ∧ Dyn.Healthy m.target

theorem targetObs_ok (dims : List Int) (ts : List (Transition d α)) (h : Spec.valid d dims) :
    ∃ rs, targetObs dims ts = .ok rs ∧ rs.length = ts.length ∧
      ∀ (k : Nat) t r, ts[k]? = some t → rs[k]? = some r →
        ∀ i, (Spec.listed d dims i → r i = t.next i) ∧ (¬ Spec.listed d dims i → r i = t.next i - t.obs i) := by
  induction ts with
  | nil => exact ⟨[], rfl, rfl, by simp⟩
  | cons t ts ih =>
    obtain ⟨rs, h1, h2, h3⟩ := ih
    obtain ⟨z, hz, hz'⟩ := override_ok dims (fun i => t.next i - t.obs i) t.next h
    refine ⟨z :: rs, by simp only [targetObs, hz, h1], by simp [h2], fun k t' r ht hr => ?_⟩
    cases k with
    | zero => 
      simp only [List.getElem?_cons_zero, Option.some.injEq] at ht hr
      subst ht; subst hr; exact hz'
    | succ k => exact h3 k t' r (by simpa using ht) (by simpa using hr)

/-- what `process_batch` returns -/
theorem processBatch_ok (m : Model d α ο learned) (hm : m.Healthy) (batch : List (Transition d α)) (hb : 2 ≤ batch.length)
    (hv : Spec.valid d m.noDelta) :
    ∃ m' xs ys, m.processBatch batch = .ok (m', xs, ys) ∧ m'.Healthy := by
  obtain ⟨rs, h1, h2, -⟩ := targetObs_ok m.noDelta batch hv
  refine ⟨_, _, _, by simp only [Model.processBatch, h1]; rfl, ?_, ?_⟩
  · exact healthy_update _ hm.1 _ (by simpa using hb)
  · exact healthy_update _ hm.2 _ (by simp [h2]; omega)

/-- C66: the training targets are, up to normalisation, the changes of the observations (the next observations for the
listed dimensions) and the rewards, one for each transition in order; the inputs belong to the same transitions. -/
theorem C66_targets_partial (m : Model d α ο learned) (hm : m.Healthy) (batch : List (Transition d α)) (hb : 2 ≤ batch.length)
    (m' : Model d α ο learned) (xs : List (Row (ο ⊕ α) Num)) (ys : List (Row (Target d learned) Num))
    (hp : m.processBatch batch = .ok (m', xs, ys)) :
    xs.length = batch.length ∧ ys.length = batch.length ∧
      ∀ (k : Nat) t x y, batch[k]? = some t → xs[k]? = some x → ys[k]? = some y →
        Spec.IsTarget m.noDelta learned t (m'.target.denormalize y) ∧
        m'.input.denormalize x = fun i => some (Sum.elim (m.process t.obs) t.action i) := by
  have hv : Spec.valid d m.noDelta := by
    by_contra hv
    cases batch with
    | nil => simp at hb
    | cons t ts => simp [Model.processBatch, targetObs, override_error _ _ _ hv] at hp
  obtain ⟨rs, h1, h2, h3⟩ := targetObs_ok m.noDelta batch hv
  simp only [Model.processBatch, h1, Except.ok.injEq, Prod.mk.injEq] at hp
  obtain ⟨rfl, rfl, rfl⟩ := hp
  refine ⟨by simp, by simp [h2], fun k t x y ht hx hy => ?_⟩
  simp only [List.getElem?_map, Option.map_eq_some_iff, ht, Option.some.injEq, List.getElem?_zipWith] at hx hy
  obtain ⟨_, ⟨_, rfl, rfl⟩, rfl⟩ := hx
  obtain ⟨w, hw, rfl⟩ := hy
  have hk : k < rs.length := by rw [h2]; exact (List.getElem?_eq_some_iff.mp ht).1
  have hr : rs[k]? = some rs[k] := List.getElem?_eq_getElem hk
  simp only [hr, Option.some.injEq] at hw
  subst hw
  obtain h3 := h3 k t _ ht hr
  constructor
  · have e := (inverse_of_healthy _ (healthy_update m.target hm.2
      (List.zipWith (fun o (t : Transition d α) => (Sum.elim o (fun _ => t.reward) : Row (Target d learned) ℝ)) rs batch)
      (by simp [h2]; omega)) (Sum.elim rs[k] fun _ => t.reward)).1
    simp only
    rw [e]
    refine ⟨fun i => ⟨fun hi => ?_, fun hi => ?_⟩, fun _ => rfl⟩
    · simp [(h3 i).1 hi]
    · simp [(h3 i).2 hi]
  · exact (inverse_of_healthy _ (healthy_update m.input hm.1 _ (by simpa using hb)) _).1

/-- C66 for batches of two rows or more: if the wrapped model predicts the training targets of a batch, then sampling at
the observation and action of one of its transitions gives that transition's next observation and reward (if rewards are
learned). -/
theorem C66_inverse_partial (m : Model d α ο learned) (hm : m.Healthy) (batch : List (Transition d α)) (hb : 2 ≤ batch.length)
    (m' : Model d α ο learned) (xs : List (Row (ο ⊕ α) Num)) (ys : List (Row (Target d learned) Num))
    (hp : m.processBatch batch = .ok (m', xs, ys)) :
    ∀ net : Row (ο ⊕ α) Num → Row (Target d learned) Num,
      (∀ (k : Nat) x y, xs[k]? = some x → ys[k]? = some y → net x = y) →
      ∀ t ∈ batch, m'.sample net t.action t.obs = .ok (fun i => some (t.next i), fun _ => some t.reward) := by
  have hv : Spec.valid d m.noDelta := by
    by_contra hv
    cases batch with
    | nil => simp at hb
    | cons t ts => simp [Model.processBatch, targetObs, override_error _ _ _ hv] at hp
  obtain ⟨l1, l2, ht⟩ := C66_targets_partial m hm batch hb m' xs ys hp
  have hp0 := hp
  obtain ⟨rs, h1, h2, -⟩ := targetObs_ok m.noDelta batch hv
  simp only [Model.processBatch, h1, Except.ok.injEq, Prod.mk.injEq] at hp
  obtain ⟨e1, e2, e3⟩ := hp
  subst e1
  intro net hnet t htb
  obtain ⟨k, hk⟩ := List.mem_iff_getElem?.mp htb
  have hkl : k < batch.length := (List.getElem?_eq_some_iff.mp hk).1
  obtain ⟨x, hx⟩ : ∃ x, xs[k]? = some x := ⟨_, List.getElem?_eq_getElem (by omega)⟩
  obtain ⟨y, hy⟩ : ∃ y, ys[k]? = some y := ⟨_, List.getElem?_eq_getElem (by omega)⟩
  obtain ⟨⟨g1, g2⟩, -⟩ := ht k t x y hk hx hy
  have hxe : x = (m.input.update (batch.map fun t => m.modelInput t.obs t.action)).normalize
      fun i => some (m.modelInput t.obs t.action i) := by
    rw [← e2] at hx
    simp only [List.getElem?_map, hk, Option.map_some, Option.some.injEq] at hx
    exact hx.symm
  have hny : net x = y := hnet k x y hx hy
  simp only [Model.sample]
  have hmi : ∀ (a : Normalizer (ο ⊕ α)) (b : Normalizer (Target d learned)) o c,
    Model.modelInput ({ m with input := a, target := b } : Model d α ο learned) o c = m.modelInput o c := fun _ _ _ _ => rfl
  simp only [hmi, ← hxe, hny]
  generalize hdn : Normalizer.denormalize _ y = p
  simp only [hdn] at g1 g2
  obtain ⟨z, hz, hz'⟩ := override_ok m.noDelta (fun i => Num.add (p (.inl i)) (some (t.obs i))) (fun i => p (.inl i)) hv
  rw [hz]
  simp only [Except.ok.injEq, Prod.mk.injEq]
  refine ⟨?_, funext fun i => g2 i⟩
  funext i
  by_cases hi : Spec.listed d m.noDelta i
  · rw [(hz' i).1 hi, (g1 i).1 hi]
  · rw [(hz' i).2 hi, (g1 i).2 hi]
    simp [Num.add, Num.map₂]

/-- C66: with a dimension that does not exist both sides raise. -/
theorem C66_index (m : Model d α ο learned) (h : ¬ Spec.valid d m.noDelta) (t : Transition d α) (ts : List (Transition d α))
    (net : Row (ο ⊕ α) Num → Row (Target d learned) Num) (action : Row α ℝ) (obs : Row (Fin d) ℝ) :
    (m.processBatch (t :: ts)).map (fun _ => ()) = .error .indexError ∧ m.sample net action obs = .error .indexError := by
  constructor
  · simp [Model.processBatch, targetObs, override_error _ _ _ h, Except.map]
  · simp [Model.sample, override_error _ _ _ h]

/-- Batches one after the other: the model in the end. -/
noncomputable def Model.train (m : Model d α ο learned) : List (List (Transition d α)) → Except Err (Model d α ο learned)
  | [] => .ok m
  | b :: bs => match m.processBatch b with
    | .ok (m, _, _) => m.train bs
    | .error e => .error e

noncomputable def Model.new (noDelta : List Int) (process : Row (Fin d) ℝ → Row ο ℝ) : Model d α ο learned :=
  ⟨noDelta, process, .new, .new⟩

/-- The hypothesis of C66 holds for every model that has been trained with batches of two rows or more. -/
theorem C66_reachable (noDelta : List Int) (process : Row (Fin d) ℝ → Row ο ℝ)
    (hv : Spec.valid d noDelta) (batches : List (List (Transition d α))) (hb : ∀ b ∈ batches, 2 ≤ b.length) :
    ∃ m : Model d α ο learned, (Model.new noDelta process).train batches = .ok m ∧ m.Healthy := by
  have h0 : (Model.new noDelta process : Model d α ο learned).Healthy := ⟨healthy_new, healthy_new⟩
  have hv' : Spec.valid d (Model.new noDelta process : Model d α ο learned).noDelta := hv
  generalize (Model.new noDelta process : Model d α ο learned) = m at h0 hv'
  induction batches generalizing m with
  | nil => exact ⟨m, rfl, h0⟩
  | cons b bs ih =>
    obtain ⟨m', xs, ys, e, h⟩ := processBatch_ok m h0 b (hb b List.mem_cons_self) hv'
    have hn : m'.noDelta = m.noDelta := by
      obtain ⟨rs, h1, -⟩ := targetObs_ok m.noDelta b hv'
      simp only [Model.processBatch, h1, Except.ok.injEq, Prod.mk.injEq] at e
      rw [← e.1]
    obtain ⟨m'', h1, h2⟩ := ih (fun b hb' => hb b (List.mem_cons_of_mem _ hb')) m' h (hn ▸ hv')
    exact ⟨m'', by simpa only [Model.train, e] using h1, h2⟩

/-- C66, the claim for all batches. -/
def C66_claim : Prop :=
  ∀ (m' : Model 1 Empty (Fin 1) false) (batch : List (Transition 1 Empty)) (xs : List (Row (Fin 1 ⊕ Empty) Num))
    (ys : List (Row (Target 1 false) Num)), (Model.new [] id).processBatch batch = .ok (m', xs, ys) →
    ∀ net : Row (Fin 1 ⊕ Empty) Num → Row (Target 1 false) Num,
      (∀ (k : Nat) x y, xs[k]? = some x → ys[k]? = some y → net x = y) →
      ∀ t ∈ batch, m'.sample net t.action t.obs = .ok (fun i => some (t.next i), fun _ => some t.reward)

/-- C66 is false for the code: after a batch with a single row everything is nan. -/
theorem C66_false : ¬ C66_claim := by
  intro h
  let t : Transition 1 Empty := ⟨fun _ => 0, fun _ => 1, Empty.elim, 0⟩
  have h1 := h _ [t] _ _ rfl (fun _ => (after [[Sum.elim (fun _ => 1) fun _ => 0]]).normalize
    (fun i => some (Sum.elim (fun _ => 1) (fun _ => 0) i))) (by
      intro k x y hx hy
      cases k with
      | zero => 
        simp only [List.map_cons, List.zipWith_cons_cons, List.getElem?_cons_zero, Option.some.injEq] at hy
        rw [← hy]
        have e : (fun i => t.next i - t.obs i) = fun _ => (1 : ℝ) := by funext i; simp [t]
        simp only [e, after, List.foldl_cons, List.foldl_nil]
        rfl
      | succ k => simp at hx) t List.mem_cons_self
  simp only [Model.sample, Model.new, override, Except.ok.injEq, Prod.mk.injEq] at h1
  have h2 := congrFun h1.1 0
  have h3 := (C65_poisoned [] [] (Sum.elim (fun i => t.next i - t.obs i) fun _ => t.reward : Row (Target 1 false) ℝ)
    ((after [[Sum.elim (fun _ => 1) fun _ => 0]]).normalize
    (fun i => some (Sum.elim (fun _ => 1) (fun _ => 0) i))) (.inl 0)).2
  simp only [List.nil_append, List.append_nil, after, List.foldl_cons, List.foldl_nil] at h3
  simp only [List.zipWith_cons_cons, List.zipWith_nil_left, after, List.foldl_cons, List.foldl_nil, h3] at h2
  cases h2

/-- two transitions of a counter, the second column absolute: a net that predicts them exists -/
example : ∃ (m' : Model 2 Empty (Fin 2) true) (xs : List (Row (Fin 2 ⊕ Empty) Num)) (ys : List (Row (Target 2 true) Num)),
    (Model.new [-1] id : Model 2 Empty (Fin 2) true).processBatch
      [⟨![0, 5], ![1, 6], Empty.elim, 1⟩, ⟨![1, 6], ![2, 9], Empty.elim, 2⟩] = .ok (m', xs, ys) ∧
    m'.target.denormalize (ys[1]?.getD fun _ => none) (.inl 1) = some 9 := by
  have hv : Spec.valid 2 [-1] := by intro e he; simp at he; subst he; decide
  have h0 : (Model.new [-1] id : Model 2 Empty (Fin 2) true).Healthy := ⟨healthy_new, healthy_new⟩
  obtain ⟨m', xs, ys, e, -⟩ := processBatch_ok _ h0
    [⟨![0, 5], ![1, 6], Empty.elim, 1⟩, ⟨![1, 6], ![2, 9], Empty.elim, 2⟩] (by simp) hv
  obtain ⟨l1, l2, h⟩ := C66_targets_partial _ h0 _ (by simp) m' xs ys e
  simp only [List.length_cons, List.length_nil] at l1 l2
  have hx : xs[1]? = some xs[1] := List.getElem?_eq_getElem _
  have hy : ys[1]? = some ys[1] := List.getElem?_eq_getElem _
  refine ⟨m', xs, ys, e, ?_⟩
  have := ((h 1 _ _ _ rfl hx hy).1.1 1).1 ⟨-1, by simp [Model.new], Or.inr (by decide)⟩
  rw [hy]
  simpa using this

end Dyn

end Verif
