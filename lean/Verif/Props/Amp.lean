import Verif.Model.Amp
import Mathlib.Tactic.Linarith
import Mathlib.Tactic.Ring
import Mathlib.Tactic.NormNum
import Mathlib.Tactic.Positivity
import Mathlib.Algebra.Order.Ring.Rat
import Mathlib.Algebra.Order.Field.Rat

/-!
# Adversarial rewards (C89, C90)

For all batches, rollout lengths, weights and discriminators.
-/

namespace Verif

namespace Amp

variable {O S K : Type}

/-! ## C89 -/

/-- What comes after row `i` in a batch of rollouts of length `L`: the next row of the same rollout, or after the last one the
final observation of that rollout. -/
def Spec.after (L : Nat) (obs next : List O) (i : Nat) : Option O :=
  if (i + 1) % L = 0 then next[i / L]? else obs[i + 1]?

theorem chunks_length (n k : Nat) (l : List O) : (chunks n k l).length = k := by
  induction k generalizing l with
  | zero => rfl
  | succ k ih => simp [chunks, ih]

theorem flat_length (L : Nat) (k : Nat) (obs next : List O) (hL : 0 < L) (ho : obs.length = k * L) (hn : next.length = k) :
    ((List.zipWith (fun r n => (r ++ [n]).drop 1) (chunks L k obs) next).flatten).length = k * L := by
  induction k generalizing obs next with
  | zero => simp [chunks]
  | succ k ih =>
    cases next with
    | nil => simp at hn
    | cons n next =>
      simp only [List.length_cons, Nat.add_right_cancel_iff] at hn
      rw [Nat.succ_mul] at ho ⊢
      simp only [chunks, List.zipWith_cons_cons, List.flatten_cons, List.length_append, List.length_drop, List.length_take,
        List.length_singleton, ih (obs.drop L) next (by rw [List.length_drop]; omega) hn]
      omega

theorem flat_get (L : Nat) (k : Nat) (obs next : List O) (hL : 0 < L) (ho : obs.length = k * L) (hn : next.length = k) (i : Nat)
    (hi : i < k * L) :
    ((List.zipWith (fun r n => (r ++ [n]).drop 1) (chunks L k obs) next).flatten)[i]? = Spec.after L obs next i := by
  induction k generalizing obs next i with
  | zero => simp at hi
  | succ k ih =>
    cases next with
    | nil => simp at hn
    | cons n next =>
      simp only [List.length_cons, Nat.add_right_cancel_iff] at hn
      rw [Nat.succ_mul] at ho hi
      simp only [chunks, List.zipWith_cons_cons, List.flatten_cons]
      have hlen : ((obs.take L ++ [n]).drop 1).length = L := by
        simp only [List.length_drop, List.length_append, List.length_take, List.length_singleton]; omega
      by_cases hiL : i < L
      · rw [List.getElem?_append_left (by omega), List.getElem?_drop, Spec.after]
        by_cases h : i + 1 = L
        · rw [if_pos (by rw [h, Nat.mod_self]), Nat.div_eq_of_lt hiL, List.getElem?_append_right (by simp; omega)]
          have : 1 + i - (obs.take L).length = 0 := by rw [List.length_take]; omega
          rw [this]; rfl
        · rw [if_neg (by rw [Nat.mod_eq_of_lt (by omega)]; omega), List.getElem?_append_left (by rw [List.length_take]; omega),
            List.getElem?_take_of_lt (by omega), Nat.add_comm]
      · rw [List.getElem?_append_right (by omega), hlen, ih (obs.drop L) next (by rw [List.length_drop]; omega) hn (i - L) (by omega)]
        unfold Spec.after
        have e1 : (i - L + 1) % L = (i + 1) % L := by
          rw [show i + 1 = (i - L + 1) + L by omega, Nat.add_mod_right]
        have e2 : i / L = (i - L) / L + 1 := by
          rw [show i = (i - L) + L by omega, Nat.add_div_right _ hL, Nat.add_sub_cancel]
        rw [e1, e2, List.getElem?_drop, show L + (i - L + 1) = i + 1 by omega, List.getElem?_cons_succ]

variable [Field K]

/-- C89: with a discriminator that judges each row for itself, each reward of a batch of rollouts is increased by the style
reward for the transition from its own state to the state after it, within the same rollout. -/
theorem C89 (L : Nat) (hL : 0 < L) (w : K) (map : O → S) (disc : List (S × S) → List K) (d : S × S → K)
    (hd : ∀ b, disc b = b.map d) (k : Nat) (hk : 0 < k) (obs next : List O) (rewards : List K) (ho : obs.length = k * L)
    (hn : next.length = k) (hr : rewards.length = k * L) :
    ∃ out, ampReward L w map disc obs next rewards = .ok out ∧ out.length = k * L ∧
      ∀ i, i < k * L → ∃ r o o', rewards[i]? = some r ∧ obs[i]? = some o ∧ Spec.after L obs next i = some o' ∧
        out[i]? = some (r + w * (1 - 1 / 4 * (d (map o, map o') - 1) ^ 2)) := by
  have hpos : 0 < k * L := Nat.mul_pos hk hL
  have hdiv : obs.length / L = k := by rw [ho, Nat.mul_div_cancel _ hL]
  have hs : successors L obs next = .ok ((List.zipWith (fun r n => (r ++ [n]).drop 1) (chunks L k obs) next).flatten) := by
    unfold successors rollouts
    rw [if_neg (by omega), if_neg (by omega), if_pos (by rw [hdiv, ho]), hdiv]
    simp only [chunks_length, hn, if_true]
  have hfl := flat_length L k obs next hL ho hn
  have hfg := flat_get L k obs next hL ho hn
  unfold ampReward
  rw [hs]
  simp only [hd]
  generalize (List.zipWith (fun r n => (r ++ [n]).drop 1) (chunks L k obs) next).flatten = succ at hfl hfg
  rw [if_pos (by simp [ho, hfl, hr])]
  refine ⟨_, rfl, by simp [ho, hfl, hr], fun i hi => ?_⟩
  have h1 : i < rewards.length := by omega
  have h2 : i < obs.length := by omega
  have h3 : i < succ.length := by omega
  refine ⟨rewards[i], obs[i], succ[i], List.getElem?_eq_getElem h1, List.getElem?_eq_getElem h2, ?_, ?_⟩
  · rw [← hfg i hi, List.getElem?_eq_getElem h3]
  · rw [List.getElem?_eq_getElem (by simp; omega)]
    simp [style]

theorem rollouts_ok (L : Nat) (obs : List O) (rs : List (List O)) (h : rollouts L obs = .ok rs) :
    0 < L ∧ 0 < obs.length ∧ rs.length * L = obs.length := by
  unfold rollouts at h
  by_cases h1 : L = 0
  · rw [if_pos h1] at h; cases h
  · by_cases h2 : obs.length = 0
    · rw [if_neg h1, if_pos h2] at h; cases h
    · by_cases h3 : obs.length / L * L = obs.length
      · rw [if_neg h1, if_neg h2, if_pos h3] at h
        cases h
        rw [chunks_length]
        exact ⟨by omega, by omega, h3⟩
      · rw [if_neg h1, if_neg h2, if_neg h3] at h; cases h

/-- C89: a batch is only accepted when it is made of whole rollouts with one final observation each, and one reward and one
prediction per row. -/
theorem C89_refused (L : Nat) (w : K) (map : O → S) (disc : List (S × S) → List K) (d : S × S → K) (hd : ∀ b, disc b = b.map d)
    (obs next : List O) (rewards out : List K)
    (h : ampReward L w map disc obs next rewards = .ok out) :
    0 < L ∧ 0 < next.length ∧ obs.length = next.length * L ∧ rewards.length = obs.length := by
  unfold ampReward successors at h
  cases hr : rollouts L obs with
  | error e => rw [hr] at h; cases h
  | ok rs =>
    rw [hr] at h
    obtain ⟨h1, h2, h3⟩ := rollouts_ok L obs rs hr
    by_cases hl : rs.length = next.length
    · simp only [hl, if_true, hd] at h
      have hdiv : obs.length / L = next.length := by rw [← h3, Nat.mul_div_cancel _ h1, hl]
      have hrs : rs = chunks L next.length obs := by
        unfold rollouts at hr
        rw [if_neg (by omega), if_neg (by omega), if_pos (by rw [hdiv, ← hl, h3]), hdiv] at hr
        cases hr; rfl
      have hfl := flat_length L next.length obs next h1 (by rw [← hl, h3]) rfl
      rw [← hrs] at hfl
      refine ⟨h1, ?_, by rw [← hl, h3], ?_⟩
      · rcases Nat.eq_zero_or_pos next.length with h0 | h0
        · rw [hl, h0] at h3; omega
        · exact h0
      · rw [hl] at h3
        by_contra hne
        rw [if_neg (by simp only [List.length_map, List.length_zip, hfl]; omega)] at h
        cases h
    · simp only [hl, if_false] at h; cases h

/-- A concrete case: two rollouts of length 2. The second row's next state is the final observation of the first rollout, not
the first row of the second. -/
example : ampReward (O := Int) 2 (1 : ℚ) id (fun b => b.map fun p => (p.2 - p.1 : ℤ)) [0, 1, 10, 12] [4, 13] [5, 5, 5, 5] =
    .ok [6, 5, 23/4, 6] := by decide +kernel

/-- A concrete case: three rows are not rollouts of length 2. -/
example : ampReward (O := Int) 2 (1 : ℚ) id (fun b => b.map fun p => (p.2 - p.1 : ℤ)) [0, 1, 10] [4] [5, 5, 5] =
    .error .runtimeError := by decide +kernel

/-! ## C90 -/

variable [LinearOrder K] [IsStrictOrderedRing K]

theorem clamp_bounds (x : K) : -1 ≤ clamp x ∧ clamp x ≤ 1 := by
  unfold clamp
  refine ⟨le_min (le_max_right _ _) (by linarith), min_le_right _ _⟩

theorem clamp_id (x : K) (h1 : -1 ≤ x) (h2 : x ≤ 1) : clamp x = x := by
  unfold clamp
  rw [max_eq_left h1, min_eq_left h2]

/-- The term of the confusion reward for one side. -/
theorem confusion_term (x : K) (h1 : -1 ≤ x) (h2 : x ≤ 1) : 0 ≤ 1 - 1 / 4 * (x - 1) ^ 2 ∧ 1 - 1 / 4 * (x - 1) ^ 2 ≤ 1 := by
  constructor
  · nlinarith [mul_nonneg (sub_nonneg.mpr h2) (by linarith : (0 : K) ≤ x + 1)]
  · nlinarith [sq_nonneg (x - 1)]

theorem confusion_bounds (r l : K) : 0 ≤ confusion r l ∧ confusion r l ≤ 2 := by
  have h1 := confusion_term (clamp l) (clamp_bounds l).1 (clamp_bounds l).2
  have h2 := confusion_term (-clamp r) (by linarith [(clamp_bounds r).2]) (by linarith [(clamp_bounds r).1])
  have e : (-clamp r - 1) ^ 2 = (clamp r + 1) ^ 2 := by ring
  rw [e] at h2
  unfold confusion
  exact ⟨by linarith [h1.1, h2.1], by linarith [h1.2, h2.2]⟩

/-- C90 for action symmetry: with a discriminator that judges each row for itself, each reward is increased by between 0 and
twice the weight; the most if the discriminator is fooled on both sides of its own action, nothing if it tells both apart. -/
theorem C90_symmetry (w : K) (hw : 0 ≤ w) (right left : O → S) (disc : List S → List K) (d : S → K) (hd : ∀ b, disc b = b.map d)
    (actions : List O) (rewards : List K) (hr : rewards.length = actions.length) :
    (symmetryReward w right left disc actions rewards).length = actions.length ∧
    ∀ (i : Nat) a r, actions[i]? = some a → rewards[i]? = some r → ∃ out,
      (symmetryReward w right left disc actions rewards)[i]? = some out ∧ r ≤ out ∧ out ≤ r + 2 * w ∧
      (0 < w → (out = r + 2 * w ↔ d (left a) ≥ 1 ∧ d (right a) ≤ -1)) ∧
      (0 < w → (out = r ↔ d (left a) ≤ -1 ∧ d (right a) ≥ 1)) := by
  have e : symmetryReward w right left disc actions rewards =
      List.zipWith (fun r a => r + confusion (d (right a)) (d (left a)) * w) rewards actions := by
    unfold symmetryReward
    simp only [hd, List.map_append, List.map_map]
    rw [List.take_left' (by simp), List.drop_left' (by simp)]
    rw [List.zipWith_map, List.zipWith_self, List.zipWith_map_right]
    rfl
  rw [e]
  refine ⟨by simp [hr], fun i a r ha hri => ?_⟩
  refine ⟨r + confusion (d (right a)) (d (left a)) * w, ?_, ?_⟩
  · rw [List.getElem?_zipWith, ha, hri]
  · generalize d (right a) = x
    generalize d (left a) = y
    obtain ⟨h0, h2⟩ := confusion_bounds x y
    have hx := clamp_bounds x
    have hy := clamp_bounds y
    have kx1 : x ≤ -1 ↔ clamp x = -1 := by
      unfold clamp
      constructor
      · intro h; rw [max_eq_right h, min_eq_left (by linarith)]
      · intro h
        by_contra hc
        push Not at hc
        rw [max_eq_left hc.le] at h
        rcases le_total x 1 with h' | h'
        · rw [min_eq_left h'] at h; linarith
        · rw [min_eq_right h'] at h; linarith
    have kx2 : x ≥ 1 ↔ clamp x = 1 := by
      unfold clamp
      constructor
      · intro h; exact min_eq_right (le_max_of_le_left h)
      · intro h
        by_contra hc
        push Not at hc
        have : min (max x (-1)) 1 < 1 := min_lt_of_left_lt (max_lt hc (by linarith))
        linarith
    have ky1 : y ≤ -1 ↔ clamp y = -1 := by
      unfold clamp
      constructor
      · intro h; rw [max_eq_right h, min_eq_left (by linarith)]
      · intro h
        by_contra hc
        push Not at hc
        rw [max_eq_left hc.le] at h
        rcases le_total y 1 with h' | h'
        · rw [min_eq_left h'] at h; linarith
        · rw [min_eq_right h'] at h; linarith
    have ky2 : y ≥ 1 ↔ clamp y = 1 := by
      unfold clamp
      constructor
      · intro h; exact min_eq_right (le_max_of_le_left h)
      · intro h
        by_contra hc
        push Not at hc
        have : min (max y (-1)) 1 < 1 := min_lt_of_left_lt (max_lt hc (by linarith))
        linarith
    refine ⟨by nlinarith, by nlinarith, fun hw' => ?_, fun hw' => ?_⟩
    · rw [kx1, ky2]
      constructor
      · intro h
        have hc : confusion x y = 2 := by
          have : (confusion x y - 2) * w = 0 := by linarith
          rcases mul_eq_zero.mp this with h | h <;> linarith
        unfold confusion at hc
        have s1 := sq_nonneg (clamp y - 1)
        have s2 := sq_nonneg (clamp x + 1)
        have z1 : (clamp y - 1) ^ 2 = 0 := by linarith
        have z2 : (clamp x + 1) ^ 2 = 0 := by linarith
        exact ⟨by linarith [pow_eq_zero_iff (two_ne_zero) |>.mp z1], by linarith [pow_eq_zero_iff (two_ne_zero) |>.mp z2]⟩
      · rintro ⟨h1, h2⟩
        unfold confusion
        rw [h1, h2]; ring
    · rw [kx2, ky1]
      constructor
      · intro h
        have hc : confusion x y = 0 := by
          have : confusion x y * w = 0 := by linarith
          rcases mul_eq_zero.mp this with h | h <;> linarith
        unfold confusion at hc
        have s1 : 0 ≤ (1 - clamp y) * (clamp y + 1) := mul_nonneg (by linarith) (by linarith)
        have s2 : 0 ≤ (1 - clamp x) * (clamp x + 1) := mul_nonneg (by linarith) (by linarith)
        exact ⟨by nlinarith, by nlinarith⟩
      · rintro ⟨h1, h2⟩
        unfold confusion
        rw [h1, h2]; ring

/-- C90 as a user of the AMP reward would put it: the style reward lies between 0 and its weight. -/
def C90_claim : Prop :=
  ∀ (w : ℚ) (d : ℚ), 0 ≤ w → ∃ out, ampReward 1 w (id : Unit → Unit) (fun b => b.map fun _ => d) [()] [()] [0] = .ok [out] ∧
    0 ≤ out ∧ out ≤ w

/-- C90 as a user would put it is false: the prediction is not clamped, with the discriminator at −3 the reward is −3. -/
theorem C90_false : ¬ C90_claim := by
  intro h
  obtain ⟨out, ho, h0, h1⟩ := h 1 (-3) (by norm_num)
  have : ampReward 1 (1 : ℚ) (id : Unit → Unit) (fun b => b.map fun _ => -3) [()] [()] [0] = .ok [-3] := by decide +kernel
  rw [this] at ho
  have : out = -3 := by
    have := Except.ok.inj ho
    simpa using this.symm
  rw [this] at h0
  norm_num at h0

/-- C90, the part that holds: the style reward is at most 1, with equality exactly for the prediction 1 (the label of
reference data), and it is not negative exactly for predictions between −1 and 3; closer to 1 is more. -/
theorem C90_partial (p : K) :
    style p ≤ 1 ∧ (style p = 1 ↔ p = 1) ∧ (0 ≤ style p ↔ -1 ≤ p ∧ p ≤ 3) ∧
      ∀ q, style p ≤ style q ↔ |q - 1| ≤ |p - 1| := by
  unfold style
  refine ⟨by nlinarith [sq_nonneg (p - 1)], ?_, ?_, fun q => ?_⟩
  · constructor
    · intro h
      have : (p - 1) ^ 2 = 0 := by linarith
      linarith [pow_eq_zero_iff (two_ne_zero) |>.mp this]
    · rintro rfl; ring
  · constructor
    · intro h
      have : (p - 1) ^ 2 ≤ 2 ^ 2 := by linarith
      obtain ⟨h1, h2⟩ := abs_le.mp (abs_le_of_sq_le_sq this (by norm_num))
      exact ⟨by linarith, by linarith⟩
    · rintro ⟨h1, h2⟩
      nlinarith [mul_nonneg (by linarith : (0 : K) ≤ p + 1) (by linarith : (0 : K) ≤ 3 - p)]
  · rw [← sq_le_sq]
    constructor <;> intro h <;> linarith

theorem actionMap_length (ranges : List (Nat × Nat)) (row : List K) (h : ∀ r ∈ ranges, r.2 ≤ row.length) :
    (actionMap ranges row).length = (ranges.map fun r => r.2 - r.1).sum := by
  unfold actionMap
  rw [List.length_flatten, List.map_map]
  congr 1
  refine List.map_congr_left fun r hr => ?_
  have := h r hr
  simp [this]

/-- C90 for action symmetry: what the discriminator sees of an action are the values in the given ranges, one range after the other. -/
theorem C90_mapped (ranges : List (Nat × Nat)) (row : List K) (h : ∀ r ∈ ranges, r.2 ≤ row.length) :
    (actionMap ranges row).length = (ranges.map fun r => r.2 - r.1).sum ∧
    ∀ l1 r l2, ranges = l1 ++ r :: l2 → ∀ j < r.2 - r.1,
      (actionMap ranges row)[(l1.map fun r => r.2 - r.1).sum + j]? = row[r.1 + j]? := by
  refine ⟨actionMap_length ranges row h, ?_⟩
  rintro l1 r l2 rfl j hj
  have h1 := actionMap_length l1 row fun x hx => h x (by simp [hx])
  have hr := h r (by simp)
  have : actionMap (l1 ++ r :: l2) row = actionMap l1 row ++ ((row.take r.2).drop r.1 ++ actionMap l2 row) := by simp [actionMap]
  rw [this, List.getElem?_append_right (by omega), h1, Nat.add_sub_cancel_left, List.getElem?_append_left (by simp; omega),
    List.getElem?_drop, List.getElem?_take_of_lt (by omega)]

/-- The fourth value seen is the second one of the second range. -/
example : (actionMap [(4, 6), (1, 3)] [10, 11, 12, 13, 14, (15 : ℚ)])[3]? = some 12 :=
  (C90_mapped [(4, 6), (1, 3)] [10, 11, 12, 13, 14, (15 : ℚ)] (by decide)).2 [(4, 6)] (1, 3) [] rfl 1 (by decide)

/-- A concrete case of the symmetry reward. -/
example : symmetryReward (O := List ℚ) (2 : ℚ) (actionMap [(0, 1)]) (actionMap [(1, 2)]) (fun b => b.map List.sum)
    [[-5, 7], [1, -1], [0, 0]] [1, 1, 1] = [5, 1, 4] := by decide +kernel

end Amp

end Verif
