import Verif.Model.Returns
import Mathlib.Tactic.Ring
import Mathlib.Algebra.Order.Ring.Rat

/-!
# Discounted returns (C55) and Q targets (C63)

For all numbers of rollouts, lengths, rewards and values, in exact arithmetic.
-/

namespace Verif

namespace Returns

variable {K : Type u} [Field K]

/-! ## Specification -/

/-- The return of a rollout with a bootstrap value: `G = r + g G'`. -/
def ret (g v : K) : List K → K
  | [] => v
  | r :: rs => r + g * ret g v rs

/-- The returns of all steps of a rollout. -/
def rets (g v : K) : List K → List K
  | [] => []
  | r :: rs => ret g v (r :: rs) :: rets g v rs

/-- The returns of rollouts, one after the other. -/
def allRets (g : K) : List (List K × K) → List K
  | [] => []
  | (rs, v) :: l => rets g v rs ++ allRets g l

/-! ## C55 -/

theorem dot_cons (a b : K) (l m : List K) : dot (a :: l) (b :: m) = a * b + dot l m := by simp [dot]

theorem dot_scale (g : K) (l m : List K) : dot l (m.map (g * ·)) = g * dot l m := by
  induction l generalizing m with
  | nil => simp [dot]
  | cons a l ih =>
    cases m with
    | nil => simp [dot]
    | cons b m => rw [List.map_cons, dot_cons, dot_cons, ih]; ring

theorem gammaVector_succ (g : K) (n : Nat) : gammaVector g (n + 1) = 1 :: (gammaVector g n).map (g * ·) := by
  unfold gammaVector
  rw [List.range_succ_eq_map, List.map_cons, List.map_map, List.map_map, pow_zero]
  congr 1
  apply List.map_congr_left
  intro i _
  simp only [Function.comp, Nat.succ_eq_add_one]
  ring

theorem dot_powers (g v : K) (rs : List K) : dot (rs ++ [v]) (gammaVector g rs.length) = ret g v rs := by
  induction rs with
  | nil => simp [gammaVector, dot, ret]
  | cons r rs ih =>
    rw [List.length_cons, gammaVector_succ, List.cons_append, dot_cons, dot_scale, ih]
    simp [ret]

theorem gammaVector_take (g : K) (n m : Nat) (h : m ≤ n) : (gammaVector g n).take (m + 1) = gammaVector g m := by
  unfold gammaVector
  rw [← List.map_take, List.take_range, Nat.min_eq_left (by omega)]

theorem dot_zeros (l : List K) (n : Nat) (m : List K) : dot l (List.replicate n 0 ++ m) = dot (l.drop n) m := by
  induction n generalizing l with
  | zero => rfl
  | succ n ih =>
    cases l with
    | nil => simp [dot]
    | cons a l =>
      rw [List.replicate_succ, List.cons_append, dot_cons, ih]
      simp

theorem dot_column (g v : K) (rs : List K) (cc : Nat) (h : cc < rs.length) :
    dot (rs ++ [v]) (gammaColumn g rs.length cc) = ret g v (rs.drop cc) := by
  unfold gammaColumn
  rw [dot_zeros, List.drop_append_of_le_length (by omega),
    show rs.length + 1 - cc = (rs.length - cc) + 1 by omega, gammaVector_take _ _ _ (by omega)]
  have := dot_powers g v (rs.drop cc)
  rwa [List.length_drop] at this

theorem rets_eq (g v : K) (rs : List K) : rets g v rs = (List.range rs.length).map fun cc => ret g v (rs.drop cc) := by
  induction rs with
  | nil => rfl
  | cons r rs ih =>
    rw [rets, ih, List.length_cons, List.range_succ_eq_map, List.map_cons, List.map_map]
    rfl

theorem row_product (g v : K) (rs : List K) : (gammaMatrix g rs.length).map (dot (rs ++ [v])) = rets g v rs := by
  rw [rets_eq, gammaMatrix, List.map_map]
  apply List.map_congr_left
  intro cc hcc
  exact dot_column g v rs cc (List.mem_range.mp hcc)

/-- C55: `discount` with the gamma matrix gives, rollout by rollout and step by step, the returns. -/
theorem C55_discount (g : K) (n : Nat) (rolls : List (List K × K)) (h : ∀ p ∈ rolls, p.1.length = n) :
    discount (rolls.map Prod.fst) (rolls.map fun p => [p.2]) (n + 1) (gammaMatrix g n) = .ok (allRets g rolls) := by
  have hz : List.zipWith (· ++ ·) (rolls.map Prod.fst) (rolls.map fun p => [p.2]) = rolls.map fun p => p.1 ++ [p.2] := by
    rw [List.zipWith_map]
    simp
  unfold discount
  rw [if_neg (by simp), hz, if_neg]
  · congr 1
    clear hz
    induction rolls with
    | nil => rfl
    | cons p rolls ih =>
      obtain ⟨rs, v⟩ := p
      have hl : rs.length = n := h (rs, v) (by simp)
      rw [List.map_cons, List.flatMap_cons, ih (fun q hq => h q (List.mem_cons_of_mem _ hq)), allRets]
      congr 1
      subst hl
      exact row_product g v rs
  · rw [not_not, List.all_map, List.all_eq_true]
    intro p hp
    simp [h p hp]

theorem sum_scale (g : K) (l : List K) : (l.map (g * ·)).sum = g * l.sum := by
  induction l with
  | nil => simp
  | cons a l ih => rw [List.map_cons, List.sum_cons, List.sum_cons, ih]; ring

/-- The return in closed form. -/
theorem ret_sum (g v : K) (rs : List K) :
    ret g v rs = ((List.range rs.length).map fun k => g ^ k * rs.getD k 0).sum + g ^ rs.length * v := by
  induction rs with
  | nil => simp [ret]
  | cons r rs ih =>
    rw [ret, ih, List.length_cons, List.range_succ_eq_map, List.map_cons, List.sum_cons, List.map_map]
    have : ((List.range rs.length).map ((fun k => g ^ k * (r :: rs).getD k 0) ∘ Nat.succ)).sum
        = g * ((List.range rs.length).map fun k => g ^ k * rs.getD k 0).sum := by
      rw [← sum_scale, List.map_map]
      congr 1
      apply List.map_congr_left
      intro k _
      simp only [Function.comp, Nat.succ_eq_add_one, List.getD_cons_succ]
      ring
    rw [this]
    simp only [pow_zero, List.getD_cons_zero, one_mul]
    ring

/-- Nothing is lost: there is one return for each step. -/
theorem allRets_length (g : K) (rolls : List (List K × K)) :
    (allRets g rolls).length = (rolls.map fun p => p.1.length).sum := by
  induction rolls with
  | nil => rfl
  | cons p rolls ih =>
    obtain ⟨rs, v⟩ := p
    rw [allRets, List.length_append, ih, rets_eq]
    simp

/-- C55: the result in closed form: there is one number for each step of each rollout, and that for step `t` of rollout `i` is the
sum of the rewards from there on, each discounted by its distance, and the discounted value of the rollout. -/
theorem C55_closed_form (g : K) (n : Nat) (rolls : List (List K × K)) (h : ∀ p ∈ rolls, p.1.length = n) :
    ∃ out, discount (rolls.map Prod.fst) (rolls.map fun p => [p.2]) (n + 1) (gammaMatrix g n) = .ok out ∧
      out.length = rolls.length * n ∧
      ∀ (i t : Nat) (p : List K × K), rolls[i]? = some p → t < n → out[i * n + t]? =
        some (((List.range (n - t)).map fun k => g ^ k * p.1.getD (t + k) 0).sum + g ^ (n - t) * p.2) := by
  refine ⟨_, C55_discount g n rolls h, ?_, ?_⟩
  · rw [allRets_length]
    have : rolls.map (fun p => p.1.length) = List.replicate rolls.length n :=
      List.eq_replicate_iff.2 ⟨by simp, fun x hx => by obtain ⟨p, hp, rfl⟩ := List.mem_map.1 hx; exact h p hp⟩
    rw [this, List.sum_replicate_nat]
  · induction rolls with
    | nil => intro i t p hp; simp at hp
    | cons q rolls ih =>
      intro i t p hp ht
      obtain ⟨rs, v⟩ := q
      have hrs : rs.length = n := h (rs, v) (by simp)
      have hl : (rets g v rs).length = n := by rw [rets_eq]; simp [hrs]
      rw [allRets]
      cases i with
      | zero =>
        simp only [List.getElem?_cons_zero, Option.some.injEq] at hp
        subst hp
        rw [Nat.zero_mul, Nat.zero_add, List.getElem?_append_left (by omega), rets_eq, List.getElem?_map,
          List.getElem?_range (by omega), Option.map_some, ret_sum, List.length_drop, hrs]
        congr 4
        funext k
        simp only [List.getD_eq_getElem?_getD, List.getElem?_drop]
      | succ i =>
        rw [List.getElem?_append_right (by rw [hl, Nat.succ_mul]; omega), hl,
          show (i + 1) * n + t - n = i * n + t by rw [Nat.succ_mul]; omega]
        exact ih (fun p hp => h p (by simp [hp])) i t p (by simpa using hp) ht

example : discount [[1, 2], [3, 4]] [[8], [0]] 3 (gammaMatrix (1 / 2 : ℚ) 2) = .ok [4, 6, 5, 4] := by decide +kernel

/-! ## C63 -/

theorem pieces_flatten {α : Type v} (len : Nat) (rolls : List (List α)) (h : ∀ r ∈ rolls, r.length = len) :
    pieces len rolls.length rolls.flatten = rolls := by
  induction rolls with
  | nil => rfl
  | cons r rolls ih =>
    have hr := h r (by simp)
    rw [List.length_cons, pieces, List.flatten_cons]
    subst hr
    rw [List.take_left, List.drop_left, ih (fun q hq => h q (List.mem_cons_of_mem _ hq))]

theorem flatten_length {α : Type v} {len : Nat} {rolls : List (List α)} (h : ∀ r ∈ rolls, r.length = len) :
    rolls.flatten.length = rolls.length * len := by
  induction rolls with
  | nil => simp
  | cons r rolls ih =>
    rw [List.flatten_cons, List.length_append, ih (fun q hq => h q (List.mem_cons_of_mem _ hq)), h r (by simp),
      List.length_cons]
    ring

theorem split_flatten {α : Type v} {len : Nat} (hl : 0 < len) {rolls : List (List α)} (h : ∀ r ∈ rolls, r.length = len) :
    splitRollouts rolls.flatten len = .ok rolls := by
  unfold splitRollouts
  have hd : rolls.flatten.length / len = rolls.length := by
    rw [flatten_length h, Nat.mul_div_cancel _ hl]
  rw [if_neg (by omega), hd, flatten_length h, if_neg (by simp), pieces_flatten len rolls h]

/-- C55: `split_rollouts` cuts the rows into consecutive rollouts of the given length, or refuses: it does if and only if
the rows do not make up whole rollouts. -/
theorem C55_split {α : Type v} (data : List α) (len : Nat) :
    ((∃ rolls, splitRollouts data len = .ok rolls) ↔ 0 < len ∧ len ∣ data.length) ∧
      ∀ rolls, splitRollouts data len = .ok rolls → rolls.flatten = data ∧ ∀ r ∈ rolls, r.length = len := by
  have hp : ∀ (n : Nat) (l : List α), l.length = n * len →
      (pieces len n l).flatten = l ∧ ∀ r ∈ pieces len n l, r.length = len := by
    intro n
    induction n with
    | zero => intro l h; have : l = [] := List.length_eq_zero_iff.mp (by simpa using h); subst this; simp [pieces]
    | succ n ih =>
      intro l h
      obtain ⟨h1, h2⟩ := ih (l.drop len) (by rw [List.length_drop, h]; rw [Nat.succ_mul]; omega)
      refine ⟨by rw [pieces, List.flatten_cons, h1, List.take_append_drop], fun r hr => ?_⟩
      rw [pieces, List.mem_cons] at hr
      rcases hr with rfl | hr
      · rw [List.length_take, h, Nat.succ_mul]; omega
      · exact h2 r hr
  have hok : ∀ rolls, splitRollouts data len = .ok rolls →
      0 < len ∧ data.length / len * len = data.length ∧ rolls = pieces len (data.length / len) data := by
    intro rolls h
    unfold splitRollouts at h
    split at h
    · simp at h
    · split at h
      · simp at h
      · exact ⟨by omega, by omega, (Except.ok.inj h).symm⟩
  refine ⟨⟨fun ⟨rolls, h⟩ => ?_, fun ⟨h1, h2⟩ => ?_⟩, fun rolls h => ?_⟩
  · obtain ⟨h1, h2, -⟩ := hok rolls h
    exact ⟨h1, Dvd.intro_left _ h2⟩
  · refine ⟨pieces len (data.length / len) data, ?_⟩
    unfold splitRollouts
    rw [if_neg (by omega), if_neg (by simpa using Nat.div_mul_cancel h2)]
  · obtain ⟨-, h2, rfl⟩ := hok rolls h
    exact hp _ _ h2.symm

example : splitRollouts [1, 2, 3, 4, 5, 6] 2 = .ok [[1, 2], [3, 4], [5, 6]] := by decide +kernel
example : splitRollouts [1, 2, 3, 4, 5] 2 = .error .runtimeError := by decide +kernel

/-- C55: sizes that do not fit are refused: unless there is one value for each rollout, and unless the rollouts have the
length the gamma matrix was made for, there is no result. -/
theorem C55_refuses (g : K) (n : Nat) (rewards : List (List K)) (values : List K) :
    (∃ out, discount rewards (values.map ([·])) (n + 1) (gammaMatrix g n) = .ok out) ↔
      rewards.length = values.length ∧ ∀ r ∈ rewards, r.length = n := by
  have hz : ∀ (rewards : List (List K)) (values : List K), rewards.length = values.length →
      ((List.zipWith (· ++ ·) rewards (values.map ([·]))).all (fun row => row.length == n + 1) = true ↔
        ∀ r ∈ rewards, r.length = n) := by
    intro rewards
    induction rewards with
    | nil => simp
    | cons r rewards ih =>
      intro values h
      cases values with
      | nil => simp at h
      | cons v values =>
        rw [List.map_cons, List.zipWith_cons_cons, List.all_cons, Bool.and_eq_true, ih values (by simpa using h)]
        simp
  unfold discount
  by_cases h : rewards.length = values.length
  · rw [if_neg (by simpa using h)]
    by_cases h2 : ∀ r ∈ rewards, r.length = n
    · rw [if_neg (by rw [not_not]; exact (hz _ _ h).mpr h2)]
      simp only [h, true_and]
      exact ⟨fun _ => h2, fun _ => ⟨_, rfl⟩⟩
    · rw [if_pos (by rw [hz _ _ h]; exact h2)]
      simp [h2]
  · rw [if_pos (by simpa using h)]
    simp [h]

example : discount [[1, 2], [3, 4]] [[8]] 3 (gammaMatrix (1 / 2 : ℚ) 2) = .error .runtimeError := by decide +kernel

variable [LinearOrder K]

/-- A rollout with what the networks say about its last next observation. -/
structure Roll (K : Type u) where
  rewards : List K
  masks : List K
  lastMask : K
  q1 : K
  q2 : K
  logp : K

/-- The masks of all steps. -/
def Roll.allMasks (r : Roll K) : List K := r.masks ++ [r.lastMask]

/-- The value after the last step: nothing if the rollout has ended and this is asked for. -/
def Roll.bootstrap (r : Roll K) (alpha : K) (masking : Bool) : K :=
  if masking = true ∧ r.lastMask = 0 then 0 else min r.q1 r.q2 - alpha * r.logp

omit [Field K] [LinearOrder K] in
theorem lastSteps_masks (rolls : List (Roll K)) : lastSteps (rolls.map Roll.allMasks) = .ok (rolls.map Roll.lastMask) := by
  unfold lastSteps
  have : (rolls.map Roll.allMasks).mapM List.getLast? = some (rolls.map Roll.lastMask) := by
    induction rolls with
    | nil => rfl
    | cons r rolls ih =>
      rw [List.map_cons, List.mapM_cons, ih]
      simp [Roll.allMasks]
  rw [this]

theorem nextValues_map (alpha : K) (rolls : List (Roll K)) :
    nextValues alpha (rolls.map Roll.q1) (rolls.map Roll.q2) (rolls.map Roll.logp)
      = rolls.map fun r => min r.q1 r.q2 - alpha * r.logp := by
  unfold nextValues
  induction rolls with
  | nil => rfl
  | cons r rolls ih => simp only [List.map_cons, List.zipWith_cons_cons, ih]

omit [LinearOrder K] in
theorem masked_map (f g : Roll K → K) (rolls : List (Roll K)) :
    List.zipWith (· * ·) (rolls.map f) (rolls.map g) = rolls.map fun r => f r * g r := by
  induction rolls with
  | nil => rfl
  | cons r rolls ih => simp only [List.map_cons, List.zipWith_cons_cons, ih]

/-- C63, SAC: for rollouts of any number and length, with masks 0 or 1, the targets are the returns of the scaled rewards
with the soft value as bootstrap, which is dropped exactly for rollouts that ended, if masking is on; one for each
transition, in order. -/
theorem C63_sac (gamma alpha scale : K) (len : Nat) (masking : Bool) (rolls : List (Roll K)) (hl : 0 < len)
    (hr : ∀ r ∈ rolls, r.rewards.length = len) (hm : ∀ r ∈ rolls, r.allMasks.length = len)
    (h01 : ∀ r ∈ rolls, r.lastMask = 0 ∨ r.lastMask = 1) :
    sacTargets gamma alpha scale len masking (rolls.map Roll.q1) (rolls.map Roll.q2) (rolls.map Roll.logp)
      (rolls.flatMap Roll.rewards) (rolls.flatMap Roll.allMasks)
    = .ok (allRets gamma (rolls.map fun r => (r.rewards.map (scale * ·), r.bootstrap alpha masking))) := by
  have hs1 : splitRollouts (rolls.flatMap Roll.allMasks) len = .ok (rolls.map Roll.allMasks) := by
    rw [List.flatMap_def]
    refine split_flatten hl ?_
    simpa using hm
  have hs2 : splitRollouts ((rolls.flatMap Roll.rewards).map (scale * ·)) len
      = .ok (rolls.map fun r => r.rewards.map (scale * ·)) := by
    rw [List.map_flatMap, List.flatMap_def]
    refine split_flatten hl ?_
    simpa using hr
  have hb : (if masking then List.zipWith (· * ·) (nextValues alpha (rolls.map Roll.q1) (rolls.map Roll.q2)
        (rolls.map Roll.logp)) (rolls.map Roll.lastMask)
      else nextValues alpha (rolls.map Roll.q1) (rolls.map Roll.q2) (rolls.map Roll.logp))
      = rolls.map fun r => r.bootstrap alpha masking := by
    rw [nextValues_map]
    cases masking with
    | false =>
      simp [Roll.bootstrap]
    | true =>
      rw [if_pos rfl, masked_map]
      apply List.map_congr_left
      intro r hr
      rcases h01 r hr with h | h <;> simp [Roll.bootstrap, h]
  have hd := C55_discount gamma len (rolls.map fun r => (r.rewards.map (scale * ·), r.bootstrap alpha masking))
    (by simpa using hr)
  simp only [List.map_map] at hd
  simp only [sacTargets, hs1, hs2, lastSteps_masks, hb, List.map_map]
  have hd' : discount (rolls.map fun r => r.rewards.map (scale * ·))
      (rolls.map ((fun x => [x]) ∘ fun r => r.bootstrap alpha masking)) (len + 1) (gammaMatrix gamma len)
      = .ok (allRets gamma (rolls.map fun r => (r.rewards.map (scale * ·), r.bootstrap alpha masking))) := hd
  rw [hd']
  simp only
  rw [if_pos]
  rw [allRets_length, List.flatMap_def, List.length_flatten, List.map_map, List.map_map]
  congr 1
  apply List.map_congr_left
  intro r _
  simp

/-- A rollout with the values of all actions at its last next observation: a first one and others. -/
structure QRoll (K : Type u) where
  rewards : List K
  masks : List K
  lastMask : K
  first : K
  others : List K

/-- A value is the largest one. -/
def IsBest (r : QRoll K) (m : K) : Prop := m ∈ r.first :: r.others ∧ ∀ q ∈ r.first :: r.others, q ≤ m

omit [Field K] in
theorem foldl_max_best (x : K) (xs : List K) : xs.foldl max x ∈ x :: xs ∧ ∀ q ∈ x :: xs, q ≤ xs.foldl max x := by
  induction xs generalizing x with
  | nil => simp
  | cons y xs ih =>
    obtain ⟨h1, h2⟩ := ih (max x y)
    rw [List.foldl_cons]
    constructor
    · rcases List.mem_cons.mp h1 with h | h
      · rw [h]
        rcases max_choice x y with h' | h' <;> rw [h'] <;> simp
      · simp [h]
    · intro q hq
      have hm := h2 (max x y) (by simp)
      rcases List.mem_cons.mp hq with rfl | hq
      · exact le_trans (le_max_left _ _) hm
      · rcases List.mem_cons.mp hq with rfl | hq
        · exact le_trans (le_max_right _ _) hm
        · exact h2 q (List.mem_cons_of_mem _ hq)

/-- C63, DQN: the same with the value of the best action as bootstrap, always masked. -/
theorem C63_dqn (gamma scale : K) (len : Nat) (rolls : List (QRoll K)) (hl : 0 < len)
    (hr : ∀ r ∈ rolls, r.rewards.length = len) (hm : ∀ r ∈ rolls, (r.masks ++ [r.lastMask]).length = len)
    (h01 : ∀ r ∈ rolls, r.lastMask = 0 ∨ r.lastMask = 1) :
    ∃ best : QRoll K → K, (∀ r ∈ rolls, IsBest r (best r)) ∧
    dqnTargets gamma scale len (rolls.map fun r => r.first :: r.others)
      (rolls.flatMap QRoll.rewards) (rolls.flatMap fun r => r.masks ++ [r.lastMask])
    = .ok (allRets gamma (rolls.map fun r => (r.rewards.map (scale * ·), if r.lastMask = 0 then 0 else best r))) := by
  refine ⟨fun r => r.others.foldl max r.first, fun r _ => foldl_max_best _ _, ?_⟩
  have hb : rowMax (rolls.map fun r => r.first :: r.others) = .ok (rolls.map fun r => r.others.foldl max r.first) := by
    unfold rowMax
    have : (rolls.map fun r => r.first :: r.others).mapM best = some (rolls.map fun r => r.others.foldl max r.first) := by
      clear hr hm h01
      induction rolls with
      | nil => rfl
      | cons r rolls ih =>
        rw [List.map_cons, List.mapM_cons, ih]
        simp [best]
    rw [this]
  have hlast : lastSteps (rolls.map fun r => r.masks ++ [r.lastMask]) = .ok (rolls.map QRoll.lastMask) := by
    unfold lastSteps
    have : (rolls.map fun r => r.masks ++ [r.lastMask]).mapM List.getLast? = some (rolls.map QRoll.lastMask) := by
      clear hr hm h01 hb
      induction rolls with
      | nil => rfl
      | cons r rolls ih =>
        rw [List.map_cons, List.mapM_cons, ih]
        simp
    rw [this]
  have hs1 : splitRollouts (rolls.flatMap fun r => r.masks ++ [r.lastMask]) len
      = .ok (rolls.map fun r => r.masks ++ [r.lastMask]) := by
    rw [List.flatMap_def]
    refine split_flatten hl ?_
    simpa using hm
  have hs2 : splitRollouts ((rolls.flatMap QRoll.rewards).map (scale * ·)) len
      = .ok (rolls.map fun r => r.rewards.map (scale * ·)) := by
    rw [List.map_flatMap, List.flatMap_def]
    refine split_flatten hl ?_
    simpa using hr
  have hz : List.zipWith (· * ·) (rolls.map fun r => r.others.foldl max r.first) (rolls.map QRoll.lastMask)
      = rolls.map fun r => if r.lastMask = 0 then 0 else r.others.foldl max r.first := by
    clear hr hm hb hlast hs1 hs2
    induction rolls with
    | nil => rfl
    | cons r rolls ih =>
      simp only [List.map_cons, List.zipWith_cons_cons]
      rw [ih (fun q hq => h01 q (List.mem_cons_of_mem _ hq))]
      congr 1
      rcases h01 r (by simp) with h | h <;> simp [h]
  have hd := C55_discount gamma len
    (rolls.map fun r => (r.rewards.map (scale * ·), if r.lastMask = 0 then 0 else r.others.foldl max r.first))
    (by simpa using hr)
  simp only [List.map_map] at hd
  simp only [dqnTargets, hb, hs1, hs2, hlast, hz, List.map_map]
  exact hd

example : sacTargets (1 / 2 : ℚ) 2 10 2 true [8, 5] [6, 9] [1, 1] [1, 2, 3, 4] [1, 1, 1, 0] = .ok [21, 22, 50, 40] := by
  decide +kernel

example : sacTargets (1 / 2 : ℚ) 2 10 2 true [8, 5] [6, 9] [1, 1] [1, 2, 3] [1, 1, 1] = .error .runtimeError := by
  decide +kernel

example : dqnTargets (1 / 2 : ℚ) 1 1 [[1, 4, 2], [7, 3, 5]] [1, 2] [1, 0] = .ok [3, 2] := by decide +kernel

end Returns

end Verif
