import Verif.Model.Checks
import Verif.Lemmas.Dict
import Verif.Lemmas.List
import Mathlib.Algebra.Order.Field.Basic
import Mathlib.Algebra.BigOperators.Group.List.Basic
import Mathlib.Tactic.FieldSimp
import Mathlib.Tactic.Linarith
import Mathlib.Tactic.Ring

/-!
# Checks that end a training run (C99, C105)
-/

namespace Verif

namespace Checks

/-! ## C99 -/

/-- A loss that is logged and not above its cutoff. -/
def Below (cb : String × Dict String Num) (cutoff : Num) : Prop :=
  ∃ l c, cb.2.get? ("loss/" ++ cb.1 ++ "_loss") = some (some l) ∧ cutoff = some c ∧ l ≤ c

/-- All numbers that are compared are numbers. -/
def Proper (cbs : List (String × Dict String Num)) (cutoffs : List Num) : Prop :=
  (∀ cb ∈ cbs, cb.2.get? ("loss/" ++ cb.1 ++ "_loss") ≠ some none) ∧ none ∉ cutoffs

/-- **C99, partial** With a cutoff for each callback and without NaN, the run ends quietly exactly if each loss is there
and is not above its cutoff. -/
theorem C99_loss_partial (cbs : List (String × Dict String Num)) (cutoffs : List Num)
    (hlen : cbs.length = cutoffs.length) (hp : Proper cbs cutoffs) :
    finalLoss cbs cutoffs = .shutdown ↔
      ∀ (i : Nat) cb c, cbs[i]? = some cb → cutoffs[i]? = some c → Below cb c := by
  unfold finalLoss
  induction cbs generalizing cutoffs with
  | nil => simp [finalLossPairs]
  | cons cb cbs ih =>
    cases cutoffs with
    | nil => simp at hlen
    | cons c cutoffs =>
      obtain ⟨name, logs⟩ := cb
      obtain ⟨hp1, hp2⟩ := hp
      have ih := ih cutoffs (by simpa using hlen) ⟨fun x hx => hp1 x (by simp [hx]), fun h => hp2 (by simp [h])⟩
      have hrest : (∀ (i : Nat) cb x, ((name, logs) :: cbs)[i]? = some cb → (c :: cutoffs)[i]? = some x → Below cb x) ↔
          Below (name, logs) c ∧ ∀ (i : Nat) cb x, cbs[i]? = some cb → cutoffs[i]? = some x → Below cb x := by
        constructor
        · intro h
          exact ⟨h 0 _ _ rfl rfl, fun i cb x h1 h2 => h (i + 1) cb x h1 h2⟩
        · rintro ⟨h1, h2⟩ i cb x h3 h4
          cases i with
          | zero =>
            simp only [List.getElem?_cons_zero, Option.some.injEq] at h3 h4
            subst h3 h4
            exact h1
          | succ i => exact h2 i cb x h3 h4
      rw [hrest, ← ih, List.zip_cons_cons, finalLossPairs, lossKey]
      have h1 := hp1 (name, logs) (by simp)
      dsimp only at h1
      cases hc : c with
      | none => exact absurd (by simp [hc]) hp2
      | some cv =>
        cases hl : logs.get? ("loss/" ++ name ++ "_loss") with
        | none => simp [Below, hl]
        | some l =>
          cases l with
          | none => exact absurd hl h1
          | some lv =>
            by_cases h : lv > cv
            · simp [Below, hl, Num.gt, h]
            · simp only [Num.gt, h, decide_false, Bool.false_eq_true, if_false, iff_and_self]
              exact fun _ => ⟨lv, cv, hl, rfl, not_lt.1 h⟩

/-- **C99, partial** The reward: without NaN, the run ends quietly exactly if the logged reward, or the mean of the
window, is at least the cutoff. -/
theorem C99_reward_partial (scalars : Dict String Num) (windowed : Dict String (List Num)) (key : String) (cutoff : Rat) :
    (∀ r, scalars.get? key = some (some r) →
      (finalReward scalars windowed false key (some cutoff) = .shutdown ↔ cutoff ≤ r)) ∧
    (∀ xs : List Rat, xs ≠ [] → windowed.get? key = some (xs.map some) →
      (finalReward scalars windowed true key (some cutoff) = .shutdown ↔ cutoff * xs.length ≤ xs.sum)) := by
  constructor
  · intro r hr
    by_cases h : cutoff > r
    · simp [finalReward, hr, Num.gt, h]
    · simp [finalReward, hr, Num.gt]
  · intro xs hne hw
    have ht : ∀ xs : List Rat, total (xs.map some) = some xs.sum := by
      intro xs
      induction xs with
      | nil => rfl
      | cons x xs ih => simp [total, ih]
    have hpos : (0 : Rat) < xs.length := by
      have := List.length_pos_iff.2 hne
      exact_mod_cast this
    have h0 : (xs.map some).length ≠ 0 := by simpa using hne
    have hiff : cutoff > xs.sum / (xs.map some).length ↔ ¬ (cutoff * xs.length ≤ xs.sum) := by
      rw [List.length_map, gt_iff_lt, div_lt_iff₀ hpos, not_le]
    simp only [finalReward, hw, if_true, if_neg h0, ht, Option.map_some, Num.gt]
    by_cases h : cutoff > xs.sum / (xs.map some).length
    · simp only [h, decide_true, if_true, hiff.1 h, iff_false]
      exact fun hc => by cases hc
    · have := (not_iff_not.2 hiff).1 h
      simp only [h, decide_false, Bool.false_eq_true, if_false, true_iff]
      exact not_not.1 this

/-- **C99** A run that ends quietly at a check of losses has all losses of the callbacks at or below the cutoffs. -/
def C99_claim : Prop :=
  ∀ (cbs : List (String × Dict String Num)) (cutoffs : List Num), finalLoss cbs cutoffs = .shutdown →
    ∀ (i : Nat) cb, cbs[i]? = some cb → ∃ c, cutoffs[i]? = some c ∧ Below cb c

/-- **C99 is false**: NaN passes (and so does every callback that has no cutoff). -/
theorem C99_false : ¬ C99_claim := fun h => by
  obtain ⟨c, _, l, _, h2, _⟩ := h [("q", [("loss/q_loss", none)])] [some 1] (by decide +kernel) 0 _ rfl
  revert h2
  simp only [show (Dict.get? [("loss/q_loss", (none : Num))] ("loss/" ++ "q" ++ "_loss")) = some none by decide +kernel]
  simp

/-- What the check does not see: callbacks without a cutoff can be there or not, and so can one whose loss is NaN, without any
difference to the ending. -/
theorem C99_unchecked (cbs more : List (String × Dict String Num)) (cutoffs : List Num) (h : cutoffs.length ≤ cbs.length) :
    finalLoss (cbs ++ more) cutoffs = finalLoss cbs cutoffs ∧
    ∀ (first : List (String × Dict String Num)) (firstCutoffs : List Num) name logs cutoff, first.length = firstCutoffs.length →
      logs.get? ("loss/" ++ name ++ "_loss") = some none →
      finalLoss (first ++ (name, logs) :: cbs) (firstCutoffs ++ cutoff :: cutoffs) = finalLoss (first ++ cbs) (firstCutoffs ++ cutoffs) := by
  refine ⟨?_, fun first firstCutoffs name logs cutoff hl hn => ?_⟩
  · unfold finalLoss
    congr 1
    induction cbs generalizing cutoffs with
    | nil => cases cutoffs with
      | nil => simp
      | cons c cs => simp at h
    | cons cb cbs ih => cases cutoffs with
      | nil => simp
      | cons c cs => simp [ih cs (by simpa using h)]
  · unfold finalLoss
    induction first generalizing firstCutoffs with
    | nil => cases firstCutoffs with
      | nil =>
        simp only [List.nil_append, List.zip_cons_cons, finalLossPairs, lossKey, hn]
        simp [Num.gt]
      | cons c cs => simp at hl
    | cons cb first ih => cases firstCutoffs with
      | nil => simp at hl
      | cons c cs =>
        simp only [List.cons_append, List.zip_cons_cons, finalLossPairs]
        rw [ih cs (by simpa using hl)]

example : finalLoss [("q", [("loss/q_loss", some 1)]), ("pi", [("loss/pi_loss", some 1000)])] [some 2] = .shutdown := by decide +kernel
example : finalLoss ([("v", [("loss/v_loss", none)])] ++ [("q", [("loss/q_loss", some 1)])]) [some 0, some 2] = .shutdown :=
  ((C99_unchecked [("q", [("loss/q_loss", some 1)])] [] [some 2] (by decide)).2 [] [] "v" [("loss/v_loss", none)] (some 0) rfl
    (by decide +kernel)).trans (by decide +kernel)
example : finalLoss [("q", [("loss/q_loss", some 1)]), ("pi", [("loss/pi_loss", some 3)])] [some 2, some 2] =
    .failed := by decide +kernel
example : finalLoss [("q", [("loss/q_loss", some 1)]), ("pi", [("loss/pi_loss", some 2)])] [some 2, some 2] =
    .shutdown := by decide +kernel
example : finalReward [] [("r", [some 1, some 3])] true "r" (some 2) = .shutdown ∧
    finalReward [] [("r", [some 1, some 3])] true "r" (some (5/2)) = .failed := by decide +kernel

/-! ## C105 -/

/-- The mean of the errors in batches `k * w` to `k * w + w - 1`. -/
def blockMean (f : Nat → Rat) (w k : Nat) : Rat := ((List.range w).map fun i => f (k * w + i)).sum / w

/-- The averages that `n` batches lead to. -/
def blocks (obs rew : Nat → Rat) (w n : Nat) : List (Num × Num) :=
  (List.range (n / w)).map fun k => (some (blockMean obs w k), some (blockMean rew w k))

/-- The errors of `n` batches. -/
def errors (obs rew : Nat → Rat) (n : Nat) : List (Num × Num) := (List.range n).map fun i => (some (obs i), some (rew i))

theorem total_some (xs : List Rat) : total (xs.map some) = some xs.sum := by
  induction xs with
  | nil => rfl
  | cons x xs ih => simp [total, ih]

theorem errors_succ (obs rew : Nat → Rat) (n : Nat) : errors obs rew (n + 1) = errors obs rew n ++ [(some (obs n), some (rew n))] := by
  simp [errors, List.range_succ]

/-- Invariant: full blocks are averaged, the rest is kept. -/
theorem after_eq (numBp : Nat) (obs rew : Nat → Rat) (n : Nat) (hw : 1 ≤ numBp / 10) :
    Progress.after numBp (errors obs rew n) =
      ⟨(List.range (n % (numBp / 10))).map fun i => (some (obs (n / (numBp / 10) * (numBp / 10) + i)),
        some (rew (n / (numBp / 10) * (numBp / 10) + i))), blocks obs rew (numBp / 10) n⟩ := by
  generalize hwd : numBp / 10 = w at *
  induction n with
  | zero => simp [errors, Progress.after, blocks]
  | succ n ih =>
    have hmod := Nat.mod_lt n hw
    have hdm : n / w * w + n % w = n := by rw [Nat.mul_comm]; exact Nat.div_add_mod n w
    rw [errors_succ, Progress.after, List.foldl_append, ← Progress.after, ih]
    simp only [List.foldl_cons, List.foldl_nil, Progress.beginBatch, hwd, List.length_append, List.length_map,
      List.length_range, List.length_singleton]
    have hlast : (List.range (n % w)).map (fun i => ((some (obs (n / w * w + i)) : Num), (some (rew (n / w * w + i)) : Num)))
        ++ [(some (obs n), some (rew n))] =
        (List.range (n % w + 1)).map fun i => (some (obs (n / w * w + i)), some (rew (n / w * w + i))) := by
      rw [List.range_succ, List.map_append]
      simp [hdm]
    rw [hlast]
    by_cases h : n % w + 1 ≥ w
    · have he : n % w + 1 = w := by omega
      have hm : (n + 1) = (n / w + 1) * w := by rw [Nat.add_mul, Nat.one_mul]; omega
      have hd : (n + 1) / w = n / w + 1 := by rw [hm, Nat.mul_div_cancel _ hw]
      have hr : (n + 1) % w = 0 := by rw [hm]; exact Nat.mul_mod_left _ _
      rw [if_pos h, hr, he]
      simp only [List.range_zero, List.map_nil, blocks, hd, List.range_succ, List.map_append, List.map_cons]
      congr 3
      have hne : w ≠ 0 := by omega
      simp only [average, List.length_map, List.length_range, if_neg hne, List.map_map, Function.comp_def]
      have t1 : ∀ f : Nat → Rat, total ((List.range w).map fun i => some (f (n / w * w + i))) =
          some ((List.range w).map fun i => f (n / w * w + i)).sum := by
        intro f
        rw [← total_some, List.map_map]
        rfl
      rw [t1, t1]
      rfl
    · have hd : (n + 1) / w = n / w := by
        rw [show n + 1 = (n % w + 1) + n / w * w by omega, Nat.add_mul_div_right _ _ hw, Nat.div_eq_of_lt (by omega), Nat.zero_add]
      have hr : (n + 1) % w = n % w + 1 := by
        rw [show n + 1 = (n % w + 1) + n / w * w by omega, Nat.add_mul_mod_self_right, Nat.mod_eq_of_lt (by omega)]
      rw [if_neg h, hr, hd]
      simp only [blocks, hd]

/-- **C105, partial** If the errors are numbers, the run ends quietly exactly if neither error, averaged over a tenth of
the run, is larger than four tenths before. -/
theorem C105_partial (numBp n : Nat) (obs rew : Nat → Rat) (hw : 10 ≤ numBp) :
    (Progress.after numBp (errors obs rew n)).endCycle = .shutdown ↔
      ∀ k, (k + 5) * (numBp / 10) ≤ n →
        blockMean obs (numBp / 10) (k + 4) ≤ blockMean obs (numBp / 10) k ∧
        blockMean rew (numBp / 10) (k + 4) ≤ blockMean rew (numBp / 10) k := by
  have hw' : 1 ≤ numBp / 10 := by omega
  rw [after_eq numBp obs rew n hw']
  generalize numBp / 10 = w at *
  have hlen : (blocks obs rew w n).length = n / w := by simp [blocks]
  have hget : ∀ k : Nat, k < n / w → (blocks obs rew w n)[k]? = some (some (blockMean obs w k), some (blockMean rew w k)) := by
    intro k hk
    simp [blocks, hk]
  have hk : ∀ k : Nat, (k + 5) * w ≤ n ↔ k < n / w - 4 := by
    intro k
    rw [← Nat.le_div_iff_mul_le hw']
    omega
  unfold Progress.endCycle
  rw [hlen]
  constructor
  · intro h k hkn
    rw [hk] at hkn
    split at h
    · cases h
    · next hn =>
      simp only [List.any_eq_true, List.mem_range, not_exists, not_and] at hn
      have := hn k hkn
      rw [hget _ (by omega), hget _ (by omega)] at this
      simpa [Num.gt] using this
  · intro h
    rw [if_neg]
    simp only [List.any_eq_true, List.mem_range, not_exists, not_and]
    intro k hkn
    rw [hget _ (by omega), hget _ (by omega)]
    have := h k ((hk k).2 hkn)
    simpa [Num.gt] using this

/-- **C105** A run that ends quietly ends with smaller errors than it began with. -/
def C105_claim : Prop :=
  ∀ (numBp : Nat) (errs : List (Num × Num)), errs.length = numBp → 10 ≤ numBp →
    (Progress.after numBp errs).endCycle = .shutdown →
    ∀ a b, (Progress.after numBp errs).averages.head? = some a → (Progress.after numBp errs).averages.getLast? = some b →
      ∃ x y, a.1 = some x ∧ b.1 = some y ∧ y ≤ x

/-- **C105 is false**: NaN passes. -/
theorem C105_false : ¬ C105_claim := fun h => by
  obtain ⟨x, y, _, h2, _⟩ := h 10 (List.replicate 5 (some 1, some 1) ++ List.replicate 5 (none, none)) (by decide +kernel)
    (by decide) (by decide +kernel) (some 1, some 1) (none, none) (by decide +kernel) (by decide +kernel)
  cases h2

/-- the mean of errors that do not change within a tenth -/
theorem blockMean_const (g : Nat → Rat) (w k : Nat) (hw : 1 ≤ w) : blockMean (fun i => g (i / w)) w k = g k := by
  have h : (List.range w).map (fun i => g ((k * w + i) / w)) = List.replicate w (g k) := by
    rw [List.eq_replicate_iff]
    refine ⟨by simp, fun x hx => ?_⟩
    obtain ⟨i, hi, rfl⟩ := List.mem_map.1 hx
    rw [Nat.add_comm, Nat.add_mul_div_right _ _ (by omega), Nat.div_eq_of_lt (List.mem_range.1 hi), Nat.zero_add]
  unfold blockMean
  rw [h, List.sum_replicate, nsmul_eq_mul]
  have : (w : Rat) ≠ 0 := by exact_mod_cast (by omega : w ≠ 0)
  field_simp

/-- **C105** for errors that are numbers: a run that ends quietly has a last average that is at most the first one, whatever the errors,
only for a number of averages that is one more than a multiple of four. The ten averages of a full run of ten windows are not: there the
last one may be larger than the first. -/
theorem C105_grows (numBp n : Nat) (hw : 10 ≤ numBp) (hn : numBp / 10 ≤ n) :
    (∀ obs rew : Nat → Rat, (Progress.after numBp (errors obs rew n)).endCycle = .shutdown →
        blockMean obs (numBp / 10) (n / (numBp / 10) - 1) ≤ blockMean obs (numBp / 10) 0) ↔
      n / (numBp / 10) % 4 = 1 := by
  have hpos : 1 ≤ numBp / 10 := by omega
  have h1 : 1 ≤ n / (numBp / 10) := Nat.div_pos hn hpos
  constructor
  · intro h
    by_cases hc : n / (numBp / 10) % 4 = 1
    · exact hc
    exfalso
    let g : Nat → Rat := fun k => if k % 4 = 0 then 0 else 1
    have := h (fun i => g (i / (numBp / 10))) (fun _ => 0) (by
      rw [C105_partial numBp n _ _ hw]
      intro k _
      rw [blockMean_const g _ _ hpos, blockMean_const g _ _ hpos, blockMean_const (fun _ => 0) _ _ hpos, blockMean_const (fun _ => 0) _ _ hpos]
      exact ⟨by simp [g], le_refl _⟩)
    rw [blockMean_const g _ _ hpos, blockMean_const g _ _ hpos] at this
    simp only [g] at this
    rw [if_neg (by omega)] at this
    norm_num at this
  · intro h4 obs rew hq
    rw [C105_partial numBp n obs rew hw] at hq
    have chain : ∀ j, (4 * j + 1) * (numBp / 10) ≤ n → blockMean obs (numBp / 10) (4 * j) ≤ blockMean obs (numBp / 10) 0 := by
      intro j
      induction j with
      | zero => intro _; exact le_refl _
      | succ j ih =>
        intro hj
        have h5 := (hq (4 * j) (by rwa [show 4 * (j + 1) + 1 = 4 * j + 5 by ring] at hj)).1
        refine le_trans (by rwa [show 4 * (j + 1) = 4 * j + 4 by ring]) (ih (le_trans ?_ hj))
        exact Nat.mul_le_mul_right _ (by omega)
    have hj : n / (numBp / 10) - 1 = 4 * (n / (numBp / 10) / 4) := by omega
    rw [hj]
    refine chain _ (le_trans (Nat.mul_le_mul_right _ (by omega : _ ≤ n / (numBp / 10))) (Nat.div_mul_le_self n _))

example : (Progress.after 10 (errors (fun i => if i % 4 = 0 then 1 else 2) (fun _ => 0) 10)).endCycle = .shutdown ∧
    (blockMean (fun i => if i % 4 = 0 then 1 else 2) 1 0 < blockMean (fun i => if i % 4 = 0 then 1 else 2) 1 9) := by
  decide +kernel

example : (Progress.after 20 (errors (fun i => 40 - i) (fun i => 30 - i) 20)).endCycle = .shutdown ∧
    (Progress.after 20 (errors (fun i => 40 - i) (fun i => if i < 15 then 0 else 1) 20)).endCycle = .failed := by
  decide +kernel
example := C105_partial 20 20 (fun i => 40 - i) (fun i => 30 - i) (by norm_num)

end Checks

end Verif
