import Verif.Model.Stats
import Verif.Lemmas.Dict
import Verif.Lemmas.List
import Mathlib.Tactic.Ring
import Mathlib.Tactic.Linarith
import Mathlib.Tactic.LinearCombination
import Mathlib.Tactic.FieldSimp
import Mathlib.Algebra.Order.Ring.Rat
import Mathlib.Algebra.Order.Field.Basic

/-!
# Running statistics and block timers (C56, C85)

For all sequences of samples and of timed blocks, in exact arithmetic.
-/

namespace Verif

namespace Stats

section

variable {K : Type u} [Field K]

/-! ## C56 -/

/-- The mean of the samples. -/
def Spec.mean (xs : List K) : K := xs.sum / (xs.length : K)

/-- The population variance of the samples: the mean of the squared distances from the mean. -/
def Spec.variance (xs : List K) : K := Spec.mean (xs.map fun x => (x - Spec.mean xs) ^ 2)

/-- mean and variance; nothing if there are no samples -/
def Spec.statistics (xs : List K) : Option (K × K) :=
  if xs = [] then none else some (Spec.mean xs, Spec.variance xs)

/-- What a tracker reports after the samples. -/
def reported (t : Tracker σ K) (xs : List K) : Option (K × K) := t.current (xs.foldl t.add t.init)

theorem sum_sub_sq (xs : List K) (m : K) :
    (xs.map fun x => (x - m) ^ 2).sum = (xs.map fun x => x ^ 2).sum - 2 * m * xs.sum + xs.length * m ^ 2 := by
  induction xs with
  | nil => simp
  | cons x xs ih =>
    simp only [List.map_cons, List.sum_cons, ih, List.length_cons]
    push_cast
    ring

theorem welford_inv [CharZero K] (xs : List K) :
    let w := xs.foldl Welford.add (⟨0, 0, 0⟩ : Welford K)
    w.count = xs.length ∧ xs.length * w.mean = xs.sum ∧
      xs.length * w.differences = xs.length * (xs.map fun x => x ^ 2).sum - xs.sum ^ 2 := by
  induction xs using snocInduction with
  | nil => simp
  | snoc xs x ih =>
    rcases eq_or_ne xs [] with rfl | hne
    · simp [Welford.add]
    have h0 : (xs.length : K) ≠ 0 := by
      rw [Nat.cast_ne_zero]; simpa [List.length_eq_zero_iff] using hne
    simp only [List.foldl_append, List.foldl_cons, List.foldl_nil, List.length_append, List.length_singleton,
      List.sum_append, List.sum_singleton, List.map_append, List.map_cons, List.map_nil]
    generalize List.foldl Welford.add _ xs = w at ih ⊢
    obtain ⟨hc, hm, hd⟩ := ih
    have hn : ((xs.length : K) + 1) ≠ 0 := by exact_mod_cast Nat.succ_ne_zero xs.length
    refine ⟨by simp [Welford.add, hc], ?_, ?_⟩
    · simp only [Welford.add, hc]
      push_cast
      field_simp
      linear_combination hm
    · simp only [Welford.add, hc]
      push_cast
      generalize (xs.map fun x => x ^ 2).sum = q at *
      generalize xs.sum = s at *
      generalize (xs.length : K) = n at *
      have hm' : w.mean = s / n := by field_simp; linear_combination hm
      have hd' : w.differences = q - s ^ 2 / n := by field_simp; linear_combination hd
      rw [hm', hd']
      field_simp
      ring

/-- C56: the Welford accumulator reports the mean and the variance of all samples. -/
theorem C56_welford [CharZero K] (xs : List K) : reported welford xs = Spec.statistics xs := by
  have h := welford_inv xs
  simp only [reported, welford, Welford.current, Spec.statistics]
  generalize xs.foldl Welford.add _ = w at h ⊢
  obtain ⟨hc, hm, hd⟩ := h
  rcases eq_or_ne xs [] with rfl | hne
  · simp [hc]
  have hl : xs.length ≠ 0 := by simpa [List.length_eq_zero_iff] using hne
  have h0 : (xs.length : K) ≠ 0 := by rwa [Nat.cast_ne_zero]
  rw [hc, if_neg hl, if_neg hne]
  have hm' : w.mean = xs.sum / xs.length := by field_simp; linear_combination hm
  simp only [Spec.variance, Spec.mean, Option.some.injEq, Prod.mk.injEq]
  refine ⟨hm', ?_⟩
  rw [sum_sub_sq, List.length_map]
  have hd' : w.differences = (xs.map fun x => x ^ 2).sum - xs.sum ^ 2 / xs.length := by
    field_simp; linear_combination hd
  rw [hd']
  field_simp
  ring

/-- The last `n` of a list. -/
def Spec.last (n : Nat) (xs : List K) : List K := xs.drop (xs.length - n)

omit [Field K] in
theorem foldl_append (n : Nat) (xs : List K) : xs.foldl (append n) [] = Spec.last n xs := by
  induction xs using snocInduction with
  | nil => simp [Spec.last]
  | snoc xs x ih =>
    rw [List.foldl_append, ih]
    simp only [List.foldl_cons, List.foldl_nil, append, Spec.last, List.length_append, List.length_drop,
      List.length_singleton]
    split
    · next h =>
      rw [← List.drop_append_of_le_length (by omega), List.drop_drop]
      congr 1; omega
    · next h =>
      have : xs.length - n = 0 := by omega
      have h2 : xs.length + 1 - n = 0 := by omega
      simp [this, h2]

/-- C56: the moving window reports the mean and the variance of the last 100 samples. -/
theorem C56_window (xs : List K) : reported window xs = Spec.statistics (Spec.last 100 xs) := by
  simp only [reported, window, foldl_append]
  generalize Spec.last 100 xs = ys
  simp only [Spec.statistics, List.length_eq_zero_iff, Spec.variance, Spec.mean, npVar, npMean, List.length_map, sq]

/-- C56: what came before the last 100 samples does not matter to the moving window, and up to 100 samples both accumulators report
the same. -/
theorem C56_last [CharZero K] :
    (∀ old recent : List K, 100 ≤ recent.length → reported window (old ++ recent) = reported window recent) ∧
      ∀ xs : List K, xs.length ≤ 100 → reported window xs = reported welford xs := by
  refine ⟨fun old recent h => ?_, fun xs h => ?_⟩
  · rw [C56_window, C56_window]
    congr 1
    rw [Spec.last, Spec.last, List.length_append, List.drop_append,
      List.drop_eq_nil_of_le (show old.length ≤ old.length + recent.length - 100 by omega), List.nil_append]
    congr 1
    omega
  · rw [C56_window, C56_welford, Spec.last, show xs.length - 100 = 0 by omega, List.drop_zero]

example : reported welford [1, 2, 6] = some (3, (14 / 3 : ℚ)) := by decide +kernel
example : reported window [1, 2, 6] = some (3, (14 / 3 : ℚ)) := by decide +kernel
example : reported window (0 :: List.replicate 99 1 ++ [1, 3]) = some (51 / 50, (99 / 2500 : ℚ)) := by decide +kernel

/-! ## C85 -/

/-- The blocks of a program, in the order in which they end, each with the time it took; `open_` are the ones that have
been entered and not left, the most recent one first. Nothing if a block is left that has not been entered. -/
def Spec.spans : Dict String K → List (Event K) → Option (List (String × K))
  | _, [] => some []
  | open_, .enter n t :: es => Spec.spans ((n, t) :: open_) es
  | open_, .exit n t :: es => match open_.get? n with
    | none => none
    | some s => (Spec.spans (open_.erase n) es).map ((n, t - s) :: ·)

/-- No block is entered while one with the same name is open. -/
def Spec.NoReentry : Dict String K → List (Event K) → Prop
  | _, [] => True
  | open_, .enter n t :: es => n ∉ open_.keys ∧ Spec.NoReentry ((n, t) :: open_) es
  | open_, .exit n _ :: es => Spec.NoReentry (open_.erase n) es

/-- the times of the blocks with a name -/
def Spec.times (n : String) (spans : List (String × K)) : List K :=
  (spans.filter fun p => p.1 = n).map Prod.snd

/-- The names a program uses. -/
def Event.name : Event K → String
  | .enter n _ => n
  | .exit n _ => n

omit [Field K] in
theorem scope_set (t : Tracker σ K) (d : Dict String (Block σ K)) (n m : String) (b : Block σ K) :
    scope t (d.set n b) m = if n = m then b else scope t d m := by
  simp only [scope, Dict.get?_set]
  by_cases h : n = m
  · simp [h]
  · simp [h]

theorem run_spec (t : Tracker σ K) (es : List (Event K)) (open_ : Dict String K) (d : Dict String (Block σ K))
    (spans : List (String × K)) (hs : Spec.spans open_ es = some spans) (hr : Spec.NoReentry open_ es)
    (hk : open_.keys.Nodup) (ho : ∀ n s, open_.get? n = some s → (scope t d n).start = some s) :
    ∃ d', run t d es = .ok d' ∧
      (∀ n, (scope t d' n).tracker = (Spec.times n spans).foldl t.add (scope t d n).tracker) ∧
      (∀ n, n ∈ d'.keys ↔ n ∈ d.keys ∨ n ∈ es.map Event.name) := by
  induction es generalizing open_ d spans with
  | nil =>
    simp only [Spec.spans, Option.some.injEq] at hs
    subst hs
    exact ⟨d, rfl, by simp [Spec.times], by simp⟩
  | cons e es ih =>
    cases e with
    | enter n now =>
      simp only [Spec.spans] at hs
      obtain ⟨hn, hr⟩ := hr
      obtain ⟨d', h1, h2, h3⟩ := ih ((n, now) :: open_) (d.set n ((scope t d n).enter now)) spans hs hr
        (by simpa [hn] using hk) (by
          intro m s hm
          simp only [Dict.get?] at hm
          rw [scope_set]
          split at hm
          · next h => rw [if_pos h]; simpa [Block.enter] using hm
          · next h => rw [if_neg h]; exact ho _ _ hm)
      refine ⟨d', by simpa [run, event] using h1, fun m => ?_, fun m => ?_⟩
      · rw [h2, scope_set]
        split
        · next h => subst h; rfl
        · rfl
      · rw [h3, Dict.mem_keys_set]; simp [Event.name]; tauto
    | exit n now =>
      simp only [Spec.spans] at hs
      cases hg : open_.get? n with
      | none => simp [hg] at hs
      | some s =>
        simp only [hg, Option.map_eq_some_iff] at hs
        obtain ⟨rest, hs, rfl⟩ := hs
        have hst := ho _ _ hg
        obtain ⟨d', h1, h2, h3⟩ := ih (open_.erase n)
          (d.set n { scope t d n with tracker := t.add (scope t d n).tracker (now - s) }) rest hs hr
          (Dict.nodup_erase hk) (by
            intro m s' hm
            rw [Dict.get?_erase hk] at hm
            split at hm
            · cases hm
            · next h => rw [scope_set, if_neg h]; exact ho _ _ hm)
        refine ⟨d', by simpa [run, event, Block.exit, hst] using h1, fun m => ?_, fun m => ?_⟩
        · rw [h2, scope_set]
          by_cases h : n = m
          · subst h; simp [Spec.times]
          · simp [Spec.times, h]
        · rw [h3, Dict.mem_keys_set]; simp [Event.name]; tauto

theorem get?_map (d : Dict String α) (f : α → β) (n : String) :
    Dict.get? (d.map fun p => (p.1, f p.2)) n = (d.get? n).map f := by
  induction d with
  | nil => rfl
  | cons p d ih => simp only [List.map_cons, Dict.get?, ih]; split <;> rfl

/-- The timers' answer after a program. -/
def answers (t : Tracker σ K) (es : List (Event K)) : Except Err (Dict String (Option (K × K))) :=
  (run t [] es).map (stats t)

/-- C85 for programs in which no block is entered while one with the same name is open (also from several threads): the
statistics of a name are those of the times of the blocks with that name, for any tracker; names that are not used are
not reported. -/
theorem C85_partial (t : Tracker σ K) (es : List (Event K)) (spans : List (String × K))
    (hs : Spec.spans [] es = some spans) (hr : Spec.NoReentry [] es) :
    ∃ a, answers t es = .ok a ∧
      ∀ n, Dict.get? a n = if n ∈ es.map Event.name then some (reported t (Spec.times n spans)) else none := by
  obtain ⟨d', h1, h2, h3⟩ := run_spec t es [] [] spans hs hr List.nodup_nil (by intro n s h; cases h)
  refine ⟨stats t d', by simp [answers, h1, Except.map], fun n => ?_⟩
  rw [stats, get?_map d' (fun b => t.current b.tracker)]
  have h3 := h3 n
  have h2 := h2 n
  simp only [Dict.keys_nil, List.not_mem_nil, false_or] at h3
  split
  · next hn =>
    obtain ⟨b, hb⟩ := Dict.get?_isSome_of_mem (h3.mpr hn)
    have e1 : scope t d' n = b := by simp [scope, hb]
    have e2 : scope t ([] : Dict String (Block σ K)) n = ⟨t.init, none⟩ := rfl
    rw [e1, e2] at h2
    simp [hb, h2, reported]
  · next hn =>
    rw [Dict.get?_none_iff.mpr (fun h => hn (h3.mp h))]; rfl

end

/-- C85, the claim for all programs. -/
def C85_claim : Prop :=
  ∀ (es : List (Event ℚ)) (spans : List (String × ℚ)), Spec.spans [] es = some spans →
    ∃ a, answers window es = .ok a ∧
      ∀ n, Dict.get? a n = if n ∈ es.map Event.name then some (Spec.statistics (Spec.last 100 (Spec.times n spans))) else none

/-- a recursive function that is timed: the outer call from 0 to 10, the inner one from 8 to 9 -/
def recursive : List (Event ℚ) := [.enter "f" 0, .enter "f" 8, .exit "f" 9, .exit "f" 10]

/-- C85 is false for the code: the start of the inner block overwrites that of the outer one. -/
theorem C85_false : ¬ C85_claim := by
  intro h
  obtain ⟨a, h1, h2⟩ := h recursive [("f", 1), ("f", 10)] (by decide +kernel)
  have e : answers window recursive = .ok [("f", some (3 / 2, 1 / 4))] := by decide +kernel
  rw [e] at h1
  cases h1
  have := h2 "f"
  revert this
  decide +kernel

example : answers window [.enter "a" 0, .enter "b" 1, .exit "b" 3, .exit "a" 5, .enter "a" 6, .exit "a" (7 : ℚ)] =
    .ok [("a", some (3, 4)), ("b", some (2, 0))] := by decide +kernel

end Stats

end Verif
