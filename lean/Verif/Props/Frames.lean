import Verif.Model.Frames
import Verif.Lemmas.List
import Mathlib.Tactic.Linarith
import Mathlib.Tactic.Ring
import Mathlib.Tactic.FieldSimp
import Mathlib.Tactic.NormNum
import Mathlib.Algebra.Order.Field.Basic
import Mathlib.Algebra.Order.Ring.Rat

/-!
# Frame stacking (C70) and scaled frames (C87)

For all numbers of frames, environments and histories of calls.
-/

namespace Verif

namespace Frames

variable {F I : Type}

/-! ## C70 -/

theorem append_n (s : Stack F) (v : Val F) : (s.append v).n = s.n := rfl

theorem fill_n (s : Stack F) (v : Val F) (k : Nat) : (s.fill v k).n = s.n := by
  induction k generalizing s with
  | zero => rfl
  | succ k ih => rw [Stack.fill, ih]; rfl

/-- filling pushes out what was there -/
theorem fill_frames (s : Stack F) (v : Val F) (k : Nat) (hs : s.frames.length ≤ s.n) (hk : k ≤ s.n) :
    (s.fill v k).frames = (s.frames ++ List.replicate k v).drop (s.frames.length + k - s.n) := by
  induction k generalizing s with
  | zero => simp [Stack.fill, Nat.sub_eq_zero_of_le hs]
  | succ k ih =>
    rw [Stack.fill, ih (s.append v) (by simp [Stack.append]; omega) (by rw [append_n]; omega), append_n]
    simp only [Stack.append, List.length_drop, List.length_append, List.length_singleton]
    rw [← List.drop_append_of_le_length (by simp), List.drop_drop, List.append_assoc, List.singleton_append, ← List.replicate_succ]
    congr 1
    omega

theorem call_n (s : Stack F) (c : Call F I) : (s.call c).1.n = s.n := by
  have hg : ∀ s : Stack F, s.getOb.1 = s := fun s => by unfold Stack.getOb; split <;> rfl
  cases c with
  | reset v => simp only [Stack.call, Stack.reset, hg, fill_n]
  | step o =>
    cases o with
    | five f r => rfl
    | four f r =>
      have h := hg (s.append (.frame f))
      simp only [Stack.call, Stack.step]
      generalize (s.append (.frame f)).getOb = x at h
      obtain ⟨x, e⟩ := x
      cases e <;> (simp only at h ⊢; rw [h]; rfl)

theorem append_length (s : Stack F) (v : Val F) (_h : s.frames.length ≤ s.n) : (s.append v).frames.length ≤ s.n := by
  simp [Stack.append]; omega

theorem fill_length (s : Stack F) (v : Val F) (k : Nat) (h : s.frames.length ≤ s.n) : (s.fill v k).frames.length ≤ s.n := by
  induction k generalizing s with
  | zero => exact h
  | succ k ih => exact ih (s.append v) (append_length s v h)

theorem call_length (s : Stack F) (c : Call F I) (h : s.frames.length ≤ s.n) : (s.call c).1.frames.length ≤ s.n := by
  have hg : ∀ s : Stack F, s.getOb.1 = s := fun s => by unfold Stack.getOb; split <;> rfl
  cases c with
  | reset v => simp only [Stack.call, Stack.reset, hg]; exact fill_length s v _ h
  | step o =>
    cases o with
    | five f r => exact h
    | four f r =>
      have h' := hg (s.append (.frame f))
      simp only [Stack.call, Stack.step]
      generalize (s.append (.frame f)).getOb = x at h'
      obtain ⟨x, e⟩ := x
      cases e <;> (simp only at h' ⊢; rw [h']; exact append_length s _ h)

theorem run_n (s : Stack F) (cs : List (Call F I)) : (s.run cs).1.n = s.n := by
  induction cs generalizing s with
  | nil => rfl
  | cons c cs ih => simp only [Stack.run]; rw [ih, call_n]

theorem run_length (s : Stack F) (cs : List (Call F I)) (h : s.frames.length ≤ s.n) : (s.run cs).1.frames.length ≤ s.n := by
  induction cs generalizing s with
  | nil => exact h
  | cons c cs ih =>
    simp only [Stack.run]
    rw [← call_n s c]
    exact ih _ (by rw [call_n]; exact call_length s c h)

theorem run_append (s : Stack F) (cs ds : List (Call F I)) :
    s.run (cs ++ ds) = (((s.run cs).1.run ds).1, (s.run cs).2 ++ ((s.run cs).1.run ds).2) := by
  induction cs generalizing s with
  | nil => rfl
  | cons c cs ih => simp only [List.cons_append, Stack.run, ih]

/-- the window after `fs` -/
def window (n : Nat) (f0 : F) (fs : List F) : List F := (List.replicate n f0 ++ fs).drop fs.length

theorem window_length (n : Nat) (f0 : F) (fs : List F) : (window n f0 fs).length = n := by simp [window]

theorem window_snoc (n : Nat) (f0 : F) (fs : List F) (f : F) :
    window n f0 (fs ++ [f]) = (window n f0 fs ++ [f]).drop 1 := by
  unfold window
  rw [← List.drop_append_of_le_length (by simp), List.drop_drop, List.append_assoc]
  simp

theorem window_get (n : Nat) (f0 : F) (fs : List F) (j : Nat) :
    (window n f0 fs)[j]? = (f0 :: fs)[fs.length + j + 1 - n]? := by
  simp only [window, List.getElem?_drop]
  by_cases h : fs.length + j < n
  · rw [List.getElem?_append_left (by simpa using h), List.getElem?_replicate, if_pos h,
      show fs.length + j + 1 - n = 0 by omega]
    rfl
  · rw [List.getElem?_append_right (by simpa using Nat.le_of_not_lt h), List.length_replicate,
      show fs.length + j + 1 - n = (fs.length + j - n) + 1 by omega]
    rfl

theorem concat_frames (fs : List F) (h : fs ≠ []) : concat (fs.map Val.frame) = .ok fs := by
  induction fs with
  | nil => exact absurd rfl h
  | cons f fs ih =>
    cases fs with
    | nil => rfl
    | cons g gs =>
      have := ih (by simp)
      simp only [List.map_cons] at this ⊢
      simp only [concat, this]

theorem run_steps (s : Stack F) (f0 : F) (hs : s.frames = (List.replicate s.n f0).map Val.frame) (steps : List (F × I)) :
    ∃ s', s' = (s.run (steps.map fun p => Call.step (.four p.1 p.2))).1 ∧
      s'.frames = (window s.n f0 (steps.map Prod.fst)).map Val.frame := by
  induction steps using snocInduction with
  | nil => exact ⟨_, rfl, by simp [Stack.run, hs, window]⟩
  | snoc l a ih =>
    obtain ⟨s', h1, h2⟩ := ih
    refine ⟨_, rfl, ?_⟩
    rw [List.map_append, run_append, ← h1]
    have hn : s'.n = s.n := by rw [h1, run_n]
    have hg : ∀ s : Stack F, s.getOb.1 = s := fun s => by unfold Stack.getOb; split <;> rfl
    have h3 := hg (s'.append (.frame a.1))
    have h4 : (s'.append (.frame a.1)).frames = (window s.n f0 ((l ++ [a]).map Prod.fst)).map Val.frame := by
      rw [List.map_append, List.map_singleton, window_snoc]
      simp only [Stack.append, h2, List.length_map, window_length, hn]
      rw [show s.n + 1 - s.n = 1 by omega, List.map_drop, List.map_append]
      rfl
    simp only [List.map_singleton, Stack.run, Stack.call, Stack.step]
    generalize (s'.append (.frame a.1)).getOb = x at h3
    obtain ⟨x, e⟩ := x
    cases e <;> (simp only at h3 ⊢; rw [h3]; exact h4)

theorem reset_frames (s : Stack F) (hl : s.frames.length ≤ s.n) (f0 : F) :
    s.reset (.frame f0) = (⟨s.n, (List.replicate s.n f0).map Val.frame⟩, .ok ⟨some ((List.replicate s.n f0).map Val.frame), none⟩) := by
  have h : s.fill (.frame f0) s.n = ⟨s.n, (List.replicate s.n f0).map Val.frame⟩ := by
    have h1 := fill_frames s (.frame f0) s.n hl (Nat.le_refl _)
    rw [Nat.add_sub_cancel, List.drop_left] at h1
    have h2 := fill_n s (.frame f0) s.n
    generalize s.fill (.frame f0) s.n = t at h1 h2
    obtain ⟨tn, tf⟩ := t
    simp only at h1 h2
    rw [h1, h2, List.map_replicate]
  unfold Stack.reset Stack.getOb
  rw [h]
  simp

theorem force_frames (fs : List F) (h : fs ≠ []) (k : Nat) :
    ((⟨some (fs.map Val.frame), none⟩ : Lazy F).reads k).2 = .ok fs := by
  have h2 : ∀ k, ((⟨none, some fs⟩ : Lazy F).reads k).2 = .ok fs := by
    intro k
    induction k with
    | zero => rfl
    | succ k ih => simpa only [Lazy.reads, Lazy.force] using ih
  cases k with
  | zero => simp only [Lazy.reads, Lazy.force, concat_frames fs h]
  | succ k =>
    simp only [Lazy.reads, Lazy.force, concat_frames fs h]
    exact h2 k

/-- C70 for environments with the old interface: after any history, a reset and any number of steps, the observation, read
at any time and any number of times, consists of the last `n` frames in order, the frame of the reset repeated at the front. -/
theorem C70_partial (n : Nat) (hn : 0 < n) (before : List (Call F I)) (f0 : F) (steps : List (F × I)) :
    ∃ l, ((Stack.new n : Stack F).run (before ++ .reset (.frame f0) :: steps.map fun p => .step (.four p.1 p.2))).2.getLast? = some (.ok l) ∧
      ∀ k, ∃ fs, (l.reads k).2 = .ok fs ∧ fs.length = n ∧
        ∀ j < n, fs[j]? = (f0 :: steps.map Prod.fst)[steps.length + j + 1 - n]? := by
  have hlen := run_length (Stack.new n : Stack F) before (Nat.zero_le _)
  have hnn := run_n (Stack.new n : Stack F) before
  rw [run_append]
  generalize (Stack.new n : Stack F).run before = p at hlen hnn
  obtain ⟨s, rs⟩ := p
  have hn1 : s.n = n := hnn
  have hlen' : s.frames.length ≤ s.n := by rw [hn1]; exact hlen
  simp only [Stack.run, Stack.call]
  rw [reset_frames s hlen' f0]
  refine ⟨⟨some ((window n f0 (steps.map Prod.fst)).map Val.frame), none⟩, ?_, fun k => ?_⟩
  · simp only [hn1]
    cases steps using snocInduction with
    | nil => simp [Stack.run, window]
    | snoc l a _ =>
      obtain ⟨s', h1, h2⟩ := run_steps (⟨n, (List.replicate n f0).map Val.frame⟩ : Stack F) f0 rfl l
      rw [List.map_append, run_append, ← h1]
      have hn2 : s'.n = n := by rw [h1, run_n]
      have h4 : (s'.append (.frame a.1)).frames = (window n f0 ((l ++ [a]).map Prod.fst)).map Val.frame := by
        rw [List.map_append, List.map_singleton, window_snoc]
        simp only [Stack.append, h2, List.length_map, window_length, hn2]
        rw [show n + 1 - n = 1 by omega, List.map_drop, List.map_append]
        rfl
      have h5 : (s'.append (.frame a.1)).getOb = (s'.append (.frame a.1), .ok ⟨some ((window n f0 ((l ++ [a]).map Prod.fst)).map Val.frame), none⟩) := by
        unfold Stack.getOb
        rw [if_pos (by rw [h4, List.length_map, window_length, append_n, hn2]), h4]
      simp only [List.map_singleton, Stack.run, Stack.call, Stack.step, h5]
      rw [← List.cons_append, ← List.append_assoc, List.getLast?_concat]
  · have hw := window_length n f0 (steps.map Prod.fst)
    refine ⟨_, force_frames _ (fun h => by rw [h] at hw; simp at hw; omega) k, hw, fun j hj => ?_⟩
    rw [window_get n f0 _ j, List.length_map]

/-- C70, the claim for any environment: every step returns an observation. -/
def C70_claim : Prop :=
  ∀ (n : Nat), 0 < n → ∀ (v : Val Nat) (o : Out Nat Nat),
    ∃ l fs, ((Stack.new n : Stack Nat).run [.reset v, .step o]).2.getLast? = some (.ok l) ∧ (l.force).2 = .ok fs ∧ fs.length = n

/-- C70 is false with gymnasium environments, whose `step` returns five values: every step raises. -/
theorem C70_false : ¬ C70_claim := by
  intro h
  obtain ⟨l, fs, h1, -, -⟩ := h 2 (by decide) (.pair 1) (.five 2 0)
  revert h1
  simp [Stack.run, Stack.call, Stack.step]

/-- With gymnasium environments: no step works, and the observation of a reset cannot be read. -/
theorem C70_gymnasium (n : Nat) (before : List (Call F I)) (f : F) (rest : I) :
    (((Stack.new n : Stack F).run before).1.call (.step (.five f rest) : Call F I)).2 = .error .valueError ∧
    ∀ l, (((Stack.new n : Stack F).run before).1.call (.reset (.pair f) : Call F I)).2 = .ok l → (l.force).2 = .error .valueError := by
  refine ⟨rfl, fun l hl => ?_⟩
  have hlen := run_length (Stack.new n : Stack F) before (Nat.zero_le _)
  have hnn := run_n (Stack.new n : Stack F) before
  generalize ((Stack.new n : Stack F).run before).1 = s at hl hlen hnn
  rw [← hnn] at hlen
  simp only [Stack.call, Stack.reset, Stack.getOb] at hl
  have hf := fill_frames s (.pair f) s.n hlen (Nat.le_refl _)
  rw [Nat.add_sub_cancel, List.drop_left] at hf
  split at hl
  · simp only [Except.ok.injEq] at hl
    rw [← hl, hf]
    cases s.n with
    | zero => rfl
    | succ m => rfl
  · cases hl

example : (((Stack.new 3 : Stack Nat).run [.reset (.frame 7), .step (.four 8 0), .step (.four 9 0), .step (.four 10 0)]).2.map
    fun r => match r with | .ok l => some (l.reads 2).2 | .error _ => none) =
    [some (.ok [7, 7, 7]), some (.ok [7, 7, 8]), some (.ok [7, 8, 9]), some (.ok [8, 9, 10])] := by decide +kernel

/-! ## C87 -/

variable {K : Type} [Field K] [LinearOrder K] [IsStrictOrderedRing K]

/-- C87, the claim: scaled pixels lie in the declared observation space. -/
def C87_claim : Prop := ∀ x : ℚ, 0 ≤ x → x ≤ 255 → declared.1 ≤ scaled x ∧ scaled x ≤ declared.2

/-- C87 is false: the darker half is below the declared bound. -/
theorem C87_false : ¬ C87_claim := by
  intro h
  have := (h 0 (by norm_num) (by norm_num)).1
  norm_num [scaled, declared] at this

/-- C87: the values lie in `[-1, 1]`, both ends are reached, the order of the pixels is kept, and exactly the pixels from
the middle on lie in the declared space. -/
theorem C87_partial (x : K) :
    (0 ≤ x ∧ x ≤ 255 ↔ -1 ≤ scaled x ∧ scaled x ≤ 1) ∧ scaled (0 : K) = -1 ∧ scaled (255 : K) = 1 ∧
    (∀ y : K, x < y ↔ scaled x < scaled y) ∧ (x ≤ 255 → (255 / 2 ≤ x ↔ declared.1 ≤ scaled x ∧ scaled x ≤ declared.2)) := by
  have e : ∀ x : K, scaled x = 2 / 255 * x - 1 := fun x => by unfold scaled; field_simp
  have h2 : (0 : K) < 2 / 255 := by norm_num
  simp only [e, declared]
  refine ⟨⟨fun h => ⟨?_, ?_⟩, fun h => ⟨?_, ?_⟩⟩, by norm_num, by norm_num, fun y => ⟨fun h => ?_, fun h => ?_⟩, fun hx => ⟨fun h => ⟨?_, ?_⟩, fun h => ?_⟩⟩
  all_goals first | linarith [h.1, h.2] | linarith

example : scaled (51 : ℚ) = -3 / 5 := by norm_num [scaled]

end Frames

end Verif
