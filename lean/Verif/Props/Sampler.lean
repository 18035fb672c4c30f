import Verif.Model.Sampler
import Verif.Props.Loader
import Verif.Props.Schedules
import Verif.Lemmas.Proxy
import Verif.Lemmas.Adaptors
import Mathlib.MeasureTheory.Measure.Lebesgue.Basic

/-!
# Choosing between real and synthetic data (C93)
-/

namespace Verif

namespace Sampler

open Spec

section

variable {K : Type u} [Field K] [LinearOrder K] {D : Type v}

/-- What one call sees. -/
structure Seen (K : Type u) (D : Type v) where
  rnd : K
  first : TableView D
  second : TableView D
  state : Dict String (Entry D)

/-- The sampler after some calls, each of which may return or raise. -/
def after (cfg : Config K) : List (Seen K D) → State K
  | xs => xs.foldl (fun s x => (beginBatch cfg x.rnd x.first x.second x.state s).1) (State.new cfg)

/-- The call that follows, and what it makes of the state of the trainer (`self.state.update`, `trainer.py` 123-124). -/
def step (cfg : Config K) (xs : List (Seen K D)) (x : Seen K D) : Except Err (Dict String (Entry D)) :=
  match (beginBatch cfg x.rnd x.first x.second x.state (after cfg xs)).2 with
  | .error e => .error e
  | .ok b => .ok (x.state.update b)

/-- The probability planned for the step after `n` others. -/
def planned (cfg : Config K) (n : Nat) : K := cfg.sched.evaluateAt ((n + 1 : Nat) : K)

theorem beginBatch_counter (cfg : Config K) (hl : cfg.logs = true) (x : Seen K D) (s : State K) :
    (beginBatch cfg x.rnd x.first x.second x.state s).1.counter = s.counter + 1 := by
  by_cases h : x.rnd < cfg.sched.evaluateAt ((s.counter + 1 : Nat) : K)
  · simp only [beginBatch, hl, useModelBatch, sampleModelBatch, Bool.true_eq_false, if_false, h, decide_true, if_true]
    split <;> rfl
  · simp only [beginBatch, hl, useModelBatch, Bool.true_eq_false, if_false, h, decide_false, Bool.false_eq_true]
    split <;> rfl

theorem after_counter (cfg : Config K) (hl : cfg.logs = true) (xs : List (Seen K D)) :
    (after cfg xs).counter = xs.length := by
  suffices h : ∀ s : State K,
      (xs.foldl (fun s x => (beginBatch cfg x.rnd x.first x.second x.state s).1) s).counter = s.counter + xs.length by
    have := h (State.new cfg)
    rw [show (State.new cfg).counter = 0 from rfl, Nat.zero_add] at this
    exact this
  induction xs with
  | nil => intro s; rfl
  | cons x xs ih =>
    intro s
    rw [List.foldl_cons, ih, beginBatch_counter cfg hl]
    simp only [List.length_cons]
    omega

/-- **C93, partial** With the probability planned for this step the batch for training is a new one from the model
buffer: whatever happened before, and in particular also after a step in which the buffer had not enough data, a batch is
found if there is one. Everything else in the state stays, but for the size. -/
theorem C93_model_partial (cfg : Config K) (hl : cfg.logs = true) (xs : List (Seen K D)) (x : Seen K D)
    (hp : x.rnd < planned cfg xs.length) (hg : cfg.loader.group = cfg.rlGroup)
    (hk : cfg.loader.group ≠ cfg.loader.sizeKey)
    (hsame : x.first = x.second) (hready : ((cfg.loader.count * cfg.loader.length : Nat) : Int) ≤ x.first.size)
    {d : Dict String (BVal D)} (hs : x.first.sample cfg.loader.count cfg.loader.length = .ok d) :
    ∃ st, step cfg xs x = .ok st ∧
      st.get? cfg.rlGroup = some (.data (d.set cfg.loader.sizeKey (.num (cfg.loader.count * cfg.loader.length)))) ∧
      st.get? cfg.loader.sizeKey = some (.num (cfg.loader.count * cfg.loader.length)) ∧
      ∀ k, k ≠ cfg.rlGroup → k ≠ cfg.loader.sizeKey → st.get? k = x.state.get? k := by
  have hr : cfg.loader.isReady x.first = true := by
    simp only [Loader.isReady, ge_iff_le, decide_eq_true_eq]
    exact hready
  have hb : cfg.loader.batch x.first = .ok [(cfg.loader.group,
      Entry.data (d.set cfg.loader.sizeKey (.num (cfg.loader.count * cfg.loader.length)))),
      (cfg.loader.sizeKey, Entry.num (cfg.loader.count * cfg.loader.length))] := by
    unfold Loader.batch
    rw [hs]
    exact congrArg Except.ok (ofPairs_of_nodup (by simpa using hk))
  have hsm : (sampleModelBatch cfg x.first x.second (useModelBatch cfg x.rnd (after cfg xs)).1).2 =
      .ok [(cfg.loader.group, Entry.data (d.set cfg.loader.sizeKey (.num (cfg.loader.count * cfg.loader.length)))),
      (cfg.loader.sizeKey, Entry.num (cfg.loader.count * cfg.loader.length))] := by
    rw [← hsame]
    unfold sampleModelBatch
    generalize (useModelBatch cfg x.rnd (after cfg xs)).1.iter = i
    cases i <;> simp [Loader.next, hr, hb]
  have hu : (useModelBatch cfg x.rnd (after cfg xs)).2 = true := by
    simp only [useModelBatch, after_counter cfg hl, decide_eq_true_eq]
    exact hp
  refine ⟨x.state.update [(cfg.loader.group,
      Entry.data (d.set cfg.loader.sizeKey (.num (cfg.loader.count * cfg.loader.length)))),
      (cfg.loader.sizeKey, Entry.num (cfg.loader.count * cfg.loader.length))], ?_, ?_, ?_, ?_⟩
  · simp only [step, beginBatch, hl, Bool.true_eq_false, if_false, hu, if_true, hsm]
  · rw [← hg]
    simp only [Dict.update, List.foldl_cons, List.foldl_nil]
    rw [Dict.get?_set_ne hk.symm, Dict.get?_set_self]
  · simp only [Dict.update, List.foldl_cons, List.foldl_nil]
    rw [Dict.get?_set_self]
  · intro k h1 h2
    simp only [Dict.update, List.foldl_cons, List.foldl_nil]
    rw [Dict.get?_set_ne h2.symm, Dict.get?_set_ne (by rw [hg]; exact h1.symm)]

/-- **C93, partial** Otherwise it is the batch that the trainer got, and nothing else changes. -/
theorem C93_real_partial (cfg : Config K) (hl : cfg.logs = true) (xs : List (Seen K D)) (x : Seen K D)
    (hp : planned cfg xs.length ≤ x.rnd) {d : Entry D} (hd : x.state.get? cfg.group = some d) :
    ∃ st, step cfg xs x = .ok st ∧ st.get? cfg.rlGroup = some d ∧ ∀ k, k ≠ cfg.rlGroup → st.get? k = x.state.get? k := by
  have hu : (useModelBatch cfg x.rnd (after cfg xs)).2 = false := by
    simp only [useModelBatch, after_counter cfg hl, decide_eq_false_iff_not, not_lt]
    exact hp
  refine ⟨x.state.set cfg.rlGroup d, ?_, Dict.get?_set_self .., fun k h => Dict.get?_set_ne h.symm⟩
  simp only [step, beginBatch, hl, Bool.true_eq_false, if_false, hu, hd]
  rfl

end

/-- **C93, partial** For the uniform number that `torch.rand` gives, this is the planned probability. -/
theorem C93_probability_partial (cfg : Config ℝ) (h1 : cfg.sched.min ≤ 1) (h1' : cfg.sched.max ≤ 1) (n : Nat) :
    MeasureTheory.volume {u : ℝ | u ∈ Set.Ico 0 1 ∧ u < planned cfg n} = ENNReal.ofReal (planned cfg n) := by
  have hb := Sched.C57_scheduler cfg.sched ((n + 1 : Nat) : ℝ)
  have hp : planned cfg n ≤ 1 := le_trans hb.2.1 (max_le h1 h1')
  have : {u : ℝ | u ∈ Set.Ico 0 1 ∧ u < planned cfg n} = Set.Ico 0 (planned cfg n) := by
    ext u
    simp only [Set.mem_ofPred_eq, Set.mem_Ico]
    constructor
    · rintro ⟨⟨h, _⟩, h'⟩; exact ⟨h, h'⟩
    · rintro ⟨h, h'⟩; exact ⟨⟨h, lt_of_lt_of_le h' hp⟩, h'⟩
  rw [this, Real.volume_Ico, sub_zero]

/-! ## The claim -/

/-- **C93** Each training step gets a batch. -/
def C93_claim : Prop :=
  ∀ (K : Type) (_ : Field K) (_ : LinearOrder K) (D : Type) (cfg : Config K) (xs : List (Seen K D)) (x : Seen K D),
    cfg.logs = false → (∃ d, x.state.get? cfg.group = some d) → x.first = x.second →
    ((cfg.loader.count * cfg.loader.length : Nat) : Int) ≤ x.first.size →
    (∃ d, x.first.sample cfg.loader.count cfg.loader.length = .ok d) →
    ∃ st d, step cfg xs x = .ok st ∧ st.get? cfg.rlGroup = some d

/-- **C93 is false** The class has no `log_scalar`: every step raises. -/
theorem C93_fails {K : Type u} [Field K] [LinearOrder K] {D : Type v} (cfg : Config K) (hl : cfg.logs = false)
    (xs : List (Seen K D)) (x : Seen K D) : step cfg xs x = .error .attributeError := by
  simp [step, beginBatch, hl]

namespace Ex

def loader : Loader := ⟨"rl_buffer", 1, 2, "batch_size"⟩
def cfg (logs : Bool) : Config ℚ := ⟨loader, ⟨0, 2, 0, 1⟩, "default", "rl_buffer", logs⟩
def empty : TableView Nat := ⟨0, fun _ _ => .error .valueError⟩
def some2 : TableView Nat := ⟨2, fun _ _ => .ok [("obs", .tensor 7)]⟩
def state : Dict String (Entry Nat) := [("default", .data [("obs", .tensor 3)]), ("batch_size", .num 5)]

/-- The probability is 1/2 in the first step, and 1 from then on. -/
example : [planned (cfg true) 0, planned (cfg true) 1, planned (cfg true) 2] = [1/2, 1, 1] := by decide +kernel

/-- First the buffer is empty; then there is data. -/
example : step (cfg true) [] ⟨1/4, empty, empty, state⟩ = .error .runtimeError ∧
    step (cfg true) [⟨1/4, empty, empty, state⟩] ⟨3/4, some2, some2, state⟩ =
      .ok [("default", .data [("obs", .tensor 3)]), ("batch_size", .num 2),
        ("rl_buffer", .data [("obs", .tensor 7), ("batch_size", .num 2)])] := by decide +kernel

example : step (cfg true) [] ⟨3/4, empty, empty, state⟩ =
    .ok [("default", .data [("obs", .tensor 3)]), ("batch_size", .num 5), ("rl_buffer", .data [("obs", .tensor 3)])] := by
  decide +kernel

example := C93_model_partial (cfg true) rfl [⟨1/4, empty, empty, state⟩] ⟨3/4, some2, some2, state⟩ (by decide +kernel) rfl
  (by decide +kernel) rfl (by decide +kernel) (d := [("obs", .tensor 7)]) rfl
example := C93_real_partial (cfg true) rfl [] ⟨3/4, empty, empty, state⟩ (by decide +kernel)
  (d := .data [("obs", .tensor 3)]) (by decide +kernel)
example := C93_probability_partial ⟨loader, ⟨0, 2, 0, 1⟩, "default", "rl_buffer", true⟩ (by norm_num) (by norm_num) 0

end Ex

theorem C93_false : ¬ C93_claim := fun h => by
  obtain ⟨st, d, h1, _⟩ := h ℚ _ _ Nat (Ex.cfg false) [] ⟨1/4, Ex.some2, Ex.some2, Ex.state⟩ rfl
    ⟨.data [("obs", .tensor 3)], by decide +kernel⟩ rfl (by decide +kernel) ⟨_, rfl⟩
  rw [C93_fails _ rfl] at h1
  cases h1

end Sampler

end Verif
