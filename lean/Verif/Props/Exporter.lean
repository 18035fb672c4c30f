import Verif.Model.Wrappers
import Verif.Lemmas.List
import Mathlib.Tactic.Linarith

/-!
# C32: when the memory is exported
-/

namespace Verif.Props

open Verif

variable {S : Type u} {C : Type v}

/-! ## Specification

The wrapped memory is any state `S` with any `add`, and it remembers what it was when it was stored. A call is the
data of the call and the reading of the clock. -/

/-- A memory with the record of its exports. -/
structure Recorded (S : Type u) where
  mem : S
  stored : List (String × S)

/-- `add` of the recorded memory. -/
def recAdd (f : C → S → Res S Unit) (c : C) (r : Recorded S) : Res (Recorded S) Unit :=
  Res.lift (fun s => { r with mem := s }) (f c r.mem)

/-- `store` of the recorded memory; it raises or not, as `g` says. -/
def recStore (g : String → S → Except Err Unit) (path : String) (r : Recorded S) : Res (Recorded S) Unit :=
  ({ r with stored := r.stored ++ [(path, r.mem)] }, g path r.mem)

/-- The exporter after some calls. A caller that gets an exception goes on with the next call. -/
def exportAll (f : C → S → Res S Unit) (g : String → S → Except Err Unit) (calls : List (Rat × C))
    (e : Exporter (Recorded S)) : Exporter (Recorded S) :=
  calls.foldl (fun e c => (e.add (recAdd f) (recStore g) c.1 c.2).1) e

/-- Call number `j` exported the memory. -/
def exportedAt (f : C → S → Res S Unit) (g : String → S → Except Err Unit) (calls : List (Rat × C))
    (e : Exporter (Recorded S)) (j : Nat) : Prop :=
  (exportAll f g (calls.take j) e).inner.stored.length < (exportAll f g (calls.take (j + 1)) e).inner.stored.length

/-- The memory after some calls. -/
def memAfter (f : C → S → Res S Unit) (calls : List (Rat × C)) (s : S) : S :=
  calls.foldl (fun s c => (f c.2 s).1) s

/-! ## Proofs -/

section
variable (f : C → S → Res S Unit) (g : String → S → Except Err Unit)

theorem exportAll_snoc (calls : List (Rat × C)) (c : Rat × C) (e : Exporter (Recorded S)) :
    exportAll f g (calls ++ [c]) e = ((exportAll f g calls e).add (recAdd f) (recStore g) c.1 c.2).1 := by
  simp [exportAll]

/-- What a call does when the wrapped memory does not raise. -/
theorem add_eq (now : Rat) (c : C) (e : Exporter (Recorded S)) (h : (f c e.inner.mem).2 = .ok ()) :
    (e.add (recAdd f) (recStore g) now c).1 =
      if e.infStep > e.nextExport ∧ now > e.nextTime then
        { e with
          infStep := e.infStep + 1
          nextExport := e.infStep + 1 + e.every
          nextTime := now + e.minTime
          inner := ⟨(f c e.inner.mem).1, e.inner.stored ++ [(e.path, (f c e.inner.mem).1)]⟩ }
      else { e with
        infStep := e.infStep + 1
        inner := ⟨(f c e.inner.mem).1, e.inner.stored⟩ } := by
  rcases hf : f c e.inner.mem with ⟨s, r⟩
  rw [hf] at h
  simp only at h
  subst h
  unfold Exporter.add recAdd
  rw [hf]
  simp only [Res.lift, Res.andThen_ok]
  unfold Exporter.maybeExport
  simp only [Bool.and_eq_true, decide_eq_true_eq]
  split
  · rfl
  · rfl

variable {f g}

/-- The number of the call after the last export. -/
def stepsOf : Option Nat → Int
  | none => 0
  | some i => (i : Int) + 1

/-- The time of the last export, or of the start. -/
def timeOf (start : Rat) (times : Nat → Rat) : Option Nat → Rat
  | none => start
  | some i => times i

/-- The state of the exporter after `n` calls, the last export having been at call `i`, or none. -/
structure ExpInv (every : Int) (minTime start : Rat) (path : String) (times : Nat → Rat) (n : Nat)
    (last : Option Nat) (e : Exporter (Recorded S)) : Prop where
  step : e.infStep = n
  every_eq : e.every = every
  minTime_eq : e.minTime = minTime
  path_eq : e.path = path
  next : e.nextExport = stepsOf last + every
  time : e.nextTime = timeOf start times last + minTime

/-- The clock at call `j`. -/
def timeAt (calls : List (Rat × C)) (j : Nat) : Rat := match calls[j]? with
  | some c => c.1
  | none => 0

/-- The last export before call `n`. -/
def IsLast (ex : Nat → Prop) (n : Nat) : Option Nat → Prop
  | none => ∀ k : Nat, k < n → ¬ ex k
  | some i => i < n ∧ ex i ∧ ∀ k : Nat, i < k → k < n → ¬ ex k

variable (f g) in
theorem expInv (hf : ∀ c s, (f c s).2 = .ok ()) (every : Int) (minTime start : Rat) (path : String) (s : S)
    (calls : List (Rat × C)) (n : Nat) (hn : n ≤ calls.length) (last : Option Nat)
    (hlast : IsLast (exportedAt f g calls (Exporter.new every minTime start path ⟨s, []⟩)) n last) :
    ExpInv every minTime start path (timeAt calls) n last
      (exportAll f g (calls.take n) (Exporter.new every minTime start path ⟨s, []⟩)) := by
  induction n generalizing last with
  | zero =>
    cases last with
    | none => exact ⟨rfl, rfl, rfl, rfl, by simp [exportAll, Exporter.new, stepsOf], rfl⟩
    | some i => exact absurd hlast.1 (by omega)
  | succ n ih =>
    have hget : calls[n]? = some calls[n] := by simp
    have htake : calls.take (n + 1) = calls.take n ++ [calls[n]] := by
      rw [List.take_add_one, hget]; rfl
    have ht : timeAt calls n = calls[n].1 := by unfold timeAt; rw [hget]
    have hadd := add_eq f g calls[n].1 calls[n].2
      (exportAll f g (calls.take n) (Exporter.new every minTime start path ⟨s, []⟩)) (hf _ _)
    rw [htake, exportAll_snoc, hadd]
    by_cases hex : exportedAt f g calls (Exporter.new every minTime start path ⟨s, []⟩) n
    · -- exported at n, so last = some n
      have hl : last = some n := by
        cases last with
        | none => exact absurd hex (hlast n (by omega))
        | some i =>
          by_cases hi : i = n
          · rw [hi]
          · exact absurd hex (hlast.2.2 n (by have := hlast.1; omega) (by omega))
      subst hl
      have hcond : (exportAll f g (calls.take n) (Exporter.new every minTime start path ⟨s, []⟩)).infStep
          > (exportAll f g (calls.take n) (Exporter.new every minTime start path ⟨s, []⟩)).nextExport ∧
          calls[n].1 > (exportAll f g (calls.take n) (Exporter.new every minTime start path ⟨s, []⟩)).nextTime := by
        by_contra hc
        unfold exportedAt at hex
        rw [htake, exportAll_snoc, hadd, if_neg hc] at hex
        simp at hex
      rw [if_pos hcond]
      obtain ⟨last', hlast'⟩ : ∃ l, IsLast (exportedAt f g calls (Exporter.new every minTime start path ⟨s, []⟩)) n l := by
        clear ih hadd hcond htake ht hget hlast hex
        generalize exportedAt f g calls (Exporter.new every minTime start path ⟨s, []⟩) = ex
        clear hn
        induction n with
        | zero => exact ⟨none, fun k hk => absurd hk (by omega)⟩
        | succ m ihm =>
          by_cases h : ex m
          · exact ⟨some m, by omega, h, fun k h1 h2 => by omega⟩
          · obtain ⟨l, hl⟩ := ihm
            cases l with
            | none =>
              refine ⟨none, fun k hk => ?_⟩
              by_cases hkm : k = m
              · rw [hkm]; exact h
              · exact hl k (by omega)
            | some i =>
              refine ⟨some i, by have := hl.1; omega, hl.2.1, fun k h1 h2 => ?_⟩
              by_cases hkm : k = m
              · rw [hkm]; exact h
              · exact hl.2.2 k h1 (by omega)
      have hi := ih (by omega) last' hlast'
      refine ⟨?_, hi.every_eq, hi.minTime_eq, hi.path_eq, ?_, ?_⟩
      · simp only [hi.step]; push_cast; rfl
      · simp only [hi.step, hi.every_eq, stepsOf]
      · simp only [hi.minTime_eq, ht, timeOf]
    · have hcond : ¬ ((exportAll f g (calls.take n) (Exporter.new every minTime start path ⟨s, []⟩)).infStep
          > (exportAll f g (calls.take n) (Exporter.new every minTime start path ⟨s, []⟩)).nextExport ∧
          calls[n].1 > (exportAll f g (calls.take n) (Exporter.new every minTime start path ⟨s, []⟩)).nextTime) := by
        intro hc
        apply hex
        unfold exportedAt
        rw [htake, exportAll_snoc, hadd, if_pos hc]
        simp
      rw [if_neg hcond]
      have hlast' : IsLast (exportedAt f g calls (Exporter.new every minTime start path ⟨s, []⟩)) n last := by
        cases last with
        | none => exact fun k hk => hlast k (by omega)
        | some i =>
          have hin : i ≠ n := fun h => hex (h ▸ hlast.2.1)
          exact ⟨by have := hlast.1; omega, hlast.2.1, fun k h1 h2 => hlast.2.2 k h1 (by omega)⟩
      have hi := ih (by omega) last hlast'
      exact ⟨by simp only [hi.step]; push_cast; rfl, hi.every_eq, hi.minTime_eq, hi.path_eq, hi.next, hi.time⟩

theorem exportedAt_iff (hf : ∀ c s, (f c s).2 = .ok ()) (every : Int) (minTime start : Rat) (path : String) (s : S)
    (calls : List (Rat × C)) (j : Nat) (hj : j < calls.length) (last : Option Nat)
    (hlast : IsLast (exportedAt f g calls (Exporter.new every minTime start path ⟨s, []⟩)) j last) :
    exportedAt f g calls (Exporter.new every minTime start path ⟨s, []⟩) j ↔
      stepsOf last + every < j ∧ timeOf start (timeAt calls) last + minTime < timeAt calls j := by
  have hi := expInv f g hf every minTime start path s calls j (by omega) last hlast
  have hget : calls[j]? = some calls[j] := by simp
  have htake : calls.take (j + 1) = calls.take j ++ [calls[j]] := by
    rw [List.take_add_one, hget]; rfl
  have ht : timeAt calls j = calls[j].1 := by unfold timeAt; rw [hget]
  have hadd := add_eq f g calls[j].1 calls[j].2
    (exportAll f g (calls.take j) (Exporter.new every minTime start path ⟨s, []⟩)) (hf _ _)
  rw [← hi.next, ← hi.time, ht, ← hi.step]
  unfold exportedAt
  rw [htake, exportAll_snoc, hadd]
  split
  · rename_i h
    simp only [List.length_append, List.length_singleton, Nat.lt_add_one, true_iff]
    exact h
  · rename_i h
    simp only [Nat.lt_irrefl, false_iff]
    exact h
end

section
variable {f : C → S → Res S Unit} {g : String → S → Except Err Unit}

/-- C32: consecutive exports are more than `inf_steps_per_memory_export` calls and more than
`min_time_per_export` seconds apart. Whether storing raises makes no difference. -/
theorem C32_spacing (hf : ∀ c s, (f c s).2 = .ok ()) (every : Int) (minTime start : Rat) (path : String) (s : S)
    (calls : List (Rat × C)) {i j : Nat} (hij : i < j) (hj : j < calls.length)
    (ei : exportedAt f g calls (Exporter.new every minTime start path ⟨s, []⟩) i)
    (ej : exportedAt f g calls (Exporter.new every minTime start path ⟨s, []⟩) j)
    (hb : ∀ k : Nat, i < k → k < j → ¬ exportedAt f g calls (Exporter.new every minTime start path ⟨s, []⟩) k) :
    every < (j : Int) - i ∧ minTime < timeAt calls j - timeAt calls i := by
  obtain ⟨h1, h2⟩ := (exportedAt_iff hf every minTime start path s calls j hj (some i) ⟨hij, ei, hb⟩).1 ej
  simp only [stepsOf, timeOf] at h1 h2
  exact ⟨by omega, by linarith⟩

/-- C32: the first export comes more than `inf_steps_per_memory_export` calls and more than
`min_time_per_export` seconds after the start. -/
theorem C32_first (hf : ∀ c s, (f c s).2 = .ok ()) (every : Int) (minTime start : Rat) (path : String) (s : S)
    (calls : List (Rat × C)) {j : Nat} (hj : j < calls.length)
    (ej : exportedAt f g calls (Exporter.new every minTime start path ⟨s, []⟩) j)
    (hb : ∀ k : Nat, k < j → ¬ exportedAt f g calls (Exporter.new every minTime start path ⟨s, []⟩) k) :
    every < j ∧ minTime < timeAt calls j - start := by
  obtain ⟨h1, h2⟩ := (exportedAt_iff hf every minTime start path s calls j hj none hb).1 ej
  simp only [stepsOf, timeOf] at h1 h2
  exact ⟨by omega, by linarith⟩

/-- C32: an export does happen: the next call with both limits passed since the last export exports. -/
theorem C32_happens (hf : ∀ c s, (f c s).2 = .ok ()) (every : Int) (minTime start : Rat) (path : String) (s : S)
    (calls : List (Rat × C)) {i j : Nat} (hij : i < j) (hj : j < calls.length)
    (ei : exportedAt f g calls (Exporter.new every minTime start path ⟨s, []⟩) i)
    (hsteps : every + 1 < (j : Int) - i) (htime : minTime < timeAt calls j - timeAt calls i) :
    ∃ k : Nat, i < k ∧ k ≤ j ∧ exportedAt f g calls (Exporter.new every minTime start path ⟨s, []⟩) k := by
  by_contra hno
  push Not at hno
  exact hno j hij (Nat.le_refl j)
    ((exportedAt_iff hf every minTime start path s calls j hj (some i)
      ⟨hij, ei, fun k h1 h2 => hno k h1 (by omega)⟩).2 ⟨by simp only [stepsOf]; omega, by simp only [timeOf]; linarith⟩)

/-- C32: likewise for the first one. -/
theorem C32_happens_first (hf : ∀ c s, (f c s).2 = .ok ()) (every : Int) (minTime start : Rat) (path : String)
    (s : S) (calls : List (Rat × C)) {j : Nat} (hj : j < calls.length)
    (hsteps : every < (j : Int)) (htime : minTime < timeAt calls j - start) :
    ∃ k : Nat, k ≤ j ∧ exportedAt f g calls (Exporter.new every minTime start path ⟨s, []⟩) k := by
  by_contra hno
  push Not at hno
  exact hno j (Nat.le_refl j)
    ((exportedAt_iff hf every minTime start path s calls j hj none (fun k h1 => hno k (by omega))).2
      ⟨by simp only [stepsOf]; omega, by simp only [timeOf]; linarith⟩)

/-- C32: the memory holds all the calls whatever is exported, and what an export stores, under the path given, is
the memory with the data of the call already in it. -/
theorem C32_after_add (hf : ∀ c s, (f c s).2 = .ok ()) (every : Int) (minTime start : Rat) (path : String) (s : S)
    (calls : List (Rat × C)) :
    (exportAll f g calls (Exporter.new every minTime start path ⟨s, []⟩)).inner.mem = memAfter f calls s ∧
    ∀ j, j < calls.length → exportedAt f g calls (Exporter.new every minTime start path ⟨s, []⟩) j →
      (exportAll f g (calls.take (j + 1)) (Exporter.new every minTime start path ⟨s, []⟩)).inner.stored =
        (exportAll f g (calls.take j) (Exporter.new every minTime start path ⟨s, []⟩)).inner.stored
          ++ [(path, memAfter f (calls.take (j + 1)) s)] := by
  have hmem : ∀ calls : List (Rat × C),
      (exportAll f g calls (Exporter.new every minTime start path ⟨s, []⟩)).inner.mem = memAfter f calls s ∧
      (exportAll f g calls (Exporter.new every minTime start path ⟨s, []⟩)).path = path := by
    intro calls
    induction calls using snocInduction with
    | nil => exact ⟨rfl, rfl⟩
    | snoc calls c ih =>
      rw [exportAll_snoc, add_eq f g _ _ _ (hf _ _)]
      have : memAfter f (calls ++ [c]) s = (f c.2 (memAfter f calls s)).1 := by simp [memAfter]
      rw [this, ← ih.1]
      split
      · exact ⟨rfl, ih.2⟩
      · exact ⟨rfl, ih.2⟩
  refine ⟨(hmem calls).1, fun j hj he => ?_⟩
  have hget : calls[j]? = some calls[j] := by simp
  have htake : calls.take (j + 1) = calls.take j ++ [calls[j]] := by
    rw [List.take_add_one, hget]; rfl
  unfold exportedAt at he
  have hm : memAfter f (calls.take j ++ [calls[j]]) s = (f calls[j].2 (memAfter f (calls.take j) s)).1 := by
    unfold memAfter
    rw [List.foldl_append]; rfl
  rw [htake, exportAll_snoc, add_eq f g _ _ _ (hf _ _)] at he ⊢
  rw [hm]
  split at he
  · rename_i h
    rw [if_pos h, (hmem (calls.take j)).2, (hmem (calls.take j)).1]
  · simp at he

/-- A call that the memory rejects is not counted and exports nothing. -/
theorem C32_rejected (now : Rat) (c : C) (e : Exporter (Recorded S)) {err : Err}
    (h : (f c e.inner.mem).2 = .error err) :
    e.add (recAdd f) (recStore g) now c = ({ e with inner := { e.inner with mem := (f c e.inner.mem).1 } }, .error err) := by
  rcases hf : f c e.inner.mem with ⟨s, r⟩
  rw [hf] at h
  simp only at h
  subst h
  unfold Exporter.add recAdd
  rw [hf]
  rfl

end

namespace ExE

/-- A memory that counts. -/
def f : Unit → Nat → Res Nat Unit := fun _ n => (n + 1, .ok ())
def g : String → Nat → Except Err Unit := fun _ _ => .ok ()

/-- One call every second. -/
def calls : List (Rat × Unit) := (List.range 10).map fun i : Nat => ((i : Rat) + 1, ())

end ExE

open ExE in
example : (exportAll f g calls (Exporter.new 2 1 0 "p" ⟨0, []⟩)).inner.stored = [("p", 4), ("p", 8)] := by
  decide +kernel

open ExE in
example := C32_spacing (f := f) (g := g) (fun _ _ => rfl) 2 1 0 "p" 0 calls (i := 3) (j := 7) (by decide) (by decide)
  (by unfold exportedAt; decide +kernel) (by unfold exportedAt; decide +kernel)
  (by intro k h1 h2; have : k = 4 ∨ k = 5 ∨ k = 6 := by omega
      rcases this with rfl | rfl | rfl <;> (unfold exportedAt; decide +kernel))

end Verif.Props
