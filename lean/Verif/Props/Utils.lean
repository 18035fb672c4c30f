import Verif.Model.Utils
import Verif.Lemmas.Threads
import Mathlib.Algebra.BigOperators.Group.Finset.Basic
import Mathlib.Algebra.BigOperators.Group.Finset.Piecewise
import Mathlib.Algebra.BigOperators.Group.List.Basic
import Mathlib.Tactic.IntervalCases

/-!
# Deprecation warnings (C49) and the traced lock (C84)
-/

namespace Verif

open Spec

/-! ## C49 -/

/-- `n` calls, one after the other. -/
def Deprecated.calls {W : Type u} {R : Type v} (f : W → W × Except Err R) (max : Int) (raises : Bool) :
    Nat → Deprecated W → Deprecated W
  | 0, d => d
  | n + 1, d => Deprecated.calls f max raises n (d.call f max raises).1

/-- `n` calls of the function itself. -/
def Spec.callsOf {W : Type u} {R : Type v} (f : W → W × R) : Nat → W → W
  | 0, w => w
  | n + 1, w => callsOf f n (f w).1

/-- **C49** as one would have it: at most `max` warnings. -/
def C49_claim : Prop :=
  ∀ (W R : Type) (f : W → W × Except Err R) (max : Int) (w : W) (n : Nat), 0 ≤ max →
    ((Deprecated.calls f max false n { world := w }).warnings : Int) ≤ max

theorem deprecated_calls {W : Type u} {R : Type v} (f : W → W × Except Err R) (max : Int) (n k : Nat) (w : W) :
    Deprecated.calls f max false n ⟨0, k, w⟩ = ⟨0, if 0 < max then k + n else k, callsOf f n w⟩ := by
  induction n generalizing k w with
  | zero => simp [Deprecated.calls, callsOf]
  | succ n ih =>
    by_cases h : 0 < max
    · simp only [Deprecated.calls, Deprecated.call, h, if_true, callsOf]
      rw [show (0 : Int) + 0 = 0 from rfl]
      simp only [Bool.false_eq_true, if_false]
      rw [ih]
      simp [h]
      omega
    · simp only [Deprecated.calls, Deprecated.call, h, if_false, callsOf]
      rw [ih]
      simp [h]

/-- **C49** (what holds). If warnings are not turned into errors, the function is called every time with its result; and
if `max_warn_count` is positive, *every* call warns, else none. -/
theorem C49_partial {W : Type u} {R : Type v} (f : W → W × Except Err R) (max : Int) (w : W) (n : Nat) (d : Deprecated W)
    (hd : Deprecated.calls f max false n { world := w } = d) :
    d.world = callsOf f n w ∧ (d.call f max false).2 = (f (callsOf f n w)).2 ∧
      (0 < max → d.warnings = n) ∧ (max ≤ 0 → d.warnings = 0) := by
  have h : Deprecated.calls f max false n { world := w } = _ := deprecated_calls f max n 0 w
  rw [h] at hd
  subst hd
  refine ⟨rfl, ?_, ?_, ?_⟩
  · unfold Deprecated.call
    split <;> simp
  · intro h; simp [h]
  · intro h; simp [show ¬ 0 < max by omega]

/-- **C49** fails: the eleventh call still warns. -/
theorem C49_false : ¬ C49_claim := by
  intro h
  have := h Unit Unit (fun w => (w, .ok ())) 10 () 11 (by decide)
  revert this
  decide +kernel

/- With warnings as errors the function is never called. -/
example : (Deprecated.call (fun w : Nat => (w + 1, .ok ())) 10 true { world := 0 }).1.world = 0 := by decide +kernel

/-! ## C84 -/

namespace TracedLock

abbrev State := Conc Call Shared Regs (Option (Int × Int))

/-- Time the blocks that have returned waited. -/
def waited (h : List (HEvent Call (Option (Int × Int)))) : Int :=
  ((returned h).map fun x => match x.2.2 with
    | some p => p.1
    | none => 0).sum

/-- Time they ran. -/
def ran (h : List (HEvent Call (Option (Int × Int)))) : Int :=
  ((returned h).map fun x => match x.2.2 with
    | some p => p.2
    | none => 0).sum

theorem returned_append (a b : List (HEvent Call (Option (Int × Int)))) : returned (a ++ b) = returned a ++ returned b := by
  induction a with
  | nil => rfl
  | cons e a ih => cases e <;> simp [returned, ih]

/-- Where a thread is: in no call, in a tick, or in a block of which `n` steps are done. -/
inductive At : Option (Call × List (Instr Shared Regs) × Regs) → Option (Nat × Regs) → Prop where
  | none : At none none
  | tick (d n : Nat) (r : Regs) (hn : n ≤ 1) : At (some (.tick d, (code (.tick d)).drop n, r)) none
  | block (n : Nat) (r : Regs) (hn : n ≤ 10) : At (some (.block, (code .block).drop n, r)) (some (n, r))

/-- What a thread has added to the block time in a call that has not returned. -/
def pending : Option (Nat × Regs) → Int
  | some (n, r) => if 5 ≤ n then r.now - r.tryStart else 0
  | none => 0

/-- A thread and the lock. -/
def Owns (x : Option (Nat × Regs)) : Prop := ∃ n r, x = some (n, r) ∧ 2 ≤ n ∧ n ≤ 6

structure Inv (N : Nat) (s : State) (p : Nat → Option (Nat × Regs)) : Prop where
  pos : ∀ t, At (s.threads t).cur (p t)
  lock : ∀ t, s.lock = some t ↔ Owns (p t)
  tmp : ∀ t r, p t = some (4, r) → r.tmp = s.shared.blockTime
  total : s.shared.blockTime = waited s.hist + ∑ t ∈ Finset.range N, pending (p t)

theorem sum_set (N t : Nat) (ht : t < N) (p : Nat → Option (Nat × Regs)) (x : Option (Nat × Regs)) :
    ∑ u ∈ Finset.range N, pending (if u = t then x else p u)
      = ∑ u ∈ Finset.range N, pending (p u) + pending x - pending (p t) := by
  rw [← Finset.add_sum_erase _ (fun u => pending (p u)) (Finset.mem_range.mpr ht),
    ← Finset.add_sum_erase _ (fun u => pending (if u = t then x else p u)) (Finset.mem_range.mpr ht)]
  have : ∑ u ∈ (Finset.range N).erase t, pending (if u = t then x else p u)
      = ∑ u ∈ (Finset.range N).erase t, pending (p u) := by
    apply Finset.sum_congr rfl
    intro u hu
    rw [if_neg (Finset.ne_of_mem_erase hu)]
  rw [this, if_pos rfl]
  omega

theorem step_inv {N : Nat} {s : State} {p : Nat → Option (Nat × Regs)} (h : Inv N s p) (t : Nat) (ht : t < N) :
    ∃ p', Inv N (s.step cls t) p' := by
  have hp := h.pos t
  have hset : ∀ th u, s.setThread t th u = if u = t then th else s.threads u := fun _ _ => rfl
  -- the thread moves to `x`
  have move : ∀ (s' : State) (th : Thread Call Shared Regs) (x : Option (Nat × Regs)),
      s'.threads = s.setThread t th → At th.cur x →
      (∀ u, s'.lock = some u ↔ Owns (if u = t then x else p u)) →
      (∀ r, x = some (4, r) → r.tmp = s'.shared.blockTime) →
      (s'.shared.blockTime = s.shared.blockTime ∨ Owns (p t)) →
      s'.shared.blockTime - waited s'.hist = s.shared.blockTime - waited s.hist + pending x - pending (p t) →
      Inv N s' (fun u => if u = t then x else p u) := by
    intro s' th x e1 e2 e3 e4 e5 e6
    refine ⟨?_, e3, ?_, ?_⟩
    · intro u
      rw [e1, hset]
      by_cases hu : u = t
      · simpa [hu] using e2
      · simpa [hu] using h.pos u
    · intro u r hr
      by_cases hu : u = t
      · simp only [hu, if_true] at hr
        exact e4 r hr
      · simp only [hu, if_false] at hr
        rcases e5 with e5 | e5
        · rw [e5]; exact h.tmp u r hr
        · exfalso
          have h1 := (h.lock u).mpr ⟨4, r, hr, by decide, by decide⟩
          have h2 := (h.lock t).mpr e5
          rw [h1] at h2
          simp at h2
          exact hu h2
    · rw [sum_set N t ht]
      have := h.total
      omega
  unfold Conc.step
  rcases hth : s.threads t with ⟨todo, cur⟩
  rw [hth] at hp
  simp only at hp
  have same : ∀ {x : Option (Nat × Regs)}, (Owns x ↔ Owns (p t)) →
      ∀ u, s.lock = some u ↔ Owns (if u = t then x else p u) := by
    intro x hx u
    by_cases hu : u = t
    · simp only [hu, if_true]; rw [hx]; exact h.lock t
    · simp only [hu, if_false]; exact h.lock u
  have hno : ∀ {x : Option (Nat × Regs)}, x = none → ¬ Owns x := by rintro x rfl ⟨n, r, h, _⟩; simp at h
  generalize hpt : p t = pt at hp
  cases hp with
  | none =>
    cases todo with
    | nil => exact ⟨p, h⟩
    | cons c cs =>
      cases c with
      | block =>
        refine ⟨_, move _ _ (some (0, {})) rfl (.block 0 {} (by decide)) (same ?_) (by simp) (Or.inl rfl) ?_⟩
        · rw [hpt]
          refine ⟨?_, fun h => absurd h (hno rfl)⟩
          rintro ⟨n, r, h1, h2, _⟩
          simp only [Option.some.injEq, Prod.mk.injEq] at h1
          omega
        · simp [hpt, pending, waited, returned_append, returned]
      | tick d =>
        refine ⟨_, move _ _ none rfl (.tick d 0 {} (by decide)) (same (by rw [hpt])) (by simp) (Or.inl rfl) ?_⟩
        simp [hpt, pending, waited, returned_append, returned]
  | tick d n r hn =>
    interval_cases n <;> simp only [code, List.drop_succ_cons, List.drop_zero, List.drop_nil]
    · refine ⟨_, move _ _ none rfl (.tick d 1 r (by decide)) (same (by rw [hpt])) (by simp) (Or.inl rfl) ?_⟩
      simp [hpt, pending]
    · refine ⟨_, move _ _ none rfl .none (same (by rw [hpt])) (by simp) (Or.inl rfl) ?_⟩
      simp [hpt, pending, waited, returned_append, returned, cls, result]
  | block n r hn =>
    have owns : ∀ {k : Nat} {r' : Regs}, Owns (some (k, r')) ↔ 2 ≤ k ∧ k ≤ 6 := by
      intro k r'
      constructor
      · rintro ⟨n, r, h1, h2⟩
        simp only [Option.some.injEq, Prod.mk.injEq] at h1
        omega
      · intro h; exact ⟨k, r', rfl, h⟩
    interval_cases n <;> simp only [code, List.drop_succ_cons, List.drop_zero, List.drop_nil]
    · refine ⟨_, move _ _ (some (1, _)) rfl (.block 1 _ (by decide)) (same ?_) (by simp) (Or.inl rfl) ?_⟩
      · rw [hpt, owns, owns]; omega
      · simp [hpt, pending]
    · -- taking the lock
      cases hl : s.lock with
      | some x => simp only; exact ⟨p, h⟩
      | none =>
        simp only
        refine ⟨_, move _ _ (some (2, r)) rfl (.block 2 _ (by decide)) ?_ (by simp) (Or.inl rfl) ?_⟩
        · intro u
          by_cases hu : u = t
          · simp [hu, owns]
          · simp only [hu, if_false]
            rw [← h.lock u, hl]
            simp [Ne.symm hu]
        · simp [hpt, pending]
    · refine ⟨_, move _ _ (some (3, _)) rfl (.block 3 _ (by decide)) (same ?_) (by simp) (Or.inl rfl) ?_⟩
      · rw [hpt, owns, owns]; omega
      · simp [hpt, pending]
    · refine ⟨_, move _ _ (some (4, _)) rfl (.block 4 _ (by decide)) (same ?_) ?_ (Or.inl rfl) ?_⟩
      · rw [hpt, owns, owns]; omega
      · rintro r' hr'
        simp only [Option.some.injEq, Prod.mk.injEq, true_and] at hr'
        subst hr'
        rfl
      · simp [hpt, pending]
    · have htmp := h.tmp t r hpt
      refine ⟨_, move _ _ (some (5, r)) rfl (.block 5 _ (by decide)) (same ?_) (by simp) (Or.inr ?_) ?_⟩
      · rw [hpt, owns, owns]; omega
      · rw [hpt, owns]; omega
      · simp [hpt, pending, htmp]; omega
    · refine ⟨_, move _ _ (some (6, _)) rfl (.block 6 _ (by decide)) (same ?_) (by simp) (Or.inl rfl) ?_⟩
      · rw [hpt, owns, owns]; omega
      · simp [hpt, pending]
    · -- releasing it
      refine ⟨_, move _ _ (some (7, r)) rfl (.block 7 _ (by decide)) ?_ (by simp) (Or.inl rfl) ?_⟩
      · intro u
        have h1 := (h.lock t).mpr (by rw [hpt, owns]; omega)
        by_cases hu : u = t
        · simp [hu, owns]
        · simp only [hu, if_false]
          rw [← h.lock u, h1]
          simp [Ne.symm hu]
      · simp [hpt, pending]
    · refine ⟨_, move _ _ (some (8, _)) rfl (.block 8 _ (by decide)) (same ?_) (by simp) (Or.inl rfl) ?_⟩
      · rw [hpt, owns, owns]; omega
      · simp [hpt, pending]
    · refine ⟨_, move _ _ (some (9, _)) rfl (.block 9 _ (by decide)) (same ?_) (by simp) (Or.inl rfl) ?_⟩
      · rw [hpt, owns, owns]; omega
      · simp [hpt, pending]
    · refine ⟨_, move _ _ (some (10, _)) rfl (.block 10 _ (by decide)) (same ?_) (by simp) (Or.inl rfl) ?_⟩
      · rw [hpt, owns, owns]; omega
      · simp [hpt, pending]
    · refine ⟨_, move _ _ none rfl .none (same ?_) (by simp) (Or.inl rfl) ?_⟩
      · rw [hpt, owns]
        exact ⟨fun h => absurd h (hno rfl), fun h => by omega⟩
      · simp [hpt, pending, waited, returned_append, returned, cls, result]
        omega

theorem run_inv (s₀ : Shared) (h₀ : s₀.blockTime = 0) (calls : Nat → List Call) (N : Nat) (sched : List Nat)
    (hN : ∀ t ∈ sched, t < N) : ∃ p, Inv N (Conc.run cls (Conc.start s₀ calls) sched) p := by
  induction sched using snocInduction with
  | nil =>
    refine ⟨fun _ => none, fun _ => .none, ?_, by simp, ?_⟩
    · intro t
      simp only [Conc.run, Conc.start, List.foldl_nil, reduceCtorEq, false_iff]
      rintro ⟨n, r, h, _⟩
      simp at h
    · simp [Conc.run, Conc.start, h₀, waited, returned, pending]
  | snoc sched t ih =>
    obtain ⟨p, h⟩ := ih fun u hu => hN u (by simp [hu])
    rw [Conc.run, List.foldl_append]
    exact step_inv h t (hN t (by simp))

/-- What the thread has added to the time inside in a call that has not returned. -/
def tail : Option (Nat × Regs) → Int
  | some (10, r) => r.out - r.now
  | _ => 0

/-- The invariant for the time inside, with only one thread `t₀` that uses the lock. -/
structure Inv1 (t₀ : Nat) (s : State) (p : Option (Nat × Regs)) : Prop where
  pos : At (s.threads t₀).cur p
  todo : ∀ t, t ≠ t₀ → Call.block ∉ (s.threads t).todo
  others : ∀ t, t ≠ t₀ → At (s.threads t).cur none
  start : ∀ n r, p = some (n, r) → 6 ≤ n → s.shared.scopeStart = r.now
  tmp : ∀ n r, p = some (n, r) → n = 8 ∨ n = 9 → r.tmp = s.shared.execTime
  total : s.shared.execTime = ran s.hist + tail p

theorem at_none {cur : Option (Call × List (Instr Shared Regs) × Regs)} (h : At cur none) :
    cur = none ∨ (∃ d r, cur = some (.tick d, [.act fun r s => (r, { s with clock := s.clock + d })], r)) ∨
      ∃ d r, cur = some (.tick d, [], r) := by
  cases h with
  | none => exact Or.inl rfl
  | tick d n r hn =>
    right
    interval_cases n
    · exact Or.inl ⟨d, r, rfl⟩
    · exact Or.inr ⟨d, r, rfl⟩

theorem ran_ret_tick (s : List (HEvent Call (Option (Int × Int)))) (t d : Nat) (r : Regs) :
    ran (s ++ [.ret t (.tick d) (cls.result (.tick d) r)]) = ran s := by
  simp [ran, returned_append, returned, cls, result]

theorem ran_inv (s : List (HEvent Call (Option (Int × Int)))) (t : Nat) (c : Call) : ran (s ++ [.inv t c]) = ran s := by
  simp [ran, returned_append, returned]

theorem step_inv1 {t₀ : Nat} {s : State} {p : Option (Nat × Regs)} (h : Inv1 t₀ s p) (t : Nat) :
    ∃ p', Inv1 t₀ (s.step cls t) p' := by
  have hset : ∀ th u, s.setThread t th u = if u = t then th else s.threads u := fun _ _ => rfl
  by_cases ht : t = t₀
  · subst ht
    have move : ∀ (s' : State) (th : Thread Call Shared Regs) (x : Option (Nat × Regs)),
        s'.threads = s.setThread t th → At th.cur x →
        (∀ n r, x = some (n, r) → 6 ≤ n → s'.shared.scopeStart = r.now) →
        (∀ n r, x = some (n, r) → n = 8 ∨ n = 9 → r.tmp = s'.shared.execTime) →
        (s'.shared.execTime = ran s'.hist + tail x) → Inv1 t s' x := by
      intro s' th x e1 e2 e3 e4 e5
      refine ⟨?_, ?_, ?_, e3, e4, e5⟩
      · rw [e1, hset]; simpa using e2
      · intro u hu; rw [e1, hset, if_neg hu]; exact h.todo u hu
      · intro u hu; rw [e1, hset, if_neg hu]; exact h.others u hu
    have hp := h.pos
    have htot := h.total
    unfold Conc.step
    rcases hth : s.threads t with ⟨todo, cur⟩
    rw [hth] at hp
    simp only at hp
    generalize hpp : p = pt at hp
    cases hp with
    | none =>
      subst hpp
      cases todo with
      | nil => exact ⟨none, h⟩
      | cons c cs =>
        cases c with
        | block =>
          refine ⟨_, move _ _ (some (0, {})) rfl (.block 0 {} (by decide)) ?_ ?_ ?_⟩
          · intro n r e; simp at e; omega
          · intro n r e; simp at e; omega
          · simp only [ran_inv]; exact htot
        | tick d =>
          refine ⟨_, move _ _ none rfl (.tick d 0 {} (by decide)) (by simp) (by simp) ?_⟩
          simp only [ran_inv]; exact htot
    | tick d n r hn =>
      subst hpp
      interval_cases n <;> simp only [code, List.drop_succ_cons, List.drop_zero, List.drop_nil]
      · exact ⟨_, move _ _ none rfl (.tick d 1 r (by decide)) (by simp) (by simp) htot⟩
      · refine ⟨_, move _ _ none rfl .none (by simp) (by simp) ?_⟩
        simp only [ran_ret_tick]; exact htot
    | block n r hn =>
      subst hpp
      have hst := h.start n r rfl
      have htm := h.tmp n r rfl
      have e3 : ∀ {k : Nat} {r' : Regs} {v : Int}, (k < 6 ∨ v = r'.now) →
          ∀ n r, some (k, r') = some (n, r) → 6 ≤ n → v = r.now := by
        intro k r' v hk n r e hn
        simp only [Option.some.injEq, Prod.mk.injEq] at e
        obtain ⟨rfl, rfl⟩ := e
        rcases hk with hk | hk
        · omega
        · exact hk
      have e4 : ∀ {k : Nat} {r' : Regs} {v : Int}, ((k ≠ 8 ∧ k ≠ 9) ∨ r'.tmp = v) →
          ∀ n r, some (k, r') = some (n, r) → n = 8 ∨ n = 9 → r.tmp = v := by
        intro k r' v hk n r e hn
        simp only [Option.some.injEq, Prod.mk.injEq] at e
        obtain ⟨rfl, rfl⟩ := e
        rcases hk with hk | hk
        · omega
        · exact hk
      interval_cases n <;> simp only [code, List.drop_succ_cons, List.drop_zero, List.drop_nil]
      · exact ⟨_, move _ _ (some (1, _)) rfl (.block 1 _ (by decide)) (e3 (by simp)) (e4 (by simp)) htot⟩
      · cases hl : s.lock with
        | some x => exact ⟨_, h⟩
        | none => exact ⟨_, move _ _ (some (2, _)) rfl (.block 2 _ (by decide)) (e3 (by simp)) (e4 (by simp)) htot⟩
      · exact ⟨_, move _ _ (some (3, _)) rfl (.block 3 _ (by decide)) (e3 (by simp)) (e4 (by simp)) htot⟩
      · exact ⟨_, move _ _ (some (4, _)) rfl (.block 4 _ (by decide)) (e3 (by simp)) (e4 (by simp)) htot⟩
      · exact ⟨_, move _ _ (some (5, _)) rfl (.block 5 _ (by decide)) (e3 (by simp)) (e4 (by simp)) htot⟩
      · exact ⟨_, move _ _ (some (6, _)) rfl (.block 6 _ (by decide)) (e3 (by simp)) (e4 (by simp)) htot⟩
      · exact ⟨_, move _ _ (some (7, _)) rfl (.block 7 _ (by decide)) (e3 (by simp [hst])) (e4 (by simp)) htot⟩
      · exact ⟨_, move _ _ (some (8, _)) rfl (.block 8 _ (by decide)) (e3 (by simp [hst])) (e4 (by simp)) htot⟩
      · exact ⟨_, move _ _ (some (9, _)) rfl (.block 9 _ (by decide)) (e3 (by simp [hst])) (e4 (by simp [htm])) htot⟩
      · refine ⟨_, move _ _ (some (10, _)) rfl (.block 10 _ (by decide)) (e3 (by simp [hst])) (e4 (by simp)) ?_⟩
        simp only at htot ⊢
        rw [htm (by simp), htot, hst (by decide)]
        simp [tail]
      · refine ⟨_, move _ _ none rfl .none (by simp) (by simp) ?_⟩
        simp only at htot ⊢
        rw [htot]
        simp [tail, ran, returned_append, returned, cls, result]
  · -- the other threads only tick
    have ho := h.others t ht
    have keep : ∀ (s' : State) (th : Thread Call Shared Regs), s'.threads = s.setThread t th → At th.cur none →
        (∀ c ∈ th.todo, c ∈ (s.threads t).todo) → s'.shared.scopeStart = s.shared.scopeStart →
        s'.shared.execTime = s.shared.execTime → ran s'.hist = ran s.hist → Inv1 t₀ s' p := by
      intro s' th e1 e2 e3 e4 e5 e6
      refine ⟨?_, ?_, ?_, ?_, ?_, ?_⟩
      · rw [e1, hset, if_neg (Ne.symm ht)]; exact h.pos
      · intro u hu
        rw [e1, hset]
        split
        · exact fun hc => h.todo t ht (e3 _ hc)
        · exact h.todo u hu
      · intro u hu
        rw [e1, hset]
        split
        · exact e2
        · exact h.others u hu
      · intro n r e hn; rw [e4]; exact h.start n r e hn
      · intro n r e hn; rw [e5]; exact h.tmp n r e hn
      · rw [e5, e6]; exact h.total
    have htodo := h.todo t ht
    unfold Conc.step
    rcases at_none ho with e | ⟨d, r, e⟩ | ⟨d, r, e⟩
    · rw [e]
      simp only
      cases hto : (s.threads t).todo with
      | nil => exact ⟨p, h⟩
      | cons c cs =>
        rw [hto] at htodo
        cases c with
        | block => simp at htodo
        | tick d => exact ⟨p, keep _ _ rfl (.tick d 0 {} (by decide)) (by rw [hto]; intro c hc; exact List.mem_cons_of_mem _ hc) rfl rfl (ran_inv _ _ _)⟩
    · rw [e]
      exact ⟨p, keep _ _ rfl (.tick d 1 r (by decide)) (by simp) rfl rfl rfl⟩
    · rw [e]
      exact ⟨p, keep _ _ rfl .none (by simp) rfl rfl (ran_ret_tick _ _ _ _)⟩

theorem run_inv1 (s₀ : Shared) (h₀ : s₀.execTime = 0) (calls : Nat → List Call) (t₀ : Nat)
    (hone : ∀ t, t ≠ t₀ → .block ∉ calls t) (sched : List Nat) :
    ∃ p, Inv1 t₀ (Conc.run cls (Conc.start s₀ calls) sched) p := by
  induction sched using snocInduction with
  | nil =>
    exact ⟨none, .none, hone, fun _ _ => .none, by simp, by simp, by simp [Conc.run, Conc.start, h₀, ran, returned, tail]⟩
  | snoc sched t ih =>
    obtain ⟨p, h⟩ := ih
    rw [Conc.run, List.foldl_append]
    exact step_inv1 h t

end TracedLock

open TracedLock in
/-- **C84** as one would have it: when all threads are at rest, the lock has added up the time that blocks waited, and
the time that they ran. -/
def C84_claim : Prop :=
  ∀ (calls : Nat → List TracedLock.Call) (sched : List Nat),
    (Conc.run TracedLock.cls (Conc.start {} calls) sched).Quiet →
      (Conc.run TracedLock.cls (Conc.start {} calls) sched).shared.blockTime
        = waited (Conc.run TracedLock.cls (Conc.start {} calls) sched).hist ∧
      (Conc.run TracedLock.cls (Conc.start {} calls) sched).shared.execTime
        = ran (Conc.run TracedLock.cls (Conc.start {} calls) sched).hist

open TracedLock in
/-- **C84** (what holds). The time that blocks waited is added up rightly, for any number of threads and any schedule.
The time that they ran is, if only one thread uses the lock. -/
theorem C84_partial (calls : Nat → List TracedLock.Call) (sched : List Nat) (s : TracedLock.State)
    (hs : Conc.run TracedLock.cls (Conc.start {} calls) sched = s) (hq : s.Quiet) :
    s.shared.blockTime = waited s.hist ∧
      ∀ t₀, (∀ t, t ≠ t₀ → .block ∉ calls t) → s.shared.execTime = ran s.hist := by
  subst hs
  constructor
  · obtain ⟨N, hN⟩ : ∃ N, ∀ t ∈ sched, t < N := by
      clear hq
      induction sched with
      | nil => exact ⟨0, by simp⟩
      | cons t l ih =>
        obtain ⟨N, h⟩ := ih
        refine ⟨max N (t + 1), fun u hu => ?_⟩
        rcases List.mem_cons.mp hu with rfl | hu
        · omega
        · have := h u hu; omega
    obtain ⟨p, h⟩ := run_inv {} rfl calls N sched hN
    rw [h.total]
    have : ∀ t, pending (p t) = 0 := by
      intro t
      have := h.pos t
      have hn : ((Conc.run cls (Conc.start {} calls) sched).threads t).cur = none := by simpa using hq t
      rw [hn] at this
      generalize p t = x at this
      cases this
      rfl
    simp [this]
  · intro t₀ hone
    obtain ⟨p, h⟩ := run_inv1 {} rfl calls t₀ hone sched
    have := h.pos
    have hn : ((Conc.run cls (Conc.start {} calls) sched).threads t₀).cur = none := by simpa using hq t₀
    rw [hn] at this
    have ht := h.total
    cases this
    simpa [tail] using ht

namespace TracedDemo

open TracedLock

/-- Two threads that use the lock once each, and the clock. -/
def calls (t : Nat) : List Call := if t < 2 then [.block] else if t = 2 then [.tick 10, .tick 100, .tick 1000] else []

/-- Thread 0 is interrupted after it has released the lock; then thread 1 enters and runs for 1000. -/
def sched : List Nat := List.replicate 7 0 ++ [2, 2, 2] ++ [0] ++ [2, 2, 2] ++ List.replicate 7 1 ++ [2, 2, 2]
  ++ List.replicate 4 1 ++ [1] ++ List.replicate 5 0

theorem quiet : (Conc.run cls (Conc.start {} calls) sched).Quiet := by
  intro t
  rcases t with _ | _ | _ | t
  · decide +kernel
  · decide +kernel
  · decide +kernel
  · have h := (run_calls cls {} calls sched (t + 3))
    have hc : calls (t + 3) = [] := by simp [calls]
    have hs : ∀ u ∈ sched, u < 3 := by decide
    have keep : ∀ (l : List Nat) (s : State), (∀ u ∈ l, u < 3) → (Conc.run cls s l).threads (t + 3) = s.threads (t + 3) := by
      intro l
      induction l with
      | nil => intros; rfl
      | cons u l ih =>
        intro s hl
        rw [Conc.run, List.foldl_cons]
        refine (ih _ fun v hv => hl v (by simp [hv])).trans ?_
        have hu := hl u (by simp)
        have : ∀ th, s.setThread u th (t + 3) = s.threads (t + 3) := fun th => by
          simp [Conc.setThread, show ¬ t + 3 = u by omega]
        unfold Conc.step
        split
        · split
          · rfl
          · exact this _
        · exact this _
        · split
          · exact this _
          · rfl
        · exact this _
        · exact this _
    rw [keep sched _ hs]
    rfl

/- By their own clock readings the blocks ran for 1110 and 1000; the lock says 2000. -/
example : (returned (Conc.run cls (Conc.start {} calls) sched).hist).filterMap (fun x => x.2.2.map fun y => (x.1, y)) =
    [(1, (0, 1000)), (0, (0, 1110))] ∧ (Conc.run cls (Conc.start {} calls) sched).shared.execTime = 2000 := by
  decide +kernel

end TracedDemo

/-- **C84** fails: the time of the block that was interrupted after it released the lock is computed with the start of
another block. -/
theorem C84_false : ¬ C84_claim := by
  intro h
  have := (h TracedDemo.calls TracedDemo.sched TracedDemo.quiet).2
  revert this
  decide +kernel

end Verif
