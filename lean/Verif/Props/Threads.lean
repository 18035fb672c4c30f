import Verif.Lemmas.Threads
import Mathlib.Data.List.Perm.Subperm
import Mathlib.Algebra.BigOperators.Group.List.Basic

/-!
# Atomic integers, containers and locked resources (C50, C51, C52)

The theorems are about every number of threads, every list of calls each of them makes, and every schedule.
-/

namespace Verif

open Spec

/-! ## Histories -/

section

variable {C : Type w} {R : Type x}

open Classical in
theorem count_effects (l : List (LEvent C R)) (t : Nat) (c : C) (r : R) :
    (effects l).count (t, c, r) = (ofThread t l).count (.lin t c r) := by
  induction l with
  | nil => rfl
  | cons e l ih =>
    rw [show e :: l = [e] ++ l from rfl, effects_append, ofThread_append, List.count_append, List.count_append, ih]
    congr 1
    cases e with
    | inv t' c' => by_cases h : t' = t <;> simp [effects, ofThread, thread, List.count_cons, h]
    | ret t' c' r' => by_cases h : t' = t <;> simp [effects, ofThread, thread, List.count_cons, h]
    | lin t' c' r' => by_cases h : t' = t <;> simp [effects, ofThread, thread, List.count_cons, h]

open Classical in
theorem count_returned (l : List (LEvent C R)) (t : Nat) (c : C) (r : R) :
    (returned (visible l)).count (t, c, r) = (ofThread t l).count (.ret t c r) := by
  induction l with
  | nil => rfl
  | cons e l ih =>
    rw [show e :: l = [e] ++ l from rfl, ofThread_append, List.count_append, ← ih]
    cases e with
    | inv t' c' => by_cases h : t' = t <;> simp [returned, visible, ofThread, thread, List.count_cons, h]
    | ret t' c' r' =>
      by_cases h : t' = t <;> simp [returned, visible, ofThread, thread, List.count_cons, h, Nat.add_comm]
    | lin t' c' r' => by_cases h : t' = t <;> simp [returned, visible, ofThread, thread, List.count_cons, h]

theorem ofThread_mem {l : List (LEvent C R)} {t : Nat} {e : LEvent C R} (h : e ∈ ofThread t l) : thread e = t := by
  have := (List.mem_filter.mp h).2
  simpa using this

open Classical in
theorem count_complete_lin (t : Nat) (calls : List (C × R)) (c : C) (r : R) :
    (calls.flatMap (complete t)).count (.lin t c r) = calls.count (c, r) := by
  induction calls with
  | nil => rfl
  | cons x calls ih =>
    rw [List.flatMap_cons, List.count_append, ih, List.count_cons]
    obtain ⟨c', r'⟩ := x
    simp [complete, List.count_cons, Nat.add_comm]

open Classical in
theorem count_complete_ret (t : Nat) (calls : List (C × R)) (c : C) (r : R) :
    (calls.flatMap (complete t)).count (.ret t c r) = calls.count (c, r) := by
  induction calls with
  | nil => rfl
  | cons x calls ih =>
    rw [List.flatMap_cons, List.count_append, ih, List.count_cons]
    obtain ⟨c', r'⟩ := x
    simp [complete, List.count_cons, Nat.add_comm]

/-- What has returned has had its effect. -/
theorem returned_subperm {l : List (LEvent C R)} (h : WellFormed l) :
    (returned (visible l)).Subperm (effects l) := by
  classical
  rw [List.subperm_ext_iff]
  rintro ⟨t, c, r⟩ -
  obtain ⟨calls, tail, h1, h2⟩ := h t
  rw [count_effects, count_returned, h1, List.count_append, List.count_append, count_complete_lin, count_complete_ret]
  have : tail.count (.ret t c r) = 0 := by cases h2 <;> simp [List.count_cons]
  omega

/-- If no call is open, what has returned is what has had its effect. -/
theorem returned_perm {l : List (LEvent C R)}
    (h : ∀ t, ∃ calls : List (C × R), ofThread t l = calls.flatMap (complete t)) :
    (returned (visible l)).Perm (effects l) := by
  classical
  rw [List.perm_iff_count]
  rintro ⟨t, c, r⟩
  obtain ⟨calls, h1⟩ := h t
  rw [count_effects, count_returned, h1, count_complete_lin, count_complete_ret]

/-- The calls that had their effect, in a thread, were made. -/
theorem effects_invoked {l : List (LEvent C R)} (h : WellFormed l) :
    ((effects l).map fun x => (x.1, x.2.1)).Subperm (invoked (visible l)) := by
  classical
  rw [List.subperm_ext_iff]
  rintro ⟨t, c⟩ -
  obtain ⟨calls, tail, h1, h2⟩ := h t
  have e1 : ∀ l : List (LEvent C R), ((effects l).map fun x => (x.1, x.2.1)).count (t, c)
      = (ofThread t l).countP (fun e => ∃ r, e = .lin t c r) := by
    intro l
    induction l with
    | nil => rfl
    | cons e l ih =>
      rw [show e :: l = [e] ++ l from rfl, effects_append, ofThread_append, List.map_append, List.count_append,
        List.countP_append, ih]
      congr 1
      cases e with
      | inv t' c' => by_cases h : t' = t <;> simp [effects, ofThread, thread, h]
      | ret t' c' r' => by_cases h : t' = t <;> simp [effects, ofThread, thread, h]
      | lin t' c' r' => by_cases h : t' = t <;> simp [effects, ofThread, thread, List.count_cons, List.countP_cons, h]
  have e2 : ∀ l : List (LEvent C R), (invoked (visible l)).count (t, c) = (ofThread t l).count (.inv t c) := by
    intro l
    induction l with
    | nil => rfl
    | cons e l ih =>
      rw [show e :: l = [e] ++ l from rfl, ofThread_append, List.count_append, ← ih]
      cases e with
      | inv t' c' =>
        by_cases h : t' = t <;> simp [invoked, visible, ofThread, thread, List.count_cons, h, Nat.add_comm]
      | ret t' c' r' => by_cases h : t' = t <;> simp [invoked, visible, ofThread, thread, h, List.count_cons]
      | lin t' c' r' => by_cases h : t' = t <;> simp [invoked, visible, ofThread, thread, h, List.count_cons]
  rw [e1, e2, h1, List.countP_append, List.count_append]
  have e3 : ∀ calls : List (C × R), (calls.flatMap (complete t)).countP (fun e => ∃ r, e = .lin t c r)
      = (calls.flatMap (complete t)).count (.inv t c) := by
    intro calls
    induction calls with
    | nil => rfl
    | cons x calls ih =>
      rw [List.flatMap_cons, List.countP_append, List.count_append, ih]
      obtain ⟨c', r'⟩ := x
      simp [complete, List.count_cons, List.countP_cons]
  rw [e3]
  have : tail.countP (fun e => ∃ r, e = .lin t c r) ≤ tail.count (.inv t c) := by
    cases h2 <;> simp [List.count_cons, List.countP_cons]
  omega

end

theorem Explained.closed {C : Type w} {σ : Type u} {ρ : Type v} {R : Type x} {o : SharedClass C σ ρ R}
    {acts : C → List (ρ → σ → ρ × σ)} {s₀ : σ} {s : Conc C σ ρ R} {l : List (LEvent C R)} {b : σ}
    (h : Explained o acts s₀ s l b) (hq : s.Quiet) :
    (∀ t, ∃ calls : List (C × R), ofThread t l = calls.flatMap (complete t)) ∧ s.shared = b := by
  have hall : ∀ t, (∃ calls : List (C × R), ofThread t l = calls.flatMap (complete t)) ∧ s.lock ≠ some t := by
    intro t
    have ht := h.stage t
    have hn : (s.threads t).cur = none := by simpa using hq t
    rw [hn] at ht
    cases ht with
    | idle calls hl hk => exact ⟨⟨calls, hl⟩, hk⟩
  refine ⟨fun t => (hall t).1, h.free ?_⟩
  cases hl : s.lock with
  | none => rfl
  | some t => exact absurd hl (hall t).2

theorem Legal.mono {C : Type u} {R : Type v} {S : Type w} {P Q : C → S → R → S → Prop}
    (h : ∀ c s r s', P c s r s' → Q c s r s') {s s' : S} {l : List (Nat × C × R)} (hl : Legal P s l s') :
    Legal Q s l s' := by
  induction hl with
  | nil => exact .nil _
  | snoc _ hs ih => exact .snoc ih (h _ _ _ _ hs)

/-! ## C50 -/

/-- A sequential counter. -/
def Spec.counter : AtomicInt.Call → Int → Option Int → Int → Prop
  | .iadd v, s, r, s' => s' = s + v ∧ r = none
  | .isub v, s, r, s' => s' = s - v ∧ r = none
  | .swap v, s, r, s' => s' = v ∧ r = some s
  | .increment v, s, r, s' => s' = s + v ∧ r = some s

namespace AtomicInt

def acts : Call → List (Regs → Int → Regs × Int)
  | .iadd v => [fun r s => ({ r with tmp := s }, s), fun r _ => (r, r.tmp + v)]
  | .isub v => [fun r s => ({ r with tmp := s }, s), fun r _ => (r, r.tmp - v)]
  | .swap v => [fun r s => ({ r with loc := s }, s), fun r _ => (r, v)]
  | .increment v => [fun r s => ({ r with loc := s }, s), fun r s => ({ r with tmp := s }, s), fun r _ => (r, r.tmp + v)]

theorem explained (s₀ : Int) (calls : Nat → List Call) (sched : List Nat) :
    ∃ l b, Explained cls acts s₀ (Conc.run cls (Conc.start s₀ calls) sched) l b ∧
      Legal counter s₀ (effects l) b := by
  obtain ⟨l, b, h⟩ := run_explained (o := cls) (acts := acts) (fun c => by cases c <;> rfl) s₀ calls sched
  refine ⟨l, b, h, Legal.mono ?_ h.legal⟩
  rintro c s r s' ⟨rfl, rfl⟩
  cases c <;> exact ⟨rfl, rfl⟩

end AtomicInt

/-- **C50**. Every execution looks like that of a counter whose operations happen at one moment each. -/
theorem C50_linearizable (s₀ : Int) (calls : Nat → List AtomicInt.Call) (sched : List Nat) :
    Linearizable counter s₀ (Conc.run AtomicInt.cls (Conc.start s₀ calls) sched).hist := by
  obtain ⟨l, b, h, hl⟩ := AtomicInt.explained s₀ calls sched
  exact ⟨b, l, h.vis, h.wellFormed, hl⟩

/-- What a call adds. -/
def Spec.amount : AtomicInt.Call → Int
  | .iadd v => v
  | .isub v => -v
  | .swap _ => 0
  | .increment v => v

/-- The sum of what calls add. -/
def Spec.summed (l : List (Nat × AtomicInt.Call × Option Int)) : Int := (l.map fun x => amount x.2.1).sum

theorem legal_counter {s₀ s : Int} {l : List (Nat × AtomicInt.Call × Option Int)} (h : Legal counter s₀ l s)
    (hns : ∀ x ∈ l, ∀ v, x.2.1 ≠ .swap v) :
    s = s₀ + summed l ∧ ∀ a t v r b, l = a ++ (t, .increment v, r) :: b → r = some (s₀ + summed a) := by
  induction h with
  | nil => simp [summed]
  | snoc h hs ih =>
    rename_i s' s'' l t c r
    obtain ⟨h1, h2⟩ := ih fun x hx => hns x (by simp [hx])
    refine ⟨?_, ?_⟩
    · have := hns (t, c, r) (by simp)
      cases c with
      | swap v => exact absurd rfl (this v)
      | iadd v => rw [hs.1, h1]; simp [summed, amount]; omega
      | isub v => rw [hs.1, h1]; simp [summed, amount]; omega
      | increment v => rw [hs.1, h1]; simp [summed, amount]; omega
    · intro a t' v r' b e
      rcases List.eq_nil_or_concat b with rfl | ⟨b', x, rfl⟩
      · have := List.append_inj' e rfl
        obtain ⟨rfl, he⟩ := this
        simp only [List.cons.injEq, Prod.mk.injEq, and_true] at he
        obtain ⟨rfl, rfl, rfl⟩ := he
        rw [hs.2, h1]
      · rw [List.concat_eq_append, ← List.cons_append, ← List.append_assoc] at e
        exact h2 a t' v r' b' (List.append_inj' e rfl).1

theorem legal_increasing {s₀ s : Int} {l : List (Nat × AtomicInt.Call × Option Int)} (h : Legal counter s₀ l s)
    (hpos : ∀ x ∈ l, ∃ v, 0 < v ∧ x.2.1 = .increment v) :
    (∀ x ∈ l, ∃ k, k < s ∧ x.2.2 = some k) ∧ l.Pairwise fun x y => x.2.2 ≠ y.2.2 := by
  induction h with
  | nil => simp
  | snoc h hs ih =>
    rename_i s' s'' l t c r
    obtain ⟨h1, h2⟩ := ih fun x hx => hpos x (by simp [hx])
    obtain ⟨v, hv, hc⟩ := hpos (t, c, r) (by simp)
    simp only at hc
    subst hc
    obtain ⟨rfl, rfl⟩ := hs
    constructor
    · intro x hx
      rcases List.mem_append.mp hx with hx | hx
      · obtain ⟨k, h3, h4⟩ := h1 x hx
        exact ⟨k, by omega, h4⟩
      · simp only [List.mem_singleton] at hx
        subst hx
        exact ⟨s', by omega, rfl⟩
    · rw [List.pairwise_append]
      refine ⟨h2, by simp, ?_⟩
      intro x hx y hy
      simp only [List.mem_singleton] at hy
      subst hy
      obtain ⟨k, h3, h4⟩ := h1 x hx
      rw [h4]
      simp
      omega

/-- **C50** (distinct). If threads only increment, by positive amounts, no two calls return the same value. -/
theorem C50_distinct (s₀ : Int) (calls : Nat → List AtomicInt.Call) (sched : List Nat)
    (hinc : ∀ t c, c ∈ calls t → ∃ v, 0 < v ∧ c = .increment v) :
    ((returned (Conc.run AtomicInt.cls (Conc.start s₀ calls) sched).hist).map fun x => x.2.2).Nodup := by
  obtain ⟨l, b, h, hl⟩ := AtomicInt.explained s₀ calls sched
  rw [← h.vis]
  have hpos : ∀ x ∈ effects l, ∃ v, 0 < v ∧ x.2.1 = .increment v := by
    intro x hx
    have h1 := (effects_invoked h.wellFormed).subset (List.mem_map_of_mem (f := fun x => (x.1, x.2.1)) hx)
    rw [h.vis] at h1
    exact hinc _ _ (run_invoked h1)
  have hnd : ((effects l).map fun x => x.2.2).Nodup := by
    rw [List.nodup_iff_pairwise_ne, List.pairwise_map]
    exact (legal_increasing hl hpos).2
  obtain ⟨l', hp, hsub⟩ := returned_subperm h.wellFormed
  exact ((hp.map _).nodup_iff).mp (hnd.sublist (hsub.map _))

/-- **C50** (sums). When all threads that only add (`+=`, `-=`, `increment`) have come to rest, the value is the first
one plus all that was summed; and there is an order of the calls in which each `increment` returned the sum of what came
before it. -/
theorem C50_sums (s₀ : Int) (calls : Nat → List AtomicInt.Call) (sched : List Nat)
    (hadd : ∀ t v, .swap v ∉ calls t) (s : Conc AtomicInt.Call Int AtomicInt.Regs (Option Int))
    (hs : Conc.run AtomicInt.cls (Conc.start s₀ calls) sched = s) (hq : s.Quiet) :
    s.shared = s₀ + summed (returned s.hist) ∧ ∃ order, order.Perm (returned s.hist) ∧
      ∀ a t v r b, order = a ++ (t, .increment v, r) :: b → r = some (s₀ + summed a) := by
  obtain ⟨l, b, h, hl⟩ := AtomicInt.explained s₀ calls sched
  have hns : ∀ x ∈ effects l, ∀ v, x.2.1 ≠ .swap v := by
    intro x hx v hv
    have h1 := (effects_invoked h.wellFormed).subset (List.mem_map_of_mem (f := fun x => (x.1, x.2.1)) hx)
    rw [h.vis] at h1
    have := run_invoked h1
    simp only [hv] at this
    exact hadd _ _ this
  obtain ⟨h1, h2⟩ := legal_counter hl hns
  subst hs
  obtain ⟨h3, h4⟩ := h.closed hq
  have hp := returned_perm h3
  rw [h.vis] at hp
  refine ⟨?_, effects l, hp.symm, h2⟩
  rw [h4, h1]
  unfold summed
  rw [(hp.map _).sum_eq]

/-- The order of the calls of one thread is kept: a thread's calls so far, and those to come, are its calls. -/
theorem C50_calls (s₀ : Int) (calls : Nat → List AtomicInt.Call) (sched : List Nat) (t : Nat)
    (hdone : ((Conc.run AtomicInt.cls (Conc.start s₀ calls) sched).threads t).todo = []) :
    ((invoked (Conc.run AtomicInt.cls (Conc.start s₀ calls) sched).hist).filter (fun x => x.1 == t)).map (fun x => x.2)
      = calls t := by
  have := run_calls AtomicInt.cls s₀ calls sched t
  rw [hdone, List.append_nil] at this
  exact this

/-! ## C51 -/

/-- A sequential box: `take` empties it. -/
def Spec.box {V : Type u} : AtomicContainer.Call V → Option V → Option V → Option V → Prop
  | .take, s, r, s' => r = s ∧ s' = none
  | .read, s, r, s' => r = s ∧ s' = s
  | .set v, _, r, s' => r = none ∧ s' = v

namespace AtomicContainer

variable {V : Type u}

def acts : Call V → List (Option V → Option V → Option V × Option V)
  | .take => [fun _ s => (s, s), fun r _ => (r, none)]
  | .read => [fun _ s => (s, s)]
  | .set v => [fun r _ => (r, v)]

theorem explained (s₀ : Option V) (calls : Nat → List (Call V)) (sched : List Nat) :
    ∃ l b, Explained cls acts s₀ (Conc.run cls (Conc.start s₀ calls) sched) l b ∧ Legal box s₀ (effects l) b := by
  obtain ⟨l, b, h⟩ := run_explained (o := cls) (acts := acts) (fun c => by cases c <;> rfl) s₀ calls sched
  refine ⟨l, b, h, Legal.mono ?_ h.legal⟩
  rintro c s r s' ⟨rfl, rfl⟩
  cases c <;> exact ⟨rfl, rfl⟩

end AtomicContainer

/-- What is in the box after these calls: the last thing set, unless it was taken. -/
def Spec.untaken {V : Type u} (s₀ : Option V) : List (Nat × AtomicContainer.Call V × Option V) → Option V :=
  fun l => go l.reverse
where
  go : List (Nat × AtomicContainer.Call V × Option V) → Option V
    | [] => s₀
    | (_, .set v, _) :: _ => v
    | (_, .take, _) :: _ => none
    | (_, .read, _) :: l => go l

/-- **C51**. Every execution looks as if calls happened one after the other, each `take` and each `read` returning the
last value that was set and not taken since. -/
theorem C51_linearizable {V : Type u} (s₀ : Option V) (calls : Nat → List (AtomicContainer.Call V)) (sched : List Nat) :
    ∃ l, visible l = (Conc.run AtomicContainer.cls (Conc.start s₀ calls) sched).hist ∧ WellFormed l ∧
      ∀ a t c r b, effects l = a ++ (t, c, r) :: b → c = .take ∨ c = .read → r = untaken s₀ a := by
  obtain ⟨l, b, h, hl⟩ := AtomicContainer.explained s₀ calls sched
  refine ⟨l, h.vis, h.wellFormed, ?_⟩
  have key : b = untaken s₀ (effects l) ∧
      ∀ a t c r b, effects l = a ++ (t, c, r) :: b → c = .take ∨ c = .read → r = untaken s₀ a := by
    clear h
    generalize effects l = e at hl ⊢
    induction hl with
    | nil => exact ⟨rfl, by simp⟩
    | snoc h hs ih =>
      rename_i s' s'' l t c r
      obtain ⟨h1, h2⟩ := ih
      refine ⟨?_, ?_⟩
      · unfold untaken at h1 ⊢
        rw [List.reverse_append]
        cases c with
        | take => rw [hs.2]; rfl
        | read => rw [hs.2, h1]; rfl
        | set v => rw [hs.2]; rfl
      · intro a t' c' r' b e hc
        rcases List.eq_nil_or_concat b with rfl | ⟨b', x, rfl⟩
        · obtain ⟨rfl, he⟩ := List.append_inj' e rfl
          simp only [List.cons.injEq, Prod.mk.injEq, and_true] at he
          obtain ⟨rfl, rfl, rfl⟩ := he
          rw [← h1]
          rcases hc with rfl | rfl
          · exact hs.1
          · exact hs.1
        · rw [List.concat_eq_append, ← List.cons_append, ← List.append_assoc] at e
          exact h2 a t' c' r' b' (List.append_inj' e rfl).1 hc
  exact key.2

open Classical in
/-- How often `take` has returned `v`. -/
noncomputable def Spec.taken {V : Type u} (v : V) (l : List (Nat × AtomicContainer.Call V × Option V)) : Nat :=
  l.countP fun x => x.2.1 = .take ∧ x.2.2 = some v

open Classical in
/-- How often `v` was set. -/
noncomputable def Spec.sets {V : Type u} (v : V) (l : List (Nat × AtomicContainer.Call V)) : Nat :=
  l.countP fun x => x.2 = .set (some v)

/-- **C51** (once). A value is returned by `take` at most as often as it was set (or was there at first). -/
theorem C51_once {V : Type u} (s₀ : Option V) (calls : Nat → List (AtomicContainer.Call V)) (sched : List Nat) (v : V)
    (h : List (HEvent (AtomicContainer.Call V) (Option V)))
    (hh : (Conc.run AtomicContainer.cls (Conc.start s₀ calls) sched).hist = h) :
    taken v (returned h) ≤ sets v (invoked h) ∨
      s₀ = some v ∧ taken v (returned h) ≤ sets v (invoked h) + 1 := by
  classical
  obtain ⟨l, b, he, hl⟩ := AtomicContainer.explained s₀ calls sched
  subst hh
  rw [← he.vis]
  have h1 : taken v (returned (visible l)) ≤ taken v (effects l) :=
    (returned_subperm he.wellFormed).countP_le _
  have h2 : sets v ((effects l).map fun x => (x.1, x.2.1)) ≤ sets v (invoked (visible l)) :=
    (effects_invoked he.wellFormed).countP_le _
  have h3 : taken v (effects l) + (if b = some v then 1 else 0) ≤
      sets v ((effects l).map fun x => (x.1, x.2.1)) + (if s₀ = some v then 1 else 0) := by
    clear h1 h2 he
    generalize effects l = e at hl ⊢
    induction hl with
    | nil => simp [taken, sets]
    | snoc h hs ih =>
      rename_i s' s'' l t c r
      unfold taken sets at ih ⊢
      rw [List.map_append, List.countP_append, List.countP_append]
      cases c with
      | take =>
        obtain ⟨rfl, rfl⟩ := hs
        simp only [List.map_cons, List.map_nil, List.countP_cons, List.countP_nil] at ih ⊢
        by_cases hr : r = some v
        · simp [hr] at ih ⊢; omega
        · simp [hr] at ih ⊢; omega
      | read =>
        obtain ⟨rfl, rfl⟩ := hs
        simpa using ih
      | set x =>
        obtain ⟨rfl, rfl⟩ := hs
        by_cases hr : s'' = some v
        · simp [hr] at ih ⊢; split at ih <;> omega
        · simp [hr] at ih ⊢; split at ih <;> omega
  by_cases hs : s₀ = some v
  · right; refine ⟨hs, ?_⟩; rw [if_pos hs] at h3; omega
  · left; rw [if_neg hs] at h3; omega

/-! ## C52 -/

/-- A resource whose blocks happen at one moment: the block works on the object that is in the resource. -/
def Spec.resource {X : Type u} {Y : Type v} :
    LockedResource.Call X Y → LockedResource.Shared X → Nat ⊕ Option Y → LockedResource.Shared X → Prop
  | .block y body, s, r, s' =>
    s'.data = s.data ∧ (∀ k, k ≠ s.data → s'.heap k = s.heap k) ∧
      ∃ y', r = .inr (some y') ∧ (y', s'.heap s.data) = body.foldl (fun x f => f x.1 x.2) (y, s.heap s.data)
  | .swap ref, s, r, s' => r = .inl s.data ∧ s' = { s with data := ref }

namespace LockedResource

variable {X : Type u} {Y : Type v}

def acts : Call X Y → List (Regs Y → Shared X → Regs Y × Shared X)
  | .block y body => (fun _ s => (⟨s.data, some y⟩, s)) :: body.map bodyStep
  | .swap ref => [fun r s => ({ r with ref := s.data }, s), fun r s => (r, { s with data := ref })]

theorem runActs_body (body : List (Y → X → Y × X)) (y : Y) (k : Nat) (s : Shared X) :
    let x := runActs (body.map bodyStep) (⟨k, some y⟩, s)
    x.2.data = s.data ∧ (∀ j, j ≠ k → x.2.heap j = s.heap j) ∧ ∃ y', x.1.loc = some y' ∧
      (y', x.2.heap k) = body.foldl (fun x f => f x.1 x.2) (y, s.heap k) := by
  induction body generalizing y s with
  | nil => exact ⟨rfl, fun _ _ => rfl, y, rfl, rfl⟩
  | cons f body ih =>
    obtain ⟨h1, h2, y', h3, h4⟩ := ih (f y (s.heap k)).1
      { s with heap := fun j => if j = k then (f y (s.heap k)).2 else s.heap j }
    refine ⟨h1, fun j hj => ?_, y', h3, ?_⟩
    · rw [show (runActs ((f :: body).map bodyStep) (⟨k, some y⟩, s)).2.heap j = _ from h2 j hj]
      exact if_neg hj
    · rw [show (y', (runActs ((f :: body).map bodyStep) (⟨k, some y⟩, s)).2.heap k) = _ from h4]
      simp

theorem explained (s₀ : Shared X) (calls : Nat → List (Call X Y)) (sched : List Nat) :
    ∃ l b, Explained cls acts s₀ (Conc.run cls (Conc.start s₀ calls) sched) l b ∧ Legal resource s₀ (effects l) b := by
  obtain ⟨l, b, h⟩ := run_explained (o := cls) (acts := acts)
    (fun c => by cases c <;> simp [cls, code, acts, Function.comp_def]) s₀ calls sched
  refine ⟨l, b, h, Legal.mono ?_ h.legal⟩
  rintro c s r s' ⟨rfl, rfl⟩
  cases c with
  | swap ref => exact ⟨rfl, rfl⟩
  | block y body =>
    obtain ⟨h1, h2, y', h3, h4⟩ := runActs_body body y s.data s
    refine ⟨h1, h2, y', ?_, h4⟩
    show Sum.inr (runActs (body.map bodyStep) (⟨s.data, some y⟩, s)).1.loc = _
    rw [h3]

/-- A thread is inside its with-block: it has taken the lock and not released it. -/
def Inside (s : Conc (Call X Y) (Shared X) (Regs Y) (Nat ⊕ Option Y)) (t : Nat) : Prop :=
  ∃ c is r, (s.threads t).cur = some (c, is, r) ∧ .acquire ∉ is ∧ .release ∈ is

end LockedResource

/-- **C52** (exclusive). At no time are two threads inside. -/
theorem C52_exclusive {X : Type u} {Y : Type v} (s₀ : LockedResource.Shared X)
    (calls : Nat → List (LockedResource.Call X Y)) (sched : List Nat) (t u : Nat)
    (ht : LockedResource.Inside (Conc.run LockedResource.cls (Conc.start s₀ calls) sched) t)
    (hu : LockedResource.Inside (Conc.run LockedResource.cls (Conc.start s₀ calls) sched) u) : t = u := by
  obtain ⟨l, b, h, -⟩ := LockedResource.explained s₀ calls sched
  have key : ∀ t, LockedResource.Inside (Conc.run LockedResource.cls (Conc.start s₀ calls) sched) t →
      (Conc.run LockedResource.cls (Conc.start s₀ calls) sched).lock = some t := by
    rintro t ⟨c, is, r, h1, h2, h3⟩
    have ht := h.stage t
    rw [h1] at ht
    cases ht with
    | waiting => simp at h2
    | inside _ _ _ _ _ _ hk _ _ => exact hk
    | leaving => simp at h3
  have := (key t ht).symm.trans (key u hu)
  simpa using this

/-- **C52** (no lost updates). Every execution looks as if each with-block was done in one go on the object that is then
in the resource, and each `swap` too. When all threads are at rest the resource is what these blocks, one after the
other, made of it. -/
theorem C52_atomic {X : Type u} {Y : Type v} (s₀ : LockedResource.Shared X)
    (calls : Nat → List (LockedResource.Call X Y)) (sched : List Nat)
    (s : Conc (LockedResource.Call X Y) (LockedResource.Shared X) (LockedResource.Regs Y) (Nat ⊕ Option Y))
    (hs : Conc.run LockedResource.cls (Conc.start s₀ calls) sched = s) :
    Linearizable resource s₀ s.hist ∧ (s.Quiet → LinearizableTo resource s₀ s.hist s.shared ∧
      ∃ order, order.Perm (returned s.hist) ∧ Legal resource s₀ order s.shared) := by
  obtain ⟨l, b, h, hl⟩ := LockedResource.explained s₀ calls sched
  subst hs
  refine ⟨⟨b, l, h.vis, h.wellFormed, hl⟩, fun hq => ?_⟩
  obtain ⟨h3, h4⟩ := h.closed hq
  have hp := returned_perm h3
  rw [h.vis] at hp
  exact ⟨⟨l, h.vis, h.wellFormed, h4 ▸ hl⟩, effects l, hp.symm, h4 ▸ hl⟩

/-! ## Examples -/

namespace ThreadDemo

/-- Two threads that increment once each. -/
def calls (t : Nat) : List AtomicInt.Call := if t = 0 then [.increment 1] else if t = 1 then [.increment 10] else []

/-- Thread 0 is interrupted between its read and its write, and thread 1 has to wait. -/
def sched : List Nat := [0, 1, 0, 0, 0, 1, 1, 1, 0, 0, 0, 1, 1, 1, 1, 1, 1, 1, 0]

example : (Conc.run AtomicInt.cls (Conc.start 5 calls) sched).shared = 16 ∧
    (returned (Conc.run AtomicInt.cls (Conc.start 5 calls) sched).hist).map (fun x => (x.1, x.2.2)) =
      [(0, some 5), (1, some 6)] := by decide +kernel

/- The same without the lock would lose an update: then the theorems would be false. -/
def unlocked : SharedClass AtomicInt.Call Int AtomicInt.Regs (Option Int) where
  code c := (AtomicInt.code c).filter fun i => match i with
    | .act _ => true
    | _ => false
  start := {}
  result := AtomicInt.result

example : (Conc.run unlocked (Conc.start 5 calls) [0, 0, 0, 1, 1, 1, 1, 1, 0, 0]).shared = 6 := by decide +kernel

/- The hypotheses of the theorems can be met. -/
example : ∀ t c, c ∈ calls t → ∃ v, 0 < v ∧ c = .increment v := by
  intro t c hc
  unfold calls at hc
  split at hc
  · exact ⟨1, by decide, by simpa using hc⟩
  · split at hc
    · exact ⟨10, by decide, by simpa using hc⟩
    · simp at hc

example : (Conc.run AtomicInt.cls (Conc.start 5 calls) sched).Quiet := by
  intro t
  rcases t with _ | _ | t
  · decide +kernel
  · decide +kernel
  · have h : ∀ s : Conc AtomicInt.Call Int AtomicInt.Regs (Option Int), ∀ u, u ≠ t + 2 →
        (Conc.step AtomicInt.cls s u).threads (t + 2) = s.threads (t + 2) := by
      intro s u hu
      have : ∀ th, s.setThread u th (t + 2) = s.threads (t + 2) := fun th => by simp [Conc.setThread, Ne.symm hu]
      unfold Conc.step
      split
      · split
        · rfl
        · exact this _
      · exact this _
      · split
        · exact this _
        · rfl
      · exact this _
      · exact this _
    have h' : ∀ (l : List Nat) (s : Conc AtomicInt.Call Int AtomicInt.Regs (Option Int)), (∀ u ∈ l, u ≠ t + 2) →
        (Conc.run AtomicInt.cls s l).threads (t + 2) = s.threads (t + 2) := by
      intro l
      induction l with
      | nil => intros; rfl
      | cons u l ih =>
        intro s hl
        rw [Conc.run, List.foldl_cons]
        exact (ih _ fun v hv => hl v (by simp [hv])).trans (h s u (hl u (by simp)))
    rw [h' sched _ (by
      intro u hu
      have : u < 2 := by
        revert u
        decide
      omega)]
    rfl

/-- Two threads that take what a third one sets. -/
def boxCalls (t : Nat) : List (AtomicContainer.Call Nat) :=
  if t = 0 then [.set (some 7)] else if t = 1 ∨ t = 2 then [.take] else []

/- Both run at the same time; one gets it. -/
example : (returned (Conc.run AtomicContainer.cls (Conc.start none boxCalls)
    [0, 0, 0, 0, 0, 1, 2, 1, 2, 1, 1, 2, 1, 2, 2, 2, 2, 2, 2, 1, 1]).hist).map (fun x => (x.1, x.2.2)) =
      [(0, none), (2, none), (1, some 7)] := by decide +kernel

/-- Two threads that add to an object in two steps each. -/
def blockCalls (t : Nat) : List (LockedResource.Call Nat Nat) :=
  if t < 2 then [.block 0 [fun _ x => (x, x), fun y _ => (y, y + 1)]] else []

example : (Conc.run LockedResource.cls (Conc.start ⟨3, fun _ => 40⟩ blockCalls)
    [0, 1, 0, 1, 0, 1, 0, 1, 0, 1, 0, 1, 0, 1, 1, 1, 1, 1, 1]).shared.heap 3 = 42 := by decide +kernel

end ThreadDemo

end Verif
