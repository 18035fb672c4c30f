import Verif.Model.Threads
import Verif.Lemmas.List

/-!
# Methods that run under a lock are linearizable
-/

namespace Verif

open Spec

section

variable {C : Type w} {σ : Type u} {ρ : Type v} {R : Type x}

theorem visible_append (a b : List (LEvent C R)) : visible (a ++ b) = visible a ++ visible b := by
  induction a with
  | nil => rfl
  | cons e a ih => cases e <;> simp [visible, ih]

theorem effects_append (a b : List (LEvent C R)) : effects (a ++ b) = effects a ++ effects b := by
  induction a with
  | nil => rfl
  | cons e a ih => cases e <;> simp [effects, ih]

theorem ofThread_append (t : Nat) (a b : List (LEvent C R)) : ofThread t (a ++ b) = ofThread t a ++ ofThread t b := by
  simp [ofThread]

/-- The steps of a method between taking and releasing the lock, done in one go. -/
def runActs (acts : List (ρ → σ → ρ × σ)) (x : ρ × σ) : ρ × σ := acts.foldl (fun x f => f x.1 x.2) x

/-- The sequential object: a whole method at once. -/
def atOnce (o : SharedClass C σ ρ R) (acts : C → List (ρ → σ → ρ × σ)) (c : C) (s : σ) (r : R) (s' : σ) : Prop :=
  s' = (runActs (acts c) (o.start, s)).2 ∧ r = o.result c (runActs (acts c) (o.start, s)).1

/-- Where a thread is, in relation to the events of the thread; `b` is the state of the sequential object. -/
inductive Stage (o : SharedClass C σ ρ R) (acts : C → List (ρ → σ → ρ × σ)) (b : σ) (t : Nat) (shared : σ)
    (lock : Option Nat) (l : List (LEvent C R)) : Option (C × List (Instr σ ρ) × ρ) → Prop where
  | idle (calls : List (C × R)) (hl : l = calls.flatMap (complete t)) (hk : lock ≠ some t) :
      Stage o acts b t shared lock l none
  | waiting (calls : List (C × R)) (c : C) (hl : l = calls.flatMap (complete t) ++ [.inv t c]) (hk : lock ≠ some t) :
      Stage o acts b t shared lock l (some (c, .acquire :: ((acts c).map .act ++ [.release]), o.start))
  | inside (calls : List (C × R)) (c : C) (done rest : List (ρ → σ → ρ × σ)) (r : ρ)
      (hl : l = calls.flatMap (complete t) ++ [.inv t c]) (hk : lock = some t) (ha : acts c = done ++ rest)
      (hr : runActs done (o.start, b) = (r, shared)) :
      Stage o acts b t shared lock l (some (c, rest.map .act ++ [.release], r))
  | leaving (calls : List (C × R)) (c : C) (r : ρ)
      (hl : l = calls.flatMap (complete t) ++ [.inv t c, .lin t c (o.result c r)]) (hk : lock ≠ some t) :
      Stage o acts b t shared lock l (some (c, [], r))

theorem Stage.other {o : SharedClass C σ ρ R} {acts : C → List (ρ → σ → ρ × σ)} {b b' : σ} {t : Nat} {sh sh' : σ}
    {lock lock' : Option Nat} {l : List (LEvent C R)} {cur : Option (C × List (Instr σ ρ) × ρ)}
    (h : Stage o acts b t sh lock l cur) (h1 : lock ≠ some t) (h2 : lock' ≠ some t) :
    Stage o acts b' t sh' lock' l cur := by
  cases h with
  | idle calls hl _ => exact .idle calls hl h2
  | waiting calls c hl _ => exact .waiting calls c hl h2
  | inside calls c d r' r hl hk _ _ => exact absurd hk h1
  | leaving calls c r hl _ => exact .leaving calls c r hl h2

/-- The invariant of all executions. -/
structure Explained (o : SharedClass C σ ρ R) (acts : C → List (ρ → σ → ρ × σ)) (s₀ : σ) (s : Conc C σ ρ R)
    (l : List (LEvent C R)) (b : σ) : Prop where
  vis : visible l = s.hist
  legal : Legal (atOnce o acts) s₀ (effects l) b
  free : s.lock = none → s.shared = b
  stage : ∀ t, Stage o acts b t s.shared s.lock (ofThread t l) (s.threads t).cur

theorem step_explained {o : SharedClass C σ ρ R} {acts : C → List (ρ → σ → ρ × σ)}
    (hcode : ∀ c, o.code c = .acquire :: ((acts c).map .act ++ [.release])) {s₀ : σ} {s : Conc C σ ρ R}
    {l : List (LEvent C R)} {b : σ} (h : Explained o acts s₀ s l b) (t : Nat) :
    ∃ l' b', Explained o acts s₀ (s.step o t) l' b' := by
  have ht := h.stage t
  have hne : ∀ {e : LEvent C R} {u : Nat}, thread e = t → u ≠ t → ofThread u [e] = [] := by
    intro e u he hu
    simp only [ofThread, List.filter_cons, List.filter_nil, he]
    rw [if_neg (by simpa using fun h => hu h.symm)]
  have heq : ∀ {e : LEvent C R}, thread e = t → ofThread t [e] = [e] := by
    intro e he
    simp only [ofThread, List.filter_cons, List.filter_nil, he, beq_self_eq_true, if_true]
  have hset : ∀ th, s.setThread t th t = th := fun th => by simp [Conc.setThread]
  have hset' : ∀ th u, u ≠ t → s.setThread t th u = s.threads u := fun th u hu => by simp [Conc.setThread, hu]
  unfold Conc.step
  rcases hth : s.threads t with ⟨todo, cur⟩
  rw [hth] at ht
  simp only at ht
  cases ht with
  | idle calls hl hk =>
    cases todo with
    | nil => exact ⟨l, b, h⟩
    | cons c cs =>
      refine ⟨l ++ [.inv t c], b, ?_, ?_, h.free, ?_⟩
      · rw [visible_append, h.vis]; rfl
      · rw [effects_append]; simpa [effects] using h.legal
      · intro u
        by_cases hu : u = t
        · subst hu
          simp only [hset, hcode]
          exact .waiting calls c (by rw [ofThread_append, hl, heq rfl]) hk
        · simp only [hset' _ u hu]
          rw [ofThread_append, hne rfl hu, List.append_nil]
          exact h.stage u
  | waiting calls c hl hk =>
    cases hlock : s.lock with
    | some x => exact ⟨l, b, h⟩
    | none =>
      refine ⟨l, b, h.vis, h.legal, by simp, ?_⟩
      intro u
      by_cases hu : u = t
      · subst hu
        simp only [hset]
        exact .inside calls c [] (acts c) _ hl rfl rfl (by rw [h.free hlock]; rfl)
      · simp only [hset' _ u hu]
        exact (h.stage u).other (by rw [hlock]; simp) (by simpa using fun h => hu h.symm)
  | inside calls c done rest r hl hk ha hr =>
    cases rest with
    | nil =>
      -- the lock is released: the call takes effect
      have hr' : runActs (acts c) (o.start, b) = (r, s.shared) := by rw [ha, List.append_nil]; exact hr
      simp only [List.map_nil, List.nil_append]
      refine ⟨l ++ [.lin t c (o.result c r)], s.shared, ?_, ?_, fun _ => rfl, ?_⟩
      · rw [visible_append, h.vis]; simp [visible]
      · rw [effects_append]
        exact .snoc h.legal ⟨by rw [hr'], by rw [hr']⟩
      · intro u
        by_cases hu : u = t
        · subst hu
          simp only [hset]
          exact .leaving calls c r (by rw [ofThread_append, hl, heq rfl]; simp) (by simp)
        · simp only [hset' _ u hu]
          rw [ofThread_append, hne rfl hu, List.append_nil]
          exact (h.stage u).other (by rw [hk]; simpa using fun h => hu h.symm) (by simp)
    | cons f rest =>
      simp only [List.map_cons, List.cons_append]
      refine ⟨l, b, h.vis, h.legal, fun h' => by rw [hk] at h'; simp at h', ?_⟩
      intro u
      by_cases hu : u = t
      · subst hu
        simp only [hset]
        refine .inside calls c (done ++ [f]) rest _ hl hk (by rw [ha]; simp) ?_
        unfold runActs at hr ⊢
        rw [List.foldl_append, hr]
        rfl
      · simp only [hset' _ u hu]
        have hk' : s.lock ≠ some u := by rw [hk]; simpa using fun h => hu h.symm
        exact (h.stage u).other hk' hk'
  | leaving calls c r hl hk =>
    refine ⟨l ++ [.ret t c (o.result c r)], b, ?_, ?_, h.free, ?_⟩
    · rw [visible_append, h.vis]; rfl
    · rw [effects_append]; simpa [effects] using h.legal
    · intro u
      by_cases hu : u = t
      · subst hu
        simp only [hset]
        exact .idle (calls ++ [(c, o.result c r)]) (by rw [ofThread_append, hl, heq rfl]; simp [complete]) hk
      · simp only [hset' _ u hu]
        rw [ofThread_append, hne rfl hu, List.append_nil]
        exact h.stage u

/-- Every execution is explained. -/
theorem run_explained {o : SharedClass C σ ρ R} {acts : C → List (ρ → σ → ρ × σ)}
    (hcode : ∀ c, o.code c = .acquire :: ((acts c).map .act ++ [.release])) (s₀ : σ) (calls : Nat → List C)
    (sched : List Nat) : ∃ l b, Explained o acts s₀ (Conc.run o (Conc.start s₀ calls) sched) l b := by
  induction sched using snocInduction with
  | nil => exact ⟨[], s₀, rfl, .nil _, fun _ => rfl, fun t => .idle [] rfl (by simp [Conc.run, Conc.start])⟩
  | snoc sched t ih =>
    obtain ⟨l, b, h⟩ := ih
    rw [Conc.run, List.foldl_append]
    exact step_explained hcode h t

theorem Explained.wellFormed {o : SharedClass C σ ρ R} {acts : C → List (ρ → σ → ρ × σ)} {s₀ : σ} {s : Conc C σ ρ R}
    {l : List (LEvent C R)} {b : σ} (h : Explained o acts s₀ s l b) : WellFormed l := by
  intro t
  have ht := h.stage t
  generalize (s.threads t).cur = cur at ht
  cases ht with
  | idle calls hl _ => exact ⟨calls, [], by rw [hl]; simp, .none⟩
  | waiting calls c hl _ => exact ⟨calls, _, hl, .before c⟩
  | inside calls c _ _ _ hl _ _ _ => exact ⟨calls, _, hl, .before c⟩
  | leaving calls c r hl _ => exact ⟨calls, _, hl, .after c _⟩

theorem invoked_append (a b : List (HEvent C R)) : invoked (a ++ b) = invoked a ++ invoked b := by
  induction a with
  | nil => rfl
  | cons e a ih => cases e <;> simp [invoked, ih]

/-- The calls of a thread, in order: those it has made, and those it will make. -/
theorem run_calls (o : SharedClass C σ ρ R) (s₀ : σ) (calls : Nat → List C) (sched : List Nat) (t : Nat) :
    ((invoked (Conc.run o (Conc.start s₀ calls) sched).hist).filter (fun x => x.1 == t)).map (fun x => x.2) ++
      ((Conc.run o (Conc.start s₀ calls) sched).threads t).todo = calls t := by
  induction sched using snocInduction with
  | nil => rfl
  | snoc sched u ih =>
    rw [Conc.run, List.foldl_append]
    change ((invoked (Conc.step o (Conc.run o (Conc.start s₀ calls) sched) u).hist).filter _).map _ ++
      ((Conc.step o (Conc.run o (Conc.start s₀ calls) sched) u).threads t).todo = calls t
    generalize Conc.run o (Conc.start s₀ calls) sched = s at ih
    have hset : ∀ th, s.setThread u th t = if t = u then th else s.threads t := fun th => rfl
    unfold Conc.step
    split
    · split
      · exact ih
      · rename_i c cs htodo
        simp only [invoked_append, List.filter_append, List.map_append]
        rw [hset]
        by_cases h : t = u
        · subst h
          rw [htodo] at ih
          simp only [if_true]
          rw [← ih]
          simp [invoked]
        · rw [if_neg h, ← ih]
          simp [invoked, Ne.symm h]
    · simp only [invoked_append, List.filter_append, List.map_append, hset]
      rw [← ih]
      split
      · rename_i h; subst h; simp [invoked]
      · simp [invoked]
    · split
      · simp only [hset]
        rw [← ih]
        split
        · rename_i h; subst h; rfl
        · rfl
      · exact ih
    · simp only [hset]
      rw [← ih]
      split
      · rename_i h; subst h; rfl
      · rfl
    · simp only [hset]
      rw [← ih]
      split
      · rename_i h; subst h; rfl
      · rfl

theorem run_invoked {o : SharedClass C σ ρ R} {s₀ : σ} {calls : Nat → List C} {sched : List Nat} {x : Nat × C}
    (h : x ∈ invoked (Conc.run o (Conc.start s₀ calls) sched).hist) : x.2 ∈ calls x.1 := by
  rw [← run_calls o s₀ calls sched x.1]
  refine List.mem_append_left _ (List.mem_map.mpr ⟨x, ?_, rfl⟩)
  simp [h]

/-! ## Order -/

theorem visible_split {l : List (LEvent C R)} {x y : List (HEvent C R)} (h : visible l = x ++ y) :
    ∃ a b, l = a ++ b ∧ visible a = x ∧ visible b = y := by
  induction l generalizing x with
  | nil =>
    have := h.symm
    simp only [visible, List.append_eq_nil_iff] at this
    exact ⟨[], [], rfl, this.1.symm, this.2.symm⟩
  | cons e l ih =>
    cases x with
    | nil => exact ⟨[], e :: l, rfl, rfl, h⟩
    | cons v x =>
      cases e with
      | lin t c r =>
        obtain ⟨a, b, h1, h2, h3⟩ := ih (x := v :: x) h
        exact ⟨.lin t c r :: a, b, by rw [h1]; rfl, h2, h3⟩
      | inv t c =>
        simp only [visible, List.cons_append, List.cons.injEq] at h
        obtain ⟨a, b, h1, h2, h3⟩ := ih h.2
        exact ⟨.inv t c :: a, b, by rw [h1]; rfl, by rw [visible, h.1, h2], h3⟩
      | ret t c r =>
        simp only [visible, List.cons_append, List.cons.injEq] at h
        obtain ⟨a, b, h1, h2, h3⟩ := ih h.2
        exact ⟨.ret t c r :: a, b, by rw [h1]; rfl, by rw [visible, h.1, h2], h3⟩

theorem visible_split_cons {l : List (LEvent C R)} {x y : List (HEvent C R)} {v : HEvent C R}
    (h : visible l = x ++ v :: y) : ∃ a e b, l = a ++ e :: b ∧ visible a = x ∧ visible [e] = [v] ∧ visible b = y := by
  obtain ⟨a, b, h1, h2, h3⟩ := visible_split h
  subst h1
  clear h
  induction b generalizing a with
  | nil => simp [visible] at h3
  | cons e b ih =>
    cases e with
    | lin t c r =>
      obtain ⟨a', e', b', h4⟩ := ih (a ++ [.lin t c r]) (by rw [visible_append, h2]; simp [visible]) h3
      exact ⟨a', e', b', by rw [← h4.1]; simp, h4.2⟩
    | inv t c =>
      simp only [visible, List.cons.injEq] at h3
      exact ⟨a, .inv t c, b, rfl, h2, by rw [← h3.1]; rfl, h3.2⟩
    | ret t c r =>
      simp only [visible, List.cons.injEq] at h3
      exact ⟨a, .ret t c r, b, rfl, h2, by rw [← h3.1]; rfl, h3.2⟩

theorem visible_inv {e : LEvent C R} {t : Nat} {c : C} (h : visible [e] = [.inv t c]) : e = .inv t c := by
  cases e <;> simp_all [visible]

theorem visible_ret {e : LEvent C R} {t : Nat} {c : C} {r : R} (h : visible [e] = [.ret t c r]) : e = .ret t c r := by
  cases e <;> simp_all [visible]

/-- The events of a thread before a return end with the call and its effect. -/
theorem before_ret {t : Nat} {c : C} {r : R} {calls : List (C × R)} {tail x y : List (LEvent C R)} (ho : Open t tail)
    (h : calls.flatMap (complete t) ++ tail = x ++ .ret t c r :: y) : ∃ x', x = x' ++ [.inv t c, .lin t c r] := by
  induction calls generalizing x with
  | nil =>
    simp only [List.flatMap_nil, List.nil_append] at h
    have hm : LEvent.ret t c r ∈ tail := by rw [h]; simp
    cases ho <;> simp at hm
  | cons p calls ih =>
    obtain ⟨c', r'⟩ := p
    simp only [List.flatMap_cons, complete, List.cons_append, List.nil_append] at h
    match x, h with
    | [], h => simp at h
    | [_], h => simp at h
    | [_, _], h =>
      simp only [List.cons_append, List.nil_append, List.cons.injEq, LEvent.ret.injEq, true_and] at h
      obtain ⟨h1, h2, ⟨h3, h4⟩, _⟩ := h
      subst h1 h2 h3 h4
      exact ⟨[], rfl⟩
    | e₁ :: e₂ :: e₃ :: x, h =>
      simp only [List.cons_append, List.cons.injEq] at h
      obtain ⟨x', h'⟩ := ih h.2.2.2
      exact ⟨e₁ :: e₂ :: e₃ :: x', by rw [h']; rfl⟩

/-- The events of a thread before an effect end with the call. -/
theorem before_lin {t : Nat} {c : C} {r : R} {calls : List (C × R)} {tail x y : List (LEvent C R)} (ho : Open t tail)
    (h : calls.flatMap (complete t) ++ tail = x ++ .lin t c r :: y) : ∃ x', x = x' ++ [.inv t c] := by
  induction calls generalizing x with
  | nil =>
    simp only [List.flatMap_nil, List.nil_append] at h
    cases ho with
    | none => simp at h
    | before c' =>
      match x, h with
      | [], h => simp at h
      | [_], h => simp at h
      | _ :: _ :: _, h => simp at h
    | after c' r' =>
      match x, h with
      | [], h => simp at h
      | [_], h =>
        simp only [List.cons_append, List.nil_append, List.cons.injEq, LEvent.lin.injEq, true_and] at h
        obtain ⟨h1, ⟨h2, _⟩, _⟩ := h
        subst h1 h2
        exact ⟨[], rfl⟩
      | [_, _], h => simp at h
      | _ :: _ :: _ :: _, h => simp at h
  | cons p calls ih =>
    obtain ⟨c', r'⟩ := p
    simp only [List.flatMap_cons, complete, List.cons_append, List.nil_append] at h
    match x, h with
    | [], h => simp at h
    | [_], h =>
      simp only [List.cons_append, List.nil_append, List.cons.injEq, LEvent.lin.injEq, true_and] at h
      obtain ⟨h1, ⟨h3, _⟩, _⟩ := h
      subst h1 h3
      exact ⟨[], rfl⟩
    | [_, _], h => simp at h
    | e₁ :: e₂ :: e₃ :: x, h =>
      simp only [List.cons_append, List.cons.injEq] at h
      obtain ⟨x', h'⟩ := ih h.2.2.2
      exact ⟨e₁ :: e₂ :: e₃ :: x', by rw [h']; rfl⟩

theorem ofThread_cons_self {t : Nat} {e : LEvent C R} (h : thread e = t) (l : List (LEvent C R)) :
    ofThread t (e :: l) = e :: ofThread t l := by
  simp [ofThread, h]

theorem mem_effects {l : List (LEvent C R)} {t : Nat} {c : C} {r : R} :
    (t, c, r) ∈ effects l ↔ .lin t c r ∈ l := by
  induction l with
  | nil => simp [effects]
  | cons e l ih => cases e <;> simp [effects, ih]

theorem mem_visible_inv {l : List (LEvent C R)} {t : Nat} {c : C} : .inv t c ∈ visible l ↔ .inv t c ∈ l := by
  induction l with
  | nil => simp [visible]
  | cons e l ih => cases e <;> simp [visible, ih]

theorem mem_visible_ret {l : List (LEvent C R)} {t : Nat} {c : C} {r : R} : .ret t c r ∈ visible l ↔ .ret t c r ∈ l := by
  induction l with
  | nil => simp [visible]
  | cons e l ih => cases e <;> simp [visible, ih]

/-- What has returned in a prefix has had its effect there. -/
theorem Spec.WellFormed.ret_effect {a b : List (LEvent C R)} (h : WellFormed (a ++ b)) {t : Nat} {c : C} {r : R}
    (hr : .ret t c r ∈ a) : (t, c, r) ∈ effects a := by
  obtain ⟨a₁, a₂, rfl⟩ := List.append_of_mem hr
  obtain ⟨calls, tail, h1, h2⟩ := h t
  rw [List.append_assoc, ofThread_append, List.cons_append, ofThread_cons_self (t := t) (by rfl)] at h1
  obtain ⟨x', hx⟩ := before_ret h2 h1.symm
  have : LEvent.lin t c r ∈ ofThread t a₁ := by rw [hx]; simp
  exact mem_effects.mpr (List.mem_append_left _ (List.mem_filter.mp this).1)

/-- What has had its effect in a prefix was called there. -/
theorem Spec.WellFormed.effect_inv {a b : List (LEvent C R)} (h : WellFormed (a ++ b)) {t : Nat} {c : C} {r : R}
    (hr : (t, c, r) ∈ effects a) : .inv t c ∈ a := by
  obtain ⟨a₁, a₂, rfl⟩ := List.append_of_mem (mem_effects.mp hr)
  obtain ⟨calls, tail, h1, h2⟩ := h t
  rw [List.append_assoc, ofThread_append, List.cons_append, ofThread_cons_self (t := t) (by rfl)] at h1
  obtain ⟨x', hx⟩ := before_lin h2 h1.symm
  have : LEvent.inv t c ∈ ofThread t a₁ := by rw [hx]; simp
  exact List.mem_append_left _ (List.mem_filter.mp this).1

/-- A call that returned had its effect in between: after all calls that had returned when it was made, and before none
that was made after it returned. -/
theorem call_effect {l : List (LEvent C R)} (h : WellFormed l) {h₁ y z : List (HEvent C R)} {t : Nat} {c : C} {r : R}
    (hv : visible l = h₁ ++ .inv t c :: (y ++ .ret t c r :: z)) (hy : ∀ e ∈ y, actor e ≠ t) :
    ∃ a b, effects l = a ++ (t, c, r) :: b ∧ (∀ u c' r', .ret u c' r' ∈ h₁ → (u, c', r') ∈ a) ∧
      ∀ u c' r', (u, c', r') ∈ a → .inv u c' ∈ h₁ ++ y ∨ (u = t ∧ c' = c) := by
  obtain ⟨a, e, m, rfl, ha, he, hm⟩ := visible_split_cons hv
  have he := visible_inv he
  subst he
  obtain ⟨y', e, z', rfl, hy', he, -⟩ := visible_split_cons hm
  have he := visible_ret he
  subst he
  -- the thread's events between call and return: only its effect
  obtain ⟨calls, tail, h1, h2⟩ := h t
  have h3 : ofThread t (a ++ .inv t c :: (y' ++ .ret t c r :: z'))
      = (ofThread t a ++ .inv t c :: ofThread t y') ++ .ret t c r :: ofThread t z' := by
    rw [ofThread_append, ofThread_cons_self (t := t) (by rfl), ofThread_append, ofThread_cons_self (t := t) (by rfl)]
    simp
  rw [h3] at h1
  obtain ⟨x', hx⟩ := before_ret h2 h1.symm
  have hlins : ∀ e ∈ ofThread t y', ∃ c' r', e = .lin t c' r' := by
    intro e hmem
    obtain ⟨hm1, hm2⟩ := List.mem_filter.mp hmem
    cases e with
    | inv u c' =>
      exfalso
      exact hy _ (by rw [← hy']; exact mem_visible_inv.mpr hm1) (by simpa [thread, actor] using hm2)
    | ret u c' r' =>
      exfalso
      exact hy _ (by rw [← hy']; exact mem_visible_ret.mpr hm1) (by simpa [thread, actor] using hm2)
    | lin u c' r' =>
      have : u = t := by simpa [thread] using hm2
      subst this
      exact ⟨c', r', rfl⟩
  have hlin : LEvent.lin t c r ∈ y' := by
    have hlast : (ofThread t a ++ LEvent.inv t c :: ofThread t y').getLast? = some (.lin t c r) := by rw [hx]; simp
    rw [List.getLast?_append, List.getLast?_cons] at hlast
    simp only [Option.some_or, Option.some.injEq] at hlast
    cases hl : (ofThread t y').getLast? with
    | none => rw [hl] at hlast; simp at hlast
    | some e =>
      rw [hl] at hlast
      simp only [Option.getD_some] at hlast
      subst hlast
      exact (List.mem_filter.mp (List.mem_of_getLast? hl)).1
  obtain ⟨y₁, y₂, rfl⟩ := List.append_of_mem hlin
  refine ⟨effects (a ++ .inv t c :: y₁), effects (y₂ ++ .ret t c r :: z'), ?_, ?_, ?_⟩
  · rw [show a ++ .inv t c :: ((y₁ ++ .lin t c r :: y₂) ++ .ret t c r :: z')
      = (a ++ .inv t c :: y₁) ++ ([.lin t c r] ++ (y₂ ++ .ret t c r :: z')) by simp, effects_append, effects_append]
    rfl
  · intro u c' r' hr
    rw [← ha] at hr
    have := WellFormed.ret_effect h (mem_visible_ret.mp hr)
    rw [effects_append]
    exact List.mem_append_left _ this
  · intro u c' r' hmem
    have h4 : WellFormed ((a ++ .inv t c :: y₁) ++ (.lin t c r :: (y₂ ++ .ret t c r :: z'))) := by
      simpa using h
    have := WellFormed.effect_inv h4 hmem
    simp only [List.mem_append, List.mem_cons] at this
    rcases this with h5 | h5 | h5
    · exact Or.inl (List.mem_append_left _ (by rw [← ha]; exact mem_visible_inv.mpr h5))
    · simp only [LEvent.inv.injEq] at h5
      exact Or.inr h5
    · refine Or.inl (List.mem_append_right _ ?_)
      rw [← hy']
      exact mem_visible_inv.mpr (by simp [h5])

end

end Verif
