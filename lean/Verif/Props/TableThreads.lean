import Verif.Model.TableThreads
import Verif.Props.Threads
import Verif.Props.Sampling
import Verif.Lemmas.Twin

/-!
# A memory table shared by threads (C122)

The theorems are about every number of threads, every list of calls each of them makes, and every schedule.
-/

namespace Verif

namespace Shared

open Spec

/-! ## Programs under a lock -/

section

variable {C : Type w} {σ : Type u} {R : Type v} {α : Type x} {β : Type y}

/-- A program without interruption. -/
def Prog.run : Prog σ α → σ → σ × α
  | .ret a, s => (s, a)
  | .act f k, s => (k s).run (f s)

def Prog.map (g : α → β) : Prog σ α → Prog σ β
  | .ret a => .ret (g a)
  | .act f k => .act f fun s => (k s).map g

theorem Prog.run_map (g : α → β) (p : Prog σ α) (s : σ) : (p.map g).run s = ((p.run s).1, g (p.run s).2) := by
  induction p generalizing s with
  | ret a => rfl
  | act f k ih => exact ih s (f s)

/-- The part of a call after the lock is taken. -/
def guarded (p : Prog σ R) : Code σ R := p.embed fun r => .release (.ret r)

theorem locked_eq (p : Prog σ α) (post : α → R) : locked p post = .acquire (guarded (p.map post)) := by
  unfold locked guarded
  congr 1
  induction p with
  | ret a => rfl
  | act f k ih =>
    simp only [Prog.embed, Prog.map, Code.act.injEq, true_and]
    funext s
    exact ih s

/-- The sequential object: a whole call at once. -/
def atOnce (body : C → Prog σ R) (c : C) (s : σ) (r : R) (s' : σ) : Prop := (body c).run s = (s', r)

/-- Where a thread is, in relation to the events of the thread; `b` is the state of the sequential object. -/
inductive Stage (body : C → Prog σ R) (b : σ) (t : Nat) (shared : σ) (lock : Option Nat) (l : List (LEvent C R)) :
    Option (C × Code σ R) → Prop where
  | idle (calls : List (C × R)) (hl : l = calls.flatMap (complete t)) (hk : lock ≠ some t) :
      Stage body b t shared lock l none
  | waiting (calls : List (C × R)) (c : C) (hl : l = calls.flatMap (complete t) ++ [.inv t c]) (hk : lock ≠ some t) :
      Stage body b t shared lock l (some (c, .acquire (guarded (body c))))
  | inside (calls : List (C × R)) (c : C) (p : Prog σ R) (hl : l = calls.flatMap (complete t) ++ [.inv t c])
      (hk : lock = some t) (hr : p.run shared = (body c).run b) :
      Stage body b t shared lock l (some (c, guarded p))
  | leaving (calls : List (C × R)) (c : C) (r : R) (hl : l = calls.flatMap (complete t) ++ [.inv t c, .lin t c r])
      (hk : lock ≠ some t) : Stage body b t shared lock l (some (c, .ret r))

theorem Stage.other {body : C → Prog σ R} {b b' : σ} {t : Nat} {sh sh' : σ} {lock lock' : Option Nat}
    {l : List (LEvent C R)} {cur : Option (C × Code σ R)} (h : Stage body b t sh lock l cur) (h1 : lock ≠ some t)
    (h2 : lock' ≠ some t) : Stage body b' t sh' lock' l cur := by
  cases h with
  | idle calls hl _ => exact .idle calls hl h2
  | waiting calls c hl _ => exact .waiting calls c hl h2
  | inside calls c p hl hk _ => exact absurd hk h1
  | leaving calls c r hl _ => exact .leaving calls c r hl h2

/-- The invariant of all executions. -/
structure Explained (body : C → Prog σ R) (s₀ : σ) (s : World C σ R) (l : List (LEvent C R)) (b : σ) : Prop where
  vis : visible l = s.hist
  legal : Legal (atOnce body) s₀ (effects l) b
  free : s.lock = none → s.shared = b
  stage : ∀ t, Stage body b t s.shared s.lock (ofThread t l) (s.threads t).cur

theorem step_explained {code : C → Code σ R} {body : C → Prog σ R}
    (hcode : ∀ c, code c = .acquire (guarded (body c))) {s₀ : σ} {s : World C σ R} {l : List (LEvent C R)} {b : σ}
    (h : Explained body s₀ s l b) (t : Nat) : ∃ l' b', Explained body s₀ (s.step code t) l' b' := by
  have ht := h.stage t
  have hne : ∀ {e : LEvent C R} {u : Nat}, thread e = t → u ≠ t → ofThread u [e] = [] := by
    intro e u he hu
    simp only [ofThread, List.filter_cons, List.filter_nil, he]
    rw [if_neg (by simpa using fun h => hu h.symm)]
  have heq : ∀ {e : LEvent C R}, thread e = t → ofThread t [e] = [e] := by
    intro e he
    simp only [ofThread, List.filter_cons, List.filter_nil, he, beq_self_eq_true, if_true]
  have hset : ∀ th, s.setThread t th t = th := fun th => by simp [World.setThread]
  have hset' : ∀ th u, u ≠ t → s.setThread t th u = s.threads u := fun th u hu => by simp [World.setThread, hu]
  unfold World.step
  rcases hth : s.threads t with ⟨todo, cur⟩
  rw [hth] at ht
  simp only at ht
  cases ht with
  | idle calls hl hk =>
    cases todo with
    | nil => exact ⟨l, b, h⟩
    | cons c cs =>
      refine ⟨l ++ [.inv t c], b, ?_, ?_, h.free, ?_⟩
      · rw [visible_append, h.vis]; rfl
      · rw [effects_append]; simpa [effects] using h.legal
      · intro u
        by_cases hu : u = t
        · subst hu
          simp only [hset, hcode]
          exact .waiting calls c (by rw [ofThread_append, hl, heq rfl]) hk
        · simp only [hset' _ u hu]
          rw [ofThread_append, hne rfl hu, List.append_nil]
          exact h.stage u
  | waiting calls c hl hk =>
    cases hlock : s.lock with
    | some x => exact ⟨l, b, h⟩
    | none =>
      refine ⟨l, b, h.vis, h.legal, by simp, ?_⟩
      intro u
      by_cases hu : u = t
      · subst hu
        simp only [hset]
        exact .inside calls c (body c) hl rfl (by rw [h.free hlock])
      · simp only [hset' _ u hu]
        exact (h.stage u).other (by rw [hlock]; simp) (by simpa using fun h => hu h.symm)
  | inside calls c p hl hk hr =>
    cases p with
    | ret r =>
      -- the lock is released: the call takes effect
      simp only [guarded, Prog.embed]
      refine ⟨l ++ [.lin t c r], s.shared, ?_, ?_, fun _ => rfl, ?_⟩
      · rw [visible_append, h.vis]; simp [visible]
      · rw [effects_append]
        exact .snoc h.legal hr.symm
      · intro u
        by_cases hu : u = t
        · subst hu
          simp only [hset]
          exact .leaving calls c r (by rw [ofThread_append, hl, heq rfl]; simp) (by simp)
        · simp only [hset' _ u hu]
          rw [ofThread_append, hne rfl hu, List.append_nil]
          exact (h.stage u).other (by rw [hk]; simpa using fun h => hu h.symm) (by simp)
    | act f k =>
      simp only [guarded, Prog.embed]
      refine ⟨l, b, h.vis, h.legal, fun h' => by rw [hk] at h'; simp at h', ?_⟩
      intro u
      by_cases hu : u = t
      · subst hu
        simp only [hset]
        exact .inside calls c (k s.shared) hl hk hr
      · simp only [hset' _ u hu]
        have hk' : s.lock ≠ some u := by rw [hk]; simpa using fun h => hu h.symm
        exact (h.stage u).other hk' hk'
  | leaving calls c r hl hk =>
    refine ⟨l ++ [.ret t c r], b, ?_, ?_, h.free, ?_⟩
    · rw [visible_append, h.vis]; rfl
    · rw [effects_append]; simpa [effects] using h.legal
    · intro u
      by_cases hu : u = t
      · subst hu
        simp only [hset]
        exact .idle (calls ++ [(c, r)]) (by rw [ofThread_append, hl, heq rfl]; simp [complete]) hk
      · simp only [hset' _ u hu]
        rw [ofThread_append, hne rfl hu, List.append_nil]
        exact h.stage u

theorem run_append (code : C → Code σ R) (s : World C σ R) (a b : List Nat) :
    s.run code (a ++ b) = (s.run code a).run code b := List.foldl_append ..

/-- Every execution is explained. -/
theorem run_explained {code : C → Code σ R} {body : C → Prog σ R}
    (hcode : ∀ c, code c = .acquire (guarded (body c))) (s₀ : σ) (calls : Nat → List C) (sched : List Nat) :
    ∃ l b, Explained body s₀ ((World.start s₀ calls).run code sched) l b := by
  induction sched using snocInduction with
  | nil => exact ⟨[], s₀, rfl, .nil _, fun _ => rfl, fun t => .idle [] rfl (by simp [World.run, World.start])⟩
  | snoc sched t ih =>
    obtain ⟨l, b, h⟩ := ih
    rw [run_append]
    exact step_explained hcode h t

theorem Explained.wellFormed {body : C → Prog σ R} {s₀ : σ} {s : World C σ R} {l : List (LEvent C R)} {b : σ}
    (h : Explained body s₀ s l b) : WellFormed l := by
  intro t
  have ht := h.stage t
  generalize (s.threads t).cur = cur at ht
  cases ht with
  | idle calls hl _ => exact ⟨calls, [], by rw [hl]; simp, .none⟩
  | waiting calls c hl _ => exact ⟨calls, _, hl, .before c⟩
  | inside calls c _ hl _ _ => exact ⟨calls, _, hl, .before c⟩
  | leaving calls c r hl _ => exact ⟨calls, _, hl, .after c _⟩

/-! ### Progress -/

/-- A thread that has the lock can finish its call. -/
theorem finish_inside (code : C → Code σ R) (t : Nat) (c : C) (p : Prog σ R) (s : World C σ R)
    (hc : (s.threads t).cur = some (c, guarded p)) :
    ∃ sched, (s.run code sched).lock = none ∧ (s.run code sched).threads t = ⟨(s.threads t).todo, none⟩ ∧
      ∀ u, u ≠ t → (s.run code sched).threads u = s.threads u := by
  induction p generalizing s with
  | ret r =>
    refine ⟨[t, t], ?_⟩
    have h1 : s.step code t = { s with lock := none, threads := s.setThread t ⟨(s.threads t).todo, some (c, .ret r)⟩ } := by
      unfold World.step; rw [hc]; rfl
    have h2 : (s.run code [t, t]) = (s.step code t).step code t := rfl
    rw [h2, h1]
    unfold World.step
    simp only [World.setThread, if_true]
    refine ⟨trivial, by simp, fun u hu => by simp [hu]⟩
  | act f k ih =>
    have h1 : s.step code t = { s with shared := f s.shared, threads := s.setThread t ⟨(s.threads t).todo, some (c, guarded (k s.shared))⟩ } := by
      unfold World.step; rw [hc]; rfl
    obtain ⟨sched, h2, h3, h4⟩ := ih s.shared (s.step code t) (by rw [h1]; simp [World.setThread])
    refine ⟨t :: sched, h2, ?_, fun u hu => ?_⟩
    · have : s.run code (t :: sched) = (s.step code t).run code sched := rfl
      rw [this, h3, h1]; simp [World.setThread]
    · have : s.run code (t :: sched) = (s.step code t).run code sched := rfl
      rw [this, h4 u hu, h1]; simp [World.setThread, hu]

/-- If the lock is free, a thread that is in no call can make all its calls. -/
theorem finish_idle {code : C → Code σ R} {body : C → Prog σ R} (hcode : ∀ c, code c = .acquire (guarded (body c)))
    (t : Nat) (todo : List C) (s : World C σ R) (hl : s.lock = none) (hc : s.threads t = ⟨todo, none⟩) :
    ∃ sched, (s.run code sched).lock = none ∧ (s.run code sched).threads t = ⟨[], none⟩ := by
  induction todo generalizing s with
  | nil => exact ⟨[], hl, hc⟩
  | cons c cs ih =>
    have h1 : s.step code t = { s with threads := s.setThread t ⟨cs, some (c, code c)⟩, hist := s.hist ++ [.inv t c] } := by
      unfold World.step; rw [hc]
    have h2 : (s.step code t).step code t =
        ⟨s.shared, some t, s.setThread t ⟨cs, some (c, guarded (body c))⟩, s.hist ++ [.inv t c]⟩ := by
      rw [h1]
      unfold World.step
      simp only [World.setThread, if_true, hcode, hl]
      congr 1
      funext u
      simp only [World.setThread]
      split <;> rfl
    obtain ⟨sched, h3, h4, -⟩ := finish_inside code t c (body c) ((s.step code t).step code t)
      (by rw [h2]; simp [World.setThread])
    have h5 : (((s.step code t).step code t).threads t).todo = cs := by rw [h2]; simp [World.setThread]
    rw [h5] at h4
    obtain ⟨sched', h6, h7⟩ := ih (((s.step code t).step code t).run code sched) h3 h4
    refine ⟨t :: t :: (sched ++ sched'), ?_, ?_⟩
    · change (((s.step code t).step code t).run code (sched ++ sched')).lock = none
      rw [run_append]; exact h6
    · change (((s.step code t).step code t).run code (sched ++ sched')).threads t = _
      rw [run_append]; exact h7

/-- Whatever has happened, a thread can make all its calls. -/
theorem can_finish {code : C → Code σ R} {body : C → Prog σ R} (hcode : ∀ c, code c = .acquire (guarded (body c)))
    {s₀ : σ} {s : World C σ R} {l : List (LEvent C R)} {b : σ} (h : Explained body s₀ s l b) (t : Nat) :
    ∃ sched, (s.run code sched).threads t = ⟨[], none⟩ := by
  -- first the holder of the lock finishes its call
  have hfree : ∃ sched, (s.run code sched).lock = none := by
    cases hl : s.lock with
    | none => exact ⟨[], hl⟩
    | some u =>
      have hu := h.stage u
      generalize hcur : (s.threads u).cur = cur at hu
      cases hu with
      | idle calls _ hk => exact absurd hl hk
      | waiting calls c _ hk => exact absurd hl hk
      | inside calls c p _ _ _ =>
        obtain ⟨sched, h1, -⟩ := finish_inside code u c p s hcur
        exact ⟨sched, h1⟩
      | leaving calls c r _ hk => exact absurd hl hk
  obtain ⟨sched, hs⟩ := hfree
  have hE : ∃ l b, Explained body s₀ (s.run code sched) l b := by
    clear hs
    induction sched using snocInduction with
    | nil => exact ⟨l, b, h⟩
    | snoc sched u ih =>
      obtain ⟨l', b', h'⟩ := ih
      rw [run_append]
      exact step_explained hcode h' u
  obtain ⟨l', b', h'⟩ := hE
  have ht := h'.stage t
  generalize hs' : s.run code sched = s' at h' hs ht
  rcases hth : s'.threads t with ⟨todo, cur⟩
  rw [hth] at ht
  simp only at ht
  have hrun : ∀ x, s.run code (sched ++ x) = s'.run code x := fun x => by rw [run_append, hs']
  cases ht with
  | idle calls _ _ =>
    obtain ⟨x, -, hx⟩ := finish_idle hcode t todo s' hs hth
    exact ⟨sched ++ x, by rw [hrun]; exact hx⟩
  | waiting calls c _ _ =>
    have h1 : s'.step code t = { s' with lock := some t, threads := s'.setThread t ⟨todo, some (c, guarded (body c))⟩ } := by
      unfold World.step; rw [hth]; simp only [hs]
    obtain ⟨x, h2, h3, -⟩ := finish_inside code t c (body c) (s'.step code t) (by rw [h1]; simp [World.setThread])
    have h5 : ((s'.step code t).threads t).todo = todo := by rw [h1]; simp [World.setThread]
    rw [h5] at h3
    obtain ⟨y, -, hy⟩ := finish_idle hcode t todo ((s'.step code t).run code x) h2 h3
    refine ⟨sched ++ (t :: (x ++ y)), ?_⟩
    rw [hrun]
    change ((s'.step code t).run code (x ++ y)).threads t = _
    rw [run_append]
    exact hy
  | inside calls c p _ hk _ => rw [hs] at hk; simp at hk
  | leaving calls c r _ _ =>
    have h1 : s'.step code t = { s' with threads := s'.setThread t ⟨todo, none⟩, hist := s'.hist ++ [.ret t c r] } := by
      unfold World.step; rw [hth]
    obtain ⟨y, -, hy⟩ := finish_idle hcode t todo (s'.step code t) (by rw [h1]; exact hs) (by rw [h1]; simp [World.setThread])
    exact ⟨sched ++ (t :: y), by rw [hrun]; exact hy⟩

/-- The calls a thread has made, and those it will make. -/
theorem run_calls (code : C → Code σ R) (s₀ : σ) (calls : Nat → List C) (sched : List Nat) (t : Nat) :
    ((invoked ((World.start s₀ calls).run code sched).hist).filter (fun x => x.1 == t)).map (fun x => x.2) ++
      (((World.start s₀ calls).run code sched).threads t).todo = calls t := by
  induction sched using snocInduction with
  | nil => rfl
  | snoc sched u ih =>
    rw [run_append]
    generalize (World.start s₀ calls).run code sched = s at ih
    change ((invoked (s.step code u).hist).filter _).map _ ++ ((s.step code u).threads t).todo = calls t
    have hset : ∀ th, s.setThread u th t = if t = u then th else s.threads t := fun th => rfl
    unfold World.step
    split
    · split
      · exact ih
      · rename_i c cs htodo
        simp only [invoked_append, List.filter_append, List.map_append]
        rw [hset]
        by_cases h : t = u
        · subst h
          rw [htodo] at ih
          simp only [if_true]
          rw [← ih]
          simp [invoked]
        · rw [if_neg h, ← ih]
          simp [invoked, Ne.symm h]
    · simp only [invoked_append, List.filter_append, List.map_append, hset]
      rw [← ih]
      split
      · rename_i h; subst h; simp [invoked]
      · simp [invoked]
    · split
      · simp only [hset]
        rw [← ih]
        split
        · rename_i h; subst h; rfl
        · rfl
      · exact ih
    · simp only [hset]
      rw [← ih]
      split
      · rename_i h; subst h; rfl
      · rfl
    · simp only [hset]
      rw [← ih]
      split
      · rename_i h; subst h; rfl
      · rfl

end

/-! ## The methods of the table, without interruption -/

section

variable {σ : Type u} {α : Type v} {β : Type w}

theorem run_andThen (p : Body σ α) (g : α → Body σ β) (s : σ) :
    Prog.run (Body.andThen p g) s = Res.andThen (Prog.run p s) fun s a => Prog.run (g a) s := by
  induction p generalizing s with
  | ret a => cases a <;> rfl
  | act f k ih => exact ih s (f s)

@[simp] theorem run_read (f : σ → α) (s : σ) : Prog.run (Body.read f) s = (s, .ok (f s)) := rfl
@[simp] theorem run_write (f : σ → σ) (s : σ) : Prog.run (Body.write f) s = (f s, .ok ()) := rfl
@[simp] theorem run_call (f : σ → Res σ α) (s : σ) : Prog.run (Body.call f) s = f s := rfl
@[simp] theorem run_pure (a : α) (s : σ) : Prog.run (Body.pure a : Body σ α) s = (s, .ok a) := rfl
@[simp] theorem run_raise (e : Err) (s : σ) : Prog.run (Body.raise e : Body σ α) s = (s, .error e) := rfl

theorem run_forEach (xs : List α) (b : α → Body σ Unit) (s : σ) :
    Prog.run (Body.forEach xs b) s = Res.forEach xs (fun x s => Prog.run (b x) s) s := by
  induction xs generalizing s with
  | nil => rfl
  | cons x xs ih =>
    rw [Body.forEach, run_andThen, Res.forEach]
    congr 1
    funext s _
    exact ih s

end

namespace TableCode

variable {V : Type u}

theorem delAll_cons (id : Int) (x : String × Store V) (rest : Dict String (Store V)) :
    Table.delAll id (x :: rest) = match (delOne id x).2 with
      | .error e => ((delOne id x).1 :: rest, .error e)
      | .ok _ => ((delOne id x).1 :: (Table.delAll id rest).1, (Table.delAll id rest).2) := by
  obtain ⟨name, s⟩ := x
  cases s with
  | virt k tgt => rfl
  | plain d =>
    simp only [Table.delAll, delOne]
    cases d.del? id <;> rfl
  | tag d =>
    simp only [Table.delAll, delOne]
    cases d.del? id <;> rfl

theorem run_delAt (id : Int) (rest pre : Dict String (Store V)) (t : Table V) (hd : t.data = pre ++ rest) :
    Res.forEach (List.range' pre.length rest.length) (fun i s => Prog.run (delAt id i) s) t =
      ({ t with data := pre ++ (Table.delAll id rest).1 }, (Table.delAll id rest).2) := by
  induction rest generalizing pre t with
  | nil =>
    rw [List.append_nil] at hd
    simp only [List.length_nil, List.range'_zero, Res.forEach, Table.delAll, List.append_nil, ← hd]
  | cons x rest ih =>
    have hx : t.data[pre.length]? = some x := by rw [hd]; simp
    have hset : List.set t.data pre.length (delOne id x).1 = pre ++ (delOne id x).1 :: rest := by
      rw [hd]; simp
    rw [List.length_cons, List.range'_succ, Res.forEach, delAll_cons]
    simp only [delAt, run_call, hx, hset]
    cases h : (delOne id x).2 with
    | error e => rfl
    | ok _ =>
      rw [Res.andThen_ok]
      have := ih (pre ++ [(delOne id x).1]) { t with data := pre ++ (delOne id x).1 :: rest } (by simp)
      rw [List.length_append, List.length_singleton] at this
      simp only [delAt, run_call] at this
      rw [this]
      simp

theorem run_ejectOne (id : Int) (t : Table V) : Prog.run (ejectOne id) t = Table.ejectOne id t := by
  unfold ejectOne Table.ejectOne
  simp only [run_andThen, run_read, Res.andThen_ok, run_forEach]
  have := run_delAt id t.data [] t rfl
  rw [List.length_nil, ← List.range_eq_range'] at this
  rw [this]
  cases h : Table.delAll id t.data with
  | mk d x =>
    cases x with
    | error e => rfl
    | ok _ =>
      simp only [List.nil_append, Res.andThen_ok, Res.lift, run_call]
      cases t.lengths.get? id with
      | none => rfl
      | some len => rfl

theorem run_ejectCount (draws : List Nat) (count : Int) (t : Table V) :
    Prog.run (ejectCount draws count) t = Table.ejectCount draws count t := by
  unfold ejectCount Table.ejectCount
  simp only [run_andThen, run_write, run_call, run_forEach, Res.andThen_ok, run_ejectOne]

theorem run_addInternal (draws : List Nat) (id : Int) (seq : Seqn V) (t : Table V) :
    Prog.run (addInternal draws id seq) t = Table.addSequence draws id seq t := by
  unfold addInternal Table.addSequence
  simp only [run_andThen, run_read, Res.andThen_ok]
  cases seq.get? t.lengthKey with
  | none => rfl
  | some rows =>
    simp only [run_andThen, run_read, Res.andThen_ok, run_forEach, run_call, run_write]
    have : Prog.run (if t.total + (rows.length : Int) > t.maxlen then ejectCount draws (t.total + rows.length - t.maxlen)
        else Body.pure ()) t = if t.total + (rows.length : Int) > t.maxlen then
          Table.ejectCount draws (t.total + rows.length - t.maxlen) t else (t, .ok ()) := by
      split
      · exact run_ejectCount _ _ _
      · rfl
    rw [this]

theorem run_gather (count n : Nat) (pts : List SamplePoint) (junk : String → Nat → Cell V)
    (rest pre : Dict String (Store V)) (t : Table V) (hd : t.data = pre ++ rest) :
    Prog.run (gather count n pts junk (List.range' pre.length rest.length)) t = Table.gather count n pts junk rest t := by
  induction rest generalizing pre t with
  | nil => rfl
  | cons x rest ih =>
    obtain ⟨name, s⟩ := x
    have hx : t.data[pre.length]? = some (name, s) := by rw [hd]; simp
    rw [List.length_cons, List.range'_succ, gather, run_andThen, gatherAt, run_call, Table.gather]
    simp only [hx]
    generalize Table.gatherStore t.data s (Table.localLen s n) pts 0
      ((Table.workspace (t.temp.get? name) (count * Table.localLen s n) (junk name)).take (count * Table.localLen s n)) = g
    obtain ⟨g1, g2⟩ := g
    cases g2 with
    | error e => rfl
    | ok _ =>
      simp only [Except.map, Res.andThen_ok, run_andThen]
      have := ih (pre ++ [(name, s)]) { t with temp := t.temp.set name (g1 ++
        (Table.workspace (t.temp.get? name) (count * Table.localLen s n) (junk name)).drop (count * Table.localLen s n)) }
        (by simp [hd])
      rw [List.length_append, List.length_singleton] at this
      rw [this]
      rfl

theorem run_sample (count n : Nat) (c r : Nat → Nat) (junk : String → Nat → Cell V) (t : Table V) :
    Prog.run (sample count n c r junk) t = Table.sample count n c r junk t := by
  unfold sample Table.sample
  simp only [run_andThen, run_call, run_read]
  congr 1
  funext t pts
  rw [Res.andThen_ok, List.range_eq_range']
  exact run_gather count n pts junk t.data [] t rfl

theorem run_resize (n : Int) (t : Table V) : Prog.run (resize n) t = Table.resize t n := by
  unfold resize Table.resize
  simp only [run_andThen, run_read, Res.andThen_ok]
  split <;> rfl

theorem run_clear (t : Table V) : Prog.run clear t = Table.clear t := by
  unfold clear Table.clear
  simp only [run_andThen, run_write, Res.andThen_ok, run_call]
  cases Table.buildStores t.columns [] <;> rfl

theorem run_copies (rest pre : Dict String (Store V)) (t : Table V) (hd : t.data = pre ++ rest) :
    Prog.run (copies (List.range' pre.length rest.length)) t = (t, .ok rest) := by
  induction rest generalizing pre with
  | nil => rfl
  | cons x rest ih =>
    have hx : t.data[pre.length]? = some x := by rw [hd]; simp
    rw [List.length_cons, List.range'_succ, copies, run_andThen, run_read]
    simp only [hx, Res.andThen_ok, run_andThen]
    have := ih (pre ++ [x]) (by simp [hd])
    rw [List.length_append, List.length_singleton] at this
    rw [this]
    rfl

theorem run_serialize (t : Table V) : Prog.run serialize t = (t, Table.serialize t) := by
  unfold serialize Table.serialize
  simp only [run_andThen, run_read, Res.andThen_ok]
  have := run_copies t.data [] t rfl
  rw [List.length_nil, ← List.range_eq_range'] at this
  rw [this, Res.andThen_ok]
  cases Table.collect t.data with
  | error e => rfl
  | ok x => rfl

theorem run_importOne (a : Archive V) (draws : List Nat) (id : Int) (t : Table V) :
    Prog.run (importOne a draws id) t = Table.importOne a draws id t := by
  unfold importOne Table.importOne
  cases Table.reassemble a.rows id a.ranges with
  | error e => rfl
  | ok seq => exact run_addInternal draws id seq t

theorem run_deserialize (a : Archive V) (draws : List Nat) (t : Table V) :
    Prog.run (deserialize a draws) t = Table.deserialize a draws t := by
  unfold deserialize Table.deserialize
  simp only [run_andThen, run_clear, run_write, run_forEach, Res.andThen_ok, run_importOne]

/-- What a call does between taking and releasing the lock, and its answer. -/
def body (as : List (Adaptor V)) : Call V → Prog (Table V) (Answer V)
  | .add id seq draws => (addInternal draws id seq).map .done
  | .sample count n c r junk => (sample count n c r junk).map fun x => .batch (finish as n x)
  | .size => .act id fun t => .ret (.number t.total)
  | .full => .act id fun t => .ret (.flag t.filled)
  | .resize n => (resize n).map .done
  | .clear => clear.map .done
  | .store => serialize.map .archive
  | .restore a draws => (deserialize a draws).map .done

theorem code_eq (as : List (Adaptor V)) (c : Call V) : code as c = .acquire (guarded (body as c)) := by
  cases c <;> exact locked_eq _ _

end TableCode

open TableCode

variable {V : Type u}

/-! ## C122 -/

/-- A table that is used by one thread: what a call answers and what it makes of the table. -/
def Spec.table (as : List (Adaptor V)) : Call V → Table V → Answer V → Table V → Prop
  | .add id seq draws, t, r, t' => ∃ x, Table.addSequence draws id seq t = (t', x) ∧ r = .done x
  | .sample count n c d junk, t, r, t' => ∃ x, Table.sampleAdapted as count n c d junk t = (t', x) ∧ r = .batch x
  | .size, t, r, t' => r = .number t.size ∧ t' = t
  | .full, t, r, t' => r = .flag t.full ∧ t' = t
  | .resize n, t, r, t' => ∃ x, Table.resize t n = (t', x) ∧ r = .done x
  | .clear, t, r, t' => ∃ x, Table.clear t = (t', x) ∧ r = .done x
  | .store, t, r, t' => r = .archive (Table.serialize t) ∧ t' = t
  | .restore a draws, t, r, t' => ∃ x, Table.deserialize a draws t = (t', x) ∧ r = .done x

theorem table_of_body {as : List (Adaptor V)} {c : Call V} {t t' : Table V} {r : Answer V}
    (h : atOnce (body as) c t r t') : Spec.table as c t r t' := by
  unfold atOnce at h
  cases c with
  | add id seq draws =>
    simp only [body, Prog.run_map, run_addInternal, Prod.mk.injEq] at h
    exact ⟨_, Prod.ext h.1 rfl, h.2.symm⟩
  | sample count n c d junk =>
    simp only [body, Prog.run_map, run_sample, Prod.mk.injEq] at h
    obtain ⟨rfl, rfl⟩ := h
    refine ⟨_, ?_, rfl⟩
    unfold Table.sampleAdapted finish
    cases Table.sample count n c d junk t with
    | mk t1 x => cases x <;> rfl
  | size => simp only [body, Prog.run, Prod.mk.injEq] at h; exact ⟨h.2.symm, h.1.symm⟩
  | full => simp only [body, Prog.run, Prod.mk.injEq] at h; exact ⟨h.2.symm, h.1.symm⟩
  | resize n =>
    simp only [body, Prog.run_map, run_resize, Prod.mk.injEq] at h
    exact ⟨_, Prod.ext h.1 rfl, h.2.symm⟩
  | clear =>
    simp only [body, Prog.run_map, run_clear, Prod.mk.injEq] at h
    exact ⟨_, Prod.ext h.1 rfl, h.2.symm⟩
  | store =>
    simp only [body, Prog.run_map, run_serialize, Prod.mk.injEq] at h
    exact ⟨h.2.symm, h.1.symm⟩
  | restore a draws =>
    simp only [body, Prog.run_map, run_deserialize, Prod.mk.injEq] at h
    exact ⟨_, Prod.ext h.1 rfl, h.2.symm⟩

/-- All executions: threads that make any calls, with any schedule. -/
def execution (as : List (Adaptor V)) (t0 : Table V) (calls : Nat → List (Call V)) (sched : List Nat) :
    World (Call V) (Table V) (Answer V) := (World.start t0 calls).run (code as) sched

/-- **C122** (one at a time). Whatever the threads do, and however they are interleaved: there is an order of the calls, in
which each comes after all calls that had returned when it was made, such that every answer is that of a table used by
one thread. -/
theorem C122_one_at_a_time (as : List (Adaptor V)) (t0 : Table V) (calls : Nat → List (Call V)) (sched : List Nat) :
    Linearizable (Spec.table as) t0 (execution as t0 calls sched).hist := by
  obtain ⟨l, b, h⟩ := run_explained (code_eq as) t0 calls sched
  exact ⟨b, l, h.vis, h.wellFormed, Legal.mono (fun _ _ _ _ => table_of_body) h.legal⟩

/-- **C122** (no deadlock). Whatever has happened, every thread can still make all its calls and get the answers. -/
theorem C122_no_deadlock (as : List (Adaptor V)) (t0 : Table V) (calls : Nat → List (Call V)) (sched : List Nat) (t : Nat) :
    ∃ more, let e := execution as t0 calls (sched ++ more);
      ((invoked e.hist).filter (fun x => x.1 == t)).map (fun x => x.2) = calls t ∧ (e.threads t).cur = none := by
  obtain ⟨l, b, h⟩ := run_explained (code_eq as) t0 calls sched
  obtain ⟨more, hm⟩ := can_finish (code_eq as) h t
  refine ⟨more, ?_, ?_⟩
  · have := run_calls (code as) t0 calls (sched ++ more) t
    rw [run_append, hm, List.append_nil, ← run_append] at this
    exact this
  · unfold execution
    rw [run_append, hm]

/-! ### What the threads rely on -/

/-- The identity of an add. -/
def Spec.addedId : Call V → Option Int
  | .add id _ _ => some id
  | _ => none

/-- An ordinary client: adds complete episodes of at least `k` and at most `maxlen` transitions, samples windows of at most
`k` transitions, asks for the size, asks whether the memory is full, and exports. -/
def Spec.Ordinary (columns : List Column) (lk : String) (maxlen : Int) (k : Nat) (t0 : Table V) : Call V → Prop
  | .add id seq _ => SeqOk t0 seq ∧ 0 ≤ id ∧ id < 2^63 ∧ k ≤ (rowsOf seq lk).length ∧
      ((rowsOf seq lk).length : Int) ≤ maxlen ∧ lk ∈ seq.keys ∧
      EpisodeOk columns (entryOf id (rowsOf seq lk).length seq)
  | .sample _ n _ _ _ => 0 < n ∧ n ≤ k
  | .size | .full | .store => True
  | _ => False

/-- What such a client may expect of an answer, if `made` are the calls made so far: adds succeed; the size is within the
capacity; a batch consists of windows of episodes that were added. -/
def Spec.Expected (columns : List Column) (lk : String) (maxlen : Int) (made : Call V → Prop) : Call V → Answer V → Prop
  | .add _ _ _, r => r = .done (.ok ())
  | .size, r => ∃ n, r = .number n ∧ 0 ≤ n ∧ n ≤ maxlen
  | .sample count n _ _ _, r => ∀ b, r = .batch (.ok b) → ∃ ws : List (Entry V × Nat), ws.length = count ∧
      (∀ w ∈ ws, w.2 + n ≤ w.1.len ∧
        ∃ id seq draws, made (.add id seq draws) ∧ w.1 = entryOf id (rowsOf seq lk).length seq) ∧
      ∀ name kind, (name, kind) ∈ Dict.ofPairs (columns.map fun c => (c.name, c.kind)) →
        b.get? name = some (.col (ws.flatMap fun w => windowOf name kind w.1 w.2 n))
  | _, _ => True

theorem expected_mono {columns : List Column} {lk : String} {maxlen : Int} {P Q : Call V → Prop} (h : ∀ c, P c → Q c)
    {c : Call V} {r : Answer V} (he : Spec.Expected columns lk maxlen P c r) : Spec.Expected columns lk maxlen Q c r := by
  cases c with
  | sample count n c d junk =>
    intro b hb
    obtain ⟨ws, h1, h2, h3⟩ := he b hb
    refine ⟨ws, h1, fun w hw => ?_, h3⟩
    obtain ⟨h4, id, seq, draws, h5, h6⟩ := h2 w hw
    exact ⟨h4, id, seq, draws, h _ h5, h6⟩
  | _ => exact he

theorem wrapId_nonneg {id : Int} (h : 0 ≤ id) : Table.wrapId id = id := by
  unfold Table.wrapId
  rw [if_neg (by omega)]

theorem get?_cols (d : Dict String (List (Cell V))) (name : String) :
    Dict.get? (d.map fun p => (p.1, Out.col p.2)) name = (d.get? name).map Out.col := by
  induction d with
  | nil => rfl
  | cons p d ih =>
    obtain ⟨a, b⟩ := p
    rw [List.map_cons]
    simp only [Dict.get?]
    by_cases h : a = name
    · rw [if_pos h, if_pos h]; rfl
    · rw [if_neg h, if_neg h]; exact ih

/-- What a list of calls of ordinary clients, one after the other, does. -/
theorem legal_run {columns : List Column} {maxlen : Int} {lk : String} {k : Nat} {t0 t : Table V}
    (hc : Created columns maxlen lk t0) {f : Fifo} (hf : t0.ejector = .fifo f) (hw : WellTargeted columns)
    {l : List (Nat × Call V × Answer V)} (hl : Legal (Spec.table []) t0 l t)
    (ho : ∀ x ∈ l, Spec.Ordinary columns lk maxlen k t0 x.2.1)
    (hid : (l.filterMap fun x => Spec.addedId x.2.1).Nodup) :
    (∃ ops, Run t0 ops t ∧ t.maxlen = maxlen ∧ ∀ e ∈ added (acts lk ops), ∃ x ∈ l, ∃ id seq draws,
      x.2.1 = .add id seq draws ∧ e = entryOf id (rowsOf seq lk).length seq) ∧
    ∀ x ∈ l, Spec.Expected columns lk maxlen (fun c => ∃ y ∈ l, y.2.1 = c) x.2.1 x.2.2 := by
  induction hl with
  | nil =>
    obtain ⟨q, hq⟩ := run_hist hc (Run.nil (t0 := t0))
    refine ⟨⟨[], Run.nil, hq.maxlen, by simp [acts, added]⟩, by simp⟩
  | @snoc t t' l u c r hprev hs ih =>
    obtain ⟨⟨ops, hrun, hmax, hadd⟩, hexp⟩ := ih (fun x hx => ho x (by simp [hx]))
      (by rw [List.filterMap_append] at hid; exact (List.nodup_append.1 hid).1)
    have hoc := ho (u, c, r) (by simp)
    obtain ⟨q, hq⟩ := run_hist hc hrun
    obtain ⟨q0, hq0⟩ := run_hist hc (Run.nil (t0 := t0))
    have hmono : ∀ x ∈ l, Spec.Expected columns lk maxlen (fun c' => ∃ y ∈ l ++ [(u, c, r)], y.2.1 = c') x.2.1 x.2.2 :=
      fun x hx => expected_mono (fun c ⟨y, hy, he⟩ => ⟨y, by simp [hy], he⟩) (hexp x hx)
    have hadd' : ∀ e ∈ added (acts lk ops), ∃ x ∈ l ++ [(u, c, r)], ∃ id seq draws,
        x.2.1 = .add id seq draws ∧ e = entryOf id (rowsOf seq lk).length seq := by
      intro e he
      obtain ⟨x, hx, h⟩ := hadd e he
      exact ⟨x, by simp [hx], h⟩
    -- it is enough to look at the last call
    suffices hlast : (∃ ops, Run t0 ops t' ∧ t'.maxlen = maxlen ∧ ∀ e ∈ added (acts lk ops), ∃ x ∈ l ++ [(u, c, r)],
        ∃ id seq draws, x.2.1 = .add id seq draws ∧ e = entryOf id (rowsOf seq lk).length seq) ∧
        Spec.Expected columns lk maxlen (fun c' => ∃ y ∈ l ++ [(u, c, r)], y.2.1 = c') c r by
      refine ⟨hlast.1, fun x hx => ?_⟩
      rcases List.mem_append.1 hx with hx | hx
      · exact hmono x hx
      · rw [List.mem_singleton] at hx
        subst hx
        exact hlast.2
    cases c with
    | add id seq draws =>
      obtain ⟨x, hx, rfl⟩ := hs
      obtain ⟨o1, o2, o3, o4, o5, o6, o7⟩ := hoc
      have hcols : t.columns = t0.columns := by rw [hq.columns, hq0.columns]
      have hok : SeqOk t seq := ⟨o1.names, by rw [hcols]; exact o1.known, by rw [hcols]; exact o1.complete⟩
      have hfresh : Table.wrapId id ∉ t.lengths.keys := by
        rw [wrapId_nonneg o2, hq.inv.lengths, keys_lensOf]
        intro hm
        obtain ⟨e, he, hee⟩ := List.mem_map.1 hm
        obtain ⟨y, hy, id', seq', draws', h1, h2⟩ := hadd e (hq.sub.subset he)
        have : id' = id := by rw [← hee, h2]; rfl
        subst this
        rw [List.filterMap_append, List.nodup_append] at hid
        exact hid.2.2 id' (List.mem_filterMap.2 ⟨y, hy, by rw [h1]; rfl⟩) id' (by simp [Spec.addedId]) rfl
      obtain ⟨rows, hrows⟩ := Dict.get?_isSome_of_mem o6
      have hro : rowsOf seq lk = rows := by simp [rowsOf, hrows]
      obtain ⟨t1, ht1⟩ := Props.C02_add_succeeds hc hf hrun draws id seq hok hfresh hrows (by rw [hmax, ← hro]; exact o5)
      rw [ht1] at hx
      obtain ⟨rfl, rfl⟩ := Prod.mk.inj hx
      have hrun' := Run.add hrun hok hfresh ht1
      refine ⟨⟨_, hrun', ?_, ?_⟩, rfl⟩
      · obtain ⟨q', hq'⟩ := run_hist hc hrun'
        have h := hq'.maxlen
        rw [acts_append, toAct_add, queueAfter_add] at h
        rw [h, ← hq.maxlen, hmax]
      · intro e he
        rw [acts, List.filterMap_append, added, List.filterMap_append] at he
        rcases List.mem_append.1 he with he | he
        · exact hadd' e he
        · simp only [List.filterMap_cons, Op.toAct, List.filterMap_nil, List.mem_singleton, wrapId_nonneg o2] at he
          exact ⟨_, List.mem_append_right _ (List.mem_singleton.2 rfl), id, seq, draws, rfl, he⟩
    | sample count n c d junk =>
      obtain ⟨x, hx, rfl⟩ := hs
      obtain ⟨o1, o2⟩ := hoc
      have hkept : ∀ e ∈ added (acts lk ops), 0 ≤ e.id ∧ e.id < 2^63 ∧ k ≤ e.len ∧ EpisodeOk columns e := by
        intro e he
        obtain ⟨x, hx, id, seq, draws, h1, h2⟩ := hadd e he
        have := ho x (by simp [hx])
        rw [h1] at this
        subst h2
        exact ⟨this.2.1, this.2.2.1, this.2.2.2.1, this.2.2.2.2.2.2⟩
      cases hsm : Table.sample count n c d junk t with
      | mk t1 y =>
        unfold Table.sampleAdapted at hx
        rw [hsm] at hx
        have hno := sample_no_overflow hq.inv (fun e he => by
          obtain ⟨h1, h2, -⟩ := hkept e (hq.sub.subset he)
          unfold fitsInt64
          rw [Bool.and_eq_true, decide_eq_true_eq, decide_eq_true_eq]
          exact ⟨by omega, h2⟩) count n c d junk
        rw [hsm] at hno
        have hrun' := Run.sample hrun hsm hno
        have ht : t1 = t' := by
          cases y with
          | error e => exact (Prod.mk.inj hx).1
          | ok out => exact (Prod.mk.inj hx).1
        subst ht
        have hacts : acts lk (ops ++ [Op.sample count n c d junk]) = acts lk ops := by
          rw [acts, List.filterMap_append]; simp [Op.toAct, acts]
        refine ⟨⟨_, hrun', ?_, ?_⟩, ?_⟩
        · obtain ⟨q', hq'⟩ := run_hist hc hrun'
          rw [hq'.maxlen, hacts, ← hq.maxlen, hmax]
        · rw [hacts]; exact hadd'
        · intro b hb
          cases y with
          | error e => have := (Prod.mk.inj hx).2; rw [← this] at hb; cases hb
          | ok out =>
            have h := (Prod.mk.inj hx).2
            rw [← h] at hb
            have hb : out.map (fun p => (p.1, Out.col p.2)) = b := by
              have := Answer.batch.inj hb
              exact Except.ok.inj this
            obtain ⟨ws, h1, h2, -, h3⟩ := Props.C09_windows_are_genuine hc hrun hw (fun e he => (hkept e he).2.2.2) o1
              (fun p hp => by
                rw [hq.inv.lengths] at hp
                obtain ⟨e, he, rfl⟩ := List.mem_map.1 hp
                exact Nat.le_trans o2 (hkept e (hq.sub.subset he)).2.2.1) hsm
            refine ⟨ws, h1, fun w hw' => ⟨(h2 w hw').2.2, ?_⟩, fun name kind hk => ?_⟩
            · obtain ⟨x, hx, id, seq, draws, h4, h5⟩ := hadd' w.1 (h2 w hw').1
              exact ⟨id, seq, draws, ⟨x, hx, h4⟩, h5⟩
            · rw [← hb, get?_cols, h3 name kind (by rw [hq.columns]; exact hk)]
              rfl
    | size =>
      obtain ⟨rfl, rfl⟩ := hs
      refine ⟨⟨ops, hrun, hmax, hadd'⟩, _, rfl, ?_⟩
      obtain ⟨h1, h2, -⟩ := Props.C01_size_le_capacity hc hrun
      exact ⟨h1, hmax ▸ h2⟩
    | full => obtain ⟨rfl, rfl⟩ := hs; exact ⟨⟨ops, hrun, hmax, hadd'⟩, trivial⟩
    | store => obtain ⟨rfl, rfl⟩ := hs; exact ⟨⟨ops, hrun, hmax, hadd'⟩, trivial⟩
    | resize n => exact absurd hoc id
    | clear => exact absurd hoc id
    | restore a draws => exact absurd hoc id

/-- **C122** (what every thread relies on). The table is new, ejects the oldest episodes and is used by ordinary clients,
and no two adds that are made use the same identity. However the threads are interleaved: every add that returned
succeeded; every size that was returned is within the capacity; every batch that was returned consists of windows of
episodes whose add has been called. -/
theorem C122_memory {columns : List Column} {maxlen : Int} {lk : String} {k : Nat} {t0 : Table V}
    (hc : Created columns maxlen lk t0) {f : Fifo} (hf : t0.ejector = .fifo f) (hw : WellTargeted columns)
    (calls : Nat → List (Call V)) (sched : List Nat)
    (ho : ∀ u, ∀ c ∈ calls u, Spec.Ordinary columns lk maxlen k t0 c)
    (hid : ((invoked (execution [] t0 calls sched).hist).filterMap fun x => Spec.addedId x.2).Nodup) :
    ∀ x ∈ returned (execution [] t0 calls sched).hist,
      Spec.Expected columns lk maxlen (fun c => ∃ u, (u, c) ∈ invoked (execution [] t0 calls sched).hist) x.2.1 x.2.2 := by
  obtain ⟨b, l, hv, hwf, hl⟩ := C122_one_at_a_time [] t0 calls sched
  have hinv := effects_invoked hwf
  rw [hv] at hinv
  have hret := returned_subperm hwf
  rw [hv] at hret
  have hmem : ∀ x ∈ effects l, (x.1, x.2.1) ∈ invoked (execution [] t0 calls sched).hist := fun x hx =>
    hinv.subset (List.mem_map.2 ⟨x, hx, rfl⟩)
  have hord : ∀ x ∈ effects l, Spec.Ordinary columns lk maxlen k t0 x.2.1 := by
    intro x hx
    apply ho x.1
    have h := run_calls (code []) t0 calls sched x.1
    rw [← h]
    apply List.mem_append_left
    exact List.mem_map.2 ⟨(x.1, x.2.1), List.mem_filter.2 ⟨hmem x hx, by simp⟩, rfl⟩
  have hnd : ((effects l).filterMap fun x => Spec.addedId x.2.1).Nodup := by
    obtain ⟨m, hm, hsub⟩ := hinv
    have h := (hm.filterMap fun x => Spec.addedId x.2).nodup_iff.1 (hid.sublist (hsub.filterMap _))
    rw [List.filterMap_map] at h
    exact h
  have h := (legal_run hc hf hw hl hord hnd).2
  intro x hx
  refine expected_mono ?_ (h x (hret.subset hx))
  rintro c ⟨y, hy, rfl⟩
  exact ⟨y.1, hmem y hy⟩

/-! ### A concrete case -/

namespace ExT

open Props (Ex.cols Ex.ep Ex.t0 Ex.created)

/-- One thread collects, another trains and watches the size. -/
def calls : Nat → List (Call Nat)
  | 0 => [.add 7 (Ex.ep [10, 11] [1, 2, 3] 0) [], .add 8 (Ex.ep [20, 21, 22] [4, 5, 6, 7] 1) [],
      .add 9 (Ex.ep [30, 31] [8, 9, 10] 1) []]
  | 1 => [.size, .sample 2 2 (fun _ => 0) (fun _ => 0) (fun _ _ => .bit false), .size, .size, .size]
  | _ => []

/-- In turns, then each alone. -/
def sched : List Nat := (List.range 60).map (· % 2) ++ List.replicate 200 0 ++ List.replicate 60 1

/-- The numbers and the actions that were returned, and to whom. -/
def seen (w : World (Call Nat) (Table Nat) (Answer Nat)) : List (Nat × Option Int × List (Cell Nat)) :=
  (returned w.hist).map fun x => (x.1, match x.2.2 with
    | .number n => (some n, [])
    | .batch (.ok b) => (none, match b.get? "actions" with | some (.col c) => c | _ => [])
    | _ => (none, []))

/-- The table without the lock around `size`. -/
def unlocked : Call Nat → Code (Table Nat) (Answer Nat)
  | .size => .act id fun t => .ret (.number t.total)
  | c => code [] c

/-- Reading the size in the middle of the third add. -/
def midAdd : List Nat := List.replicate 50 0 ++ List.replicate 4 1

theorem targeted : WellTargeted Ex.cols := by
  intro c hc k tgt hk
  simp only [Ex.cols, List.mem_cons, List.not_mem_nil, or_false] at hc
  rcases hc with rfl | rfl | rfl | rfl | rfl <;> cases hk <;> rfl

theorem ordinary : ∀ u, ∀ c ∈ calls u, Spec.Ordinary Ex.cols "actions" 5 2 Ex.t0 c := by
  intro u c hc
  have hcase : u = 0 ∨ u = 1 ∨ (u ≠ 0 ∧ u ≠ 1) := by omega
  rcases hcase with rfl | rfl | ⟨h0, h1⟩
  · simp only [calls, List.mem_cons, List.not_mem_nil, or_false] at hc
    rcases hc with rfl | rfl | rfl <;>
      exact ⟨⟨by decide +kernel, by decide +kernel, by decide +kernel⟩, by decide, by decide, by decide +kernel,
        by decide +kernel, by decide +kernel, by
          intro c hc
          simp only [Ex.cols, List.mem_cons, List.not_mem_nil, or_false] at hc
          rcases hc with rfl | rfl | rfl | rfl | rfl <;> simp only [] <;> decide +kernel⟩
  · simp only [calls, List.mem_cons, List.not_mem_nil, or_false] at hc
    rcases hc with rfl | rfl | rfl | rfl | rfl
    · exact trivial
    · exact ⟨by decide, by decide⟩
    · exact trivial
    · exact trivial
    · exact trivial
  · match u, h0, h1, hc with
    | 0, h0, _, _ => exact absurd rfl h0
    | 1, _, h1, _ => exact absurd rfl h1
    | u + 2, _, _, hc => cases hc

end ExT

open ExT in
/-- The sizes are 2 and 5; the batch has the two transitions of the first episode, twice. -/
example : seen (execution [] Props.Ex.t0 calls sched) =
    [(0, none, []), (1, some 2, []), (0, none, []), (1, none, [.row 10, .row 11, .row 10, .row 11]), (1, some 5, []),
      (1, some 5, []), (1, some 5, [])] := by decide +kernel

open ExT in
example := C122_memory (k := 2) Props.Ex.created (f := {}) rfl targeted calls sched ordinary (by decide +kernel)

open ExT in
/-- Without the lock a reader would see a size that the memory never has between two calls; with the lock it waits. -/
example : seen ((World.start Props.Ex.t0 calls).run unlocked midAdd) = [(0, none, []), (0, none, []), (1, some 3, [])] ∧
    seen (execution [] Props.Ex.t0 calls midAdd) = [(0, none, []), (0, none, [])] := by decide +kernel

end Shared

end Verif
