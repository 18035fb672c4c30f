import Verif.Spec.Trainer
import Verif.Lemmas.Dict
import Verif.Lemmas.Proxy

/-!
# The events of a training run
-/

namespace Verif

open Spec

variable {W : Type u} {V : Type v}

/-! ## Watching a trainer -/

/-- The same callback, leaving a record of its calls. -/
def Callback.watch (cb : Callback W V) : Callback (W × List (Event V)) V where
  ident := cb.ident
  order := cb.order
  cycle := cb.cycle
  hook := fun h st w =>
    ((cb.hook h st w.1).1, w.2 ++ [Event.call h cb.ident st (cb.hook h st w.1).2]) |> fun w' =>
      (w', (cb.hook h st w.1).2)

/-- The same trainer, leaving a record of hook calls and batches. -/
def Trainer.watch (t : Trainer W V) : Trainer (W × List (Event V)) V where
  callbacks := t.callbacks.map Callback.watch
  sizeKey := t.sizeKey
  iter := fun w => match t.iter w.1 with
    | (w', .error e) => ((w', w.2 ++ [.noData e]), .error e)
    | (w', .ok ()) => ((w', w.2), .ok ())
  next := fun w => match t.next w.1 with
    | (w', .error e) => ((w', w.2 ++ [.noData e]), .error e)
    | (w', .ok (some b)) => ((w', w.2 ++ [.batch b]), .ok (some b))
    | (w', .ok none) => ((w', w.2 ++ [.exhausted]), .ok none)
  signal := fun w => match t.signal w.1 with
    | (w', .error e) => ((w', w.2 ++ [.stop e]), .error e)
    | (w', .ok true) => ((w', w.2 ++ [.stop .shutdown]), .ok true)
    | (w', .ok false) => ((w', w.2 ++ [.goOn]), .ok false)

/-- The run without the record. -/
def TState.forget (s : TState (W × List (Event V)) V) : TState W V := ⟨s.world.1, s.state⟩

theorem callHook_forget (h : Hook) (cb : Callback W V) (s : TState (W × List (Event V)) V) :
    ((Trainer.callHook h cb.watch s).1.forget, (Trainer.callHook h cb.watch s).2)
      = Trainer.callHook h cb s.forget := by
  unfold Trainer.callHook Callback.watch TState.forget
  simp only
  rcases cb.hook h s.state s.world.1 with ⟨w, r⟩
  cases r with
  | error e => rfl
  | ok o => cases o <;> rfl

theorem thenDo_forget {r : TState (W × List (Event V)) V × Except Exc Unit} {r' : TState W V × Except Exc Unit}
    {f : TState (W × List (Event V)) V → TState (W × List (Event V)) V × Except Exc Unit}
    {f' : TState W V → TState W V × Except Exc Unit} (hr : (r.1.forget, r.2) = r')
    (hf : ∀ s, ((f s).1.forget, (f s).2) = f' s.forget) :
    ((thenDo r f).1.forget, (thenDo r f).2) = thenDo r' f' := by
  subst hr
  obtain ⟨s, x⟩ := r
  cases x with
  | error e => rfl
  | ok u => exact hf s

theorem phase_forget (h : Hook) (cbs : List (Callback W V)) (s : TState (W × List (Event V)) V) :
    ((Trainer.phase h (cbs.map Callback.watch) s).1.forget, (Trainer.phase h (cbs.map Callback.watch) s).2)
      = Trainer.phase h cbs s.forget := by
  induction cbs generalizing s with
  | nil => rfl
  | cons cb cbs ih => exact thenDo_forget (callHook_forget h cb s) ih

theorem watch_cyclic (t : Trainer W V) : t.watch.cyclic = t.cyclic.map Callback.watch := by
  unfold Trainer.cyclic Trainer.watch
  rw [List.filter_map]; rfl

theorem watch_divides (k : Int) (cbs : List (Callback W V)) :
    (cbs.map Callback.watch).filter (Trainer.divides k) = (cbs.filter (Trainer.divides k)).map Callback.watch := by
  rw [List.filter_map]; rfl

theorem loadBatch_forget [PyNum V] (t : Trainer W V) (k : Int) (b : Dict String V)
    (s : TState (W × List (Event V)) V) :
    ((t.watch.loadBatch k b s).1.forget, (t.watch.loadBatch k b s).2) = t.loadBatch k b s.forget := by
  unfold Trainer.loadBatch
  simp only [TState.forget, Trainer.watch]
  split
  · rfl
  · rfl
  · split <;> rfl

theorem checkSignal_forget (t : Trainer W V) (s : TState (W × List (Event V)) V) :
    ((t.watch.checkSignal s).1.forget, (t.watch.checkSignal s).2) = t.checkSignal s.forget := by
  unfold Trainer.checkSignal
  simp only [TState.forget, Trainer.watch]
  rcases t.signal s.world.1 with ⟨w, r⟩
  cases r with
  | error e => rfl
  | ok b => cases b <;> rfl

theorem batchStep_forget [PyNum V] (t : Trainer W V) (k : Int) (b : Dict String V)
    (s : TState (W × List (Event V)) V) :
    ((t.watch.batchStep k b s).1.forget, (t.watch.batchStep k b s).2) = t.batchStep k b s.forget := by
  unfold Trainer.batchStep
  refine thenDo_forget (loadBatch_forget t k b s) fun s => thenDo_forget (checkSignal_forget t s) fun s =>
    thenDo_forget ?_ fun s => thenDo_forget (phase_forget _ _ s) fun s => thenDo_forget (phase_forget _ _ s) fun s =>
    thenDo_forget (phase_forget _ _ s) fun s => ?_
  · unfold Trainer.beginCycle
    rw [watch_cyclic, watch_divides]
    exact phase_forget _ _ s
  · unfold Trainer.endCycle
    rw [watch_cyclic, watch_divides]
    exact phase_forget _ _ s

theorem loop_forget [PyNum V] (t : Trainer W V) (fuel : Nat) (k : Int) (s : TState (W × List (Event V)) V) :
    ((t.watch.loop fuel k s).1.forget, (t.watch.loop fuel k s).2) = t.loop fuel k s.forget := by
  induction fuel generalizing k s with
  | zero => rfl
  | succ fuel ih =>
    unfold Trainer.loop
    have hn : t.watch.next s.world = match t.next s.world.1 with
        | (w', .error e) => ((w', s.world.2 ++ [.noData e]), .error e)
        | (w', .ok (some b)) => ((w', s.world.2 ++ [.batch b]), .ok (some b))
        | (w', .ok none) => ((w', s.world.2 ++ [.exhausted]), .ok none) := rfl
    rw [hn]
    have e : s.forget.world = s.world.1 := rfl
    rw [e]
    rcases t.next s.world.1 with ⟨w, r⟩
    cases r with
    | error e => rfl
    | ok o =>
      cases o with
      | none => rfl
      | some b =>
        simp only
        have hb := batchStep_forget t k b { s with world := (w, s.world.2 ++ [.batch b]) }
        have e2 : TState.forget { s with world := (w, s.world.2 ++ [.batch b]) } = { s.forget with world := w } := rfl
        rw [e2] at hb
        rw [← hb]
        rcases t.watch.batchStep k b { s with world := (w, s.world.2 ++ [.batch b]) } with ⟨s', r⟩
        cases r with
        | error e => rfl
        | ok u => exact ih (k + 1) s'

theorem runLoop_forget [PyNum V] (t : Trainer W V) (fuel : Nat) (s : TState (W × List (Event V)) V) :
    ((t.watch.runLoop fuel s).1.forget, (t.watch.runLoop fuel s).2) = t.runLoop fuel s.forget := by
  unfold Trainer.runLoop
  have e : s.forget.state = s.state := rfl
  rw [e]
  cases s.state.get? "bp_step" with
  | none => rfl
  | some v =>
    simp only
    cases PyNum.toInt v with
    | none => rfl
    | some k =>
      simp only
      have hi : t.watch.iter s.world = match t.iter s.world.1 with
        | (w', .error e) => ((w', s.world.2 ++ [.noData e]), .error e)
        | (w', .ok ()) => ((w', s.world.2), .ok ()) := rfl
      rw [hi]
      have e2 : s.forget.world = s.world.1 := rfl
      rw [e2]
      rcases t.iter s.world.1 with ⟨w, r⟩
      cases r with
      | error e => rfl
      | ok u => exact loop_forget t fuel k { s with world := (w, s.world.2) }

theorem finish_forget (t : Trainer W V) (s : TState (W × List (Event V)) V) (o : Option (Except Exc Unit)) :
    ((t.watch.finish s o).1.forget, (t.watch.finish s o).2) = t.finish s.forget o := by
  unfold Trainer.finish
  cases o with
  | none => rfl
  | some r =>
    cases r with
    | ok u => rfl
    | error ex =>
      simp only
      have := phase_forget (.endTraining ex) t.callbacks s
      rw [← this]
      have e : t.watch.callbacks = t.callbacks.map Callback.watch := rfl
      rw [e]
      rcases Trainer.phase (.endTraining ex) (t.callbacks.map Callback.watch) s with ⟨s', r⟩
      cases r <;> rfl

/-- Watching changes nothing. -/
theorem train_forget [PyNum V] (t : Trainer W V) (fuel : Nat) (s : TState (W × List (Event V)) V) :
    ((t.watch.train fuel s).1.forget, (t.watch.train fuel s).2) = t.train fuel s.forget := by
  unfold Trainer.train
  have hp : ((t.watch.prepare s).1.forget, (t.watch.prepare s).2) = t.prepare s.forget := by
    unfold Trainer.prepare
    refine thenDo_forget ?_ fun s => phase_forget _ _ s
    exact phase_forget .restoreState t.callbacks _
  rw [← hp]
  rcases t.watch.prepare s with ⟨s', r⟩
  cases r with
  | error e => cases e <;> rfl
  | ok u =>
    simp only
    rw [finish_forget, ← runLoop_forget]

/-! ## Traces -/

theorem noRaise_nil : NoRaise ([] : List (Event V)) := by intro e he; simp at he

theorem Spec.NoRaise.append {a b : List (Event V)} (ha : NoRaise a) (hb : NoRaise b) : NoRaise (a ++ b) := by
  intro e he
  rcases List.mem_append.1 he with h | h
  · exact ha e h
  · exact hb e h

theorem Spec.RaisedBy.prepend {a b : List (Event V)} {ex : Exc} (ha : NoRaise a) (hb : RaisedBy ex b) :
    RaisedBy ex (a ++ b) := by
  obtain ⟨p, x, h1, h2, h3⟩ := hb
  exact ⟨a ++ p, x, by rw [h1, List.append_assoc], ha.append h2, h3⟩

theorem raisedBy_noData (ex : Exc) : RaisedBy ex [(.noData ex : Event V)] := ⟨[], _, rfl, noRaise_nil, rfl⟩

theorem raisedBy_stop (ex : Exc) : RaisedBy ex [(.stop ex : Event V)] := ⟨[], _, rfl, noRaise_nil, rfl⟩

variable [PyNum V]

theorem Spec.Flows.append {key : String} {k : Int} {st st₁ st₂ : Dict String V} {es fs : List (Event V)}
    (h₁ : Flows key k st es st₁) (h₂ : Flows key (k + (shapes es).count .batch) st₁ fs st₂) :
    Flows key k st (es ++ fs) st₂ := by
  induction es generalizing k st with
  | nil =>
    simp only [Flows] at h₁
    subst h₁
    simpa [shapes] using h₂
  | cons e es ih =>
    cases e with
    | call h i seen r =>
      refine ⟨h₁.1, ih h₁.2 ?_⟩
      simpa [shapes, Event.shape] using h₂
    | stop ex =>
      refine ih (st := st) h₁ ?_
      simpa [shapes, Event.shape] using h₂
    | exhausted =>
      refine ih (st := st) h₁ ?_
      simpa [shapes, Event.shape] using h₂
    | noData ex =>
      refine ih (st := st) h₁ ?_
      simpa [shapes, Event.shape] using h₂
    | goOn =>
      refine ih (st := st) h₁ ?_
      simpa [shapes, Event.shape] using h₂
    | batch b =>
      obtain ⟨st', h3, h4⟩ := h₁
      refine ⟨st', h3, ih h4 ?_⟩
      simp only [shapes, List.map_cons, Event.shape, List.count_cons_self] at h₂
      rw [show k + 1 + ((shapes es).count .batch : Int) = k + (((shapes es).count .batch + 1 : Nat) : Int) by
        push_cast; omega]
      exact h₂

/-- The events of a piece of the run that starts in `s` with `k` the number of the next batch, should be
`expected`, and ends in `r`. -/
def Traced (key : String) (k : Int) (expected : List Shape) (s : TState (W × List (Event V)) V)
    (r : TState (W × List (Event V)) V × Except Exc Unit) : Prop :=
  ∃ es, r.1.world.2 = s.world.2 ++ es ∧ Flows key k s.state es r.1.state ∧
    ((r.2 = .ok () ∧ shapes es = expected ∧ NoRaise es) ∨
      ∃ ex, r.2 = .error ex ∧ shapes es <+: expected ∧ RaisedBy ex es)

theorem Traced.thenDo {key : String} {k : Int} {e₁ e₂ : List Shape} {s : TState (W × List (Event V)) V}
    {r : TState (W × List (Event V)) V × Except Exc Unit}
    {f : TState (W × List (Event V)) V → TState (W × List (Event V)) V × Except Exc Unit}
    (hr : Traced key k e₁ s r) (hf : ∀ s', Traced key (k + e₁.count .batch) e₂ s' (f s')) :
    Traced key k (e₁ ++ e₂) s (thenDo r f) := by
  obtain ⟨es, h1, h2, h3⟩ := hr
  obtain ⟨s', x⟩ := r
  rcases h3 with ⟨hx, hs, hn⟩ | ⟨ex, hx, hp, hst⟩
  · simp only at hx h1 h2
    subst hx
    obtain ⟨fs, g1, g2, g3⟩ := hf s'
    refine ⟨es ++ fs, ?_, ?_, ?_⟩
    · show (f s').1.world.2 = _
      rw [g1, h1, List.append_assoc]
    · exact h2.append (by rw [hs]; exact g2)
    · have hsh : shapes (es ++ fs) = e₁ ++ shapes fs := by rw [← hs]; simp [shapes]
      rcases g3 with ⟨hx, hs', hn'⟩ | ⟨ex, hx, hp, hst⟩
      · exact Or.inl ⟨hx, by rw [hsh, hs'], hn.append hn'⟩
      · refine Or.inr ⟨ex, hx, ?_, Spec.RaisedBy.prepend hn hst⟩
        rw [hsh]
        exact (List.prefix_append_right_inj e₁).2 hp
  · simp only at hx
    subst hx
    exact ⟨es, h1, h2, Or.inr ⟨ex, rfl, hp.trans (List.prefix_append _ _), hst⟩⟩

theorem callHook_traced (key : String) (k : Int) (h : Hook) (cb : Callback W V)
    (s : TState (W × List (Event V)) V) :
    Traced key k [.hook h cb.ident] s (Trainer.callHook h cb.watch s) := by
  unfold Trainer.callHook Callback.watch
  simp only
  rcases cb.hook h s.state s.world.1 with ⟨w, r⟩
  cases r with
  | error e =>
    refine ⟨[.call h cb.ident s.state (.error e)], rfl, ⟨rfl, rfl⟩, Or.inr ⟨e, rfl, List.prefix_rfl, ?_⟩⟩
    exact ⟨[], _, rfl, noRaise_nil, rfl⟩
  | ok o =>
    cases o with
    | none =>
      refine ⟨[.call h cb.ident s.state (.ok none)], rfl, ⟨rfl, rfl⟩, Or.inl ⟨rfl, rfl, ?_⟩⟩
      intro e he ex hr
      rw [List.mem_singleton] at he
      subst he; exact hr
    | some d =>
      refine ⟨[.call h cb.ident s.state (.ok (some d))], rfl, ⟨rfl, rfl⟩, Or.inl ⟨rfl, rfl, ?_⟩⟩
      intro e he ex hr
      rw [List.mem_singleton] at he
      subst he; exact hr

omit [PyNum V] in
theorem count_all (h : Hook) (cbs : List (Callback W V)) : (Spec.all h cbs).count .batch = 0 := by
  rw [List.count_eq_zero]
  simp [Spec.all]

theorem phase_traced (key : String) (k : Int) (h : Hook) (cbs : List (Callback W V))
    (s : TState (W × List (Event V)) V) :
    Traced key k (Spec.all h cbs) s (Trainer.phase h (cbs.map Callback.watch) s) := by
  induction cbs generalizing s with
  | nil => exact ⟨[], by simp [Trainer.phase], rfl, Or.inl ⟨rfl, rfl, noRaise_nil⟩⟩
  | cons cb cbs ih =>
    have := Traced.thenDo (callHook_traced key k h cb s) (e₂ := Spec.all h cbs) (f := Trainer.phase h (cbs.map Callback.watch))
      (by intro s'; simpa using ih s')
    exact this

theorem loadBatch_spec (t : Trainer W V) (k : Int) (b : Dict String V) (s : TState W V) :
    (t.loadBatch k b s).1.world = s.world ∧ Loaded t.sizeKey k s.state b (t.loadBatch k b s).1.state := by
  unfold Trainer.loadBatch
  simp only
  have hbp : ((s.state.update b).set "bp_step" (PyNum.ofInt k)).get? "bp_samples"
      = (s.state.update b).get? "bp_samples" := Dict.get?_set_ne (by decide)
  rw [hbp]
  have base : ∀ (hno : ¬ (t.sizeKey ≠ "bp_step" ∧ ∃ a c m n, (s.state.update b).get? "bp_samples" = some a ∧
      (s.state.update b).get? t.sizeKey = some c ∧ PyNum.toInt a = some m ∧ PyNum.toInt c = some n)),
      Loaded t.sizeKey k s.state b ((s.state.update b).set "bp_step" (PyNum.ofInt k)) := by
    intro hno
    refine ⟨Dict.get?_set_self, ?_, fun key h1 _ => Dict.get?_set_ne (Ne.symm h1)⟩
    intro hk a c m n h1 h2 h3 h4
    exact absurd ⟨hk, a, c, m, n, h1, h2, h3, h4⟩ hno
  have hsz : t.sizeKey ≠ "bp_step" → ((s.state.update b).set "bp_step" (PyNum.ofInt k)).get? t.sizeKey
      = (s.state.update b).get? t.sizeKey := fun h => Dict.get?_set_ne (Ne.symm h)
  split
  · rename_i h
    refine ⟨rfl, base ?_⟩
    rintro ⟨_, a, _, _, _, h1, _⟩
    rw [h] at h1; simp at h1
  · rename_i h _
    refine ⟨rfl, base ?_⟩
    rintro ⟨hk, _, c, _, _, _, h2, _⟩
    rw [hsz hk, h2] at h; simp at h
  · rename_i a c ha hc
    split
    · rename_i m n hm hn
      refine ⟨rfl, ?_, ?_, ?_⟩
      · rw [Dict.get?_set_ne (by decide), Dict.get?_set_self]
      · intro hk a' c' m' n' h1 h2 h3 h4
        rw [hsz hk] at hc
        rw [ha] at h1; rw [hc] at h2
        injection h1 with h1; injection h2 with h2
        subst h1 h2
        rw [hm] at h3; rw [hn] at h4
        injection h3 with h3; injection h4 with h4
        subst h3 h4
        exact Dict.get?_set_self
      · intro key h1 h2
        rw [Dict.get?_set_ne (Ne.symm h2), Dict.get?_set_ne (Ne.symm h1)]
    · rename_i hno
      refine ⟨rfl, base ?_⟩
      rintro ⟨hk, a', c', m, n, h1, h2, h3, h4⟩
      rw [hsz hk] at hc
      rw [ha] at h1; rw [hc] at h2
      injection h1 with h1; injection h2 with h2
      subst h1 h2
      exact hno m n h3 h4

omit [PyNum V] in
theorem divides_due (k : Int) (t : Trainer W V) :
    (t.cyclic.filter (Trainer.divides k)) = due k t.callbacks := by
  unfold Trainer.cyclic due
  rw [List.filter_filter]
  congr 1
  funext cb
  unfold Trainer.divides
  cases cb.cycle with
  | none => rfl
  | some n => simp [Int.dvd_iff_emod_eq_zero, and_comm]

/-- The hooks of a batch. -/
def Trainer.batchHooks (t : Trainer W V) (k : Int) (s : TState W V) : TState W V × Except Exc Unit :=
  Verif.thenDo (t.beginCycle k s) fun s => Verif.thenDo (Trainer.phase .beginBatch t.callbacks s) fun s =>
    Verif.thenDo (Trainer.phase .backward t.callbacks s) fun s =>
    Verif.thenDo (Trainer.phase .endBatch t.callbacks s) fun s => t.endCycle k s

def hooksOf (cbs : List (Callback W V)) (k : Int) : List Shape :=
  Spec.all .beginCycle (due (k - 1) cbs) ++ (Spec.all .beginBatch cbs ++ (Spec.all .backward cbs ++
    (Spec.all .endBatch cbs ++ Spec.all .endCycle (due k cbs))))

theorem batchHooks_traced (t : Trainer W V) (k k' : Int) (s : TState (W × List (Event V)) V) :
    Traced t.sizeKey k' (hooksOf t.callbacks k) s (t.watch.batchHooks k s) := by
  have hcyc : ∀ k' : Int, (t.watch.cyclic.filter (Trainer.divides k')) = (due k' t.callbacks).map Callback.watch := by
    intro k'
    rw [watch_cyclic, watch_divides, divides_due]
  refine Traced.thenDo ?_ fun s => Traced.thenDo (phase_traced _ _ _ _ s) fun s =>
    Traced.thenDo (phase_traced _ _ _ _ s) fun s => Traced.thenDo (phase_traced _ _ _ _ s) fun s => ?_
  · unfold Trainer.beginCycle
    rw [hcyc]
    exact phase_traced _ _ _ _ s
  · unfold Trainer.endCycle
    rw [hcyc]
    exact phase_traced _ _ _ _ s

/-- The events of a batch, from the moment it was fetched. -/
def BatchTraced (key : String) (cbs : List (Callback W V)) (k : Int) (s : TState (W × List (Event V)) V)
    (r : TState (W × List (Event V)) V × Except Exc Unit) : Prop :=
  ∃ es, r.1.world.2 = s.world.2 ++ es ∧ Flows key k s.state es r.1.state ∧
    ((r.2 = .ok () ∧ shapes es = oneBatch cbs k ∧ NoRaise es) ∨
      ∃ ex, r.2 = .error ex ∧ (([.batch, .goOn] <+: shapes es ∧ shapes es <+: oneBatch cbs k ∧ RaisedBy ex es) ∨
        (shapes es = [.batch, .stop] ∧ RaisedBy ex es) ∨
        (shapes es = [.batch] ∧ NoRaise es ∧ (∃ e, ex = .error e) ∧
          (NoNumber "bp_samples" r.1.state ∨ NoNumber key r.1.state))))

theorem noRaise_batch (b : Dict String V) : NoRaise [Event.batch b] := by
  intro e he ex hr
  rw [List.mem_singleton] at he
  subst he; exact hr

theorem loadBatch_error (t : Trainer W V) (k : Int) (b : Dict String V) (s : TState W V) (ex : Exc)
    (h : (t.loadBatch k b s).2 = .error ex) :
    (∃ e, ex = .error e) ∧ (NoNumber "bp_samples" (t.loadBatch k b s).1.state ∨
      NoNumber t.sizeKey (t.loadBatch k b s).1.state) := by
  revert h
  unfold Trainer.loadBatch
  simp only
  split
  · rename_i h
    intro hx; injection hx with hx
    exact ⟨⟨_, hx.symm⟩, Or.inl fun v n hv => by rw [h] at hv; simp at hv⟩
  · rename_i h _
    intro hx; injection hx with hx
    exact ⟨⟨_, hx.symm⟩, Or.inr fun v n hv => by rw [h] at hv; simp at hv⟩
  · rename_i a c ha hc
    split
    · intro hx; simp at hx
    · rename_i hno
      intro hx; injection hx with hx
      refine ⟨⟨_, hx.symm⟩, ?_⟩
      cases hm : PyNum.toInt a with
      | none =>
        left; intro v n hv
        rw [ha] at hv; injection hv with hv; subst hv; rw [hm]; simp
      | some m =>
        cases hn : PyNum.toInt c with
        | none =>
          right; intro v n hv
          rw [hc] at hv; injection hv with hv; subst hv; rw [hn]; simp
        | some n => exact absurd hn (hno m n hm)

theorem batchStep_traced (t : Trainer W V) (k : Int) (b : Dict String V) (s s₀ : TState (W × List (Event V)) V)
    (h1 : s.world.2 = s₀.world.2 ++ [.batch b]) (h2 : s.state = s₀.state) :
    BatchTraced t.sizeKey t.callbacks k s₀ (t.watch.batchStep k b s) := by
  have hdef : t.watch.batchStep k b s = thenDo (t.watch.loadBatch k b s) fun s =>
      thenDo (t.watch.checkSignal s) fun s => t.watch.batchHooks k s := rfl
  rw [hdef]
  obtain ⟨g1, g2⟩ := loadBatch_spec t.watch k b s
  have g3 := loadBatch_error t.watch k b s
  generalize t.watch.loadBatch k b s = r at g1 g2 g3
  obtain ⟨s₁, r⟩ := r
  simp only at g1 g2 g3
  have hw1 : s₁.world.2 = s₀.world.2 ++ [.batch b] := by rw [g1, h1]
  have hl : Loaded t.sizeKey k s₀.state b s₁.state := by rw [← h2]; exact g2
  cases r with
  | error ex =>
    obtain ⟨g4, g5⟩ := g3 ex rfl
    exact ⟨[.batch b], hw1, ⟨_, hl, rfl⟩, Or.inr ⟨ex, rfl, Or.inr (Or.inr ⟨rfl, noRaise_batch b, g4, g5⟩)⟩⟩
  | ok u =>
    show BatchTraced t.sizeKey t.callbacks k s₀ (thenDo (t.watch.checkSignal s₁) fun s => t.watch.batchHooks k s)
    unfold Trainer.checkSignal
    have hsig : t.watch.signal s₁.world = match t.signal s₁.world.1 with
      | (w', .error e) => ((w', s₁.world.2 ++ [.stop e]), .error e)
      | (w', .ok true) => ((w', s₁.world.2 ++ [.stop .shutdown]), .ok true)
      | (w', .ok false) => ((w', s₁.world.2 ++ [.goOn]), .ok false) := rfl
    rw [hsig]
    have stop : ∀ (w : W) (ex : Exc), BatchTraced t.sizeKey t.callbacks k s₀
        ({ s₁ with world := (w, s₁.world.2 ++ [.stop ex]) }, .error ex) := by
      intro w ex
      refine ⟨[.batch b, .stop ex], by simp [hw1], ⟨_, hl, rfl⟩, Or.inr ⟨ex, rfl, Or.inr (Or.inl ⟨rfl, ?_⟩)⟩⟩
      exact Spec.RaisedBy.prepend (noRaise_batch b) (raisedBy_stop ex)
    rcases t.signal s₁.world.1 with ⟨w, r⟩
    cases r with
    | error e => exact stop w e
    | ok v =>
      cases v with
      | true => exact stop w .shutdown
      | false =>
        have hnb : NoRaise [Event.batch b, .goOn] := by
          intro e he ex hr
          rcases List.mem_cons.1 he with rfl | he
          · exact hr
          · rw [List.mem_singleton] at he
            subst he; exact hr
        obtain ⟨es, k1, k2, k3⟩ := batchHooks_traced t k (k + 1) { s₁ with world := (w, s₁.world.2 ++ [.goOn]) }
        show BatchTraced t.sizeKey t.callbacks k s₀ (t.watch.batchHooks k { s₁ with world := (w, s₁.world.2 ++ [.goOn]) })
        refine ⟨.batch b :: .goOn :: es, by rw [k1]; simp [hw1], ⟨_, hl, k2⟩, ?_⟩
        rcases k3 with ⟨c1, c2, c3⟩ | ⟨ex, c1, c2, c3⟩
        · refine Or.inl ⟨c1, ?_, hnb.append c3⟩
          show Shape.batch :: .goOn :: shapes es = _
          rw [c2]; rfl
        · refine Or.inr ⟨ex, c1, Or.inl ⟨⟨shapes es, rfl⟩, ?_, Spec.RaisedBy.prepend hnb c3⟩⟩
          show Shape.batch :: .goOn :: shapes es <+: Shape.batch :: .goOn :: hooksOf t.callbacks k
          exact List.cons_prefix_cons.2 ⟨rfl, List.cons_prefix_cons.2 ⟨rfl, c2⟩⟩

omit [PyNum V] in
theorem count_oneBatch (cbs : List (Callback W V)) (k : Int) : (oneBatch cbs k).count .batch = 1 := by
  unfold oneBatch
  rw [List.count_cons_self, List.count_cons_of_ne (by simp)]
  simp only [List.count_append, count_all]

omit [PyNum V] in
theorem count_batches (cbs : List (Callback W V)) (k : Int) (n : Nat) : (batches cbs k n).count .batch = n := by
  induction n generalizing k with
  | zero => rfl
  | succ n ih => unfold batches; rw [List.count_append, count_oneBatch, ih]; omega

theorem batches_succ (cbs : List (Callback W V)) (k : Int) (n : Nat) :
    batches cbs k (n + 1) = oneBatch cbs k ++ batches cbs (k + 1) n := rfl

/-- The events of the loop. -/
def LoopTraced (key : String) (cbs : List (Callback W V)) (k : Int) (fuel : Nat) (s : TState (W × List (Event V)) V)
    (r : TState (W × List (Event V)) V × Option (Except Exc Unit)) : Prop :=
  ∃ es, r.1.world.2 = s.world.2 ++ es ∧ Flows key k s.state es r.1.state ∧
    ((r.2 = none ∧ shapes es = batches cbs k fuel ∧ NoRaise es) ∨
     (∃ n, n < fuel ∧ r.2 = some (.ok ()) ∧ shapes es = batches cbs k n ++ [.exhausted] ∧ NoRaise es) ∨
     (∃ n ex, n ≤ fuel ∧ r.2 = some (.error ex) ∧
       ((batches cbs k n ++ [.batch, .goOn] <+: shapes es ∧ shapes es <+: batches cbs k (n + 1) ∧ RaisedBy ex es) ∨
        (shapes es = batches cbs k n ++ [.noData] ∧ RaisedBy ex es) ∨
        (shapes es = batches cbs k n ++ [.batch, .stop] ∧ RaisedBy ex es) ∨
        (shapes es = batches cbs k n ++ [.batch] ∧ NoRaise es ∧ (∃ e, ex = .error e) ∧
          (NoNumber "bp_samples" r.1.state ∨ NoNumber key r.1.state)))))

theorem loop_traced (t : Trainer W V) (fuel : Nat) (k : Int) (s : TState (W × List (Event V)) V) :
    LoopTraced t.sizeKey t.callbacks k fuel s (t.watch.loop fuel k s) := by
  induction fuel generalizing k s with
  | zero => exact ⟨[], by simp [Trainer.loop], rfl, Or.inl ⟨rfl, rfl, noRaise_nil⟩⟩
  | succ fuel ih =>
    unfold Trainer.loop
    have hn : t.watch.next s.world = match t.next s.world.1 with
        | (w', .error e) => ((w', s.world.2 ++ [.noData e]), .error e)
        | (w', .ok (some b)) => ((w', s.world.2 ++ [.batch b]), .ok (some b))
        | (w', .ok none) => ((w', s.world.2 ++ [.exhausted]), .ok none) := rfl
    rw [hn]
    rcases t.next s.world.1 with ⟨w, r⟩
    cases r with
    | error e =>
      exact ⟨[.noData e], rfl, rfl, Or.inr (Or.inr ⟨0, e, by omega, rfl, Or.inr (Or.inl ⟨rfl, raisedBy_noData e⟩)⟩)⟩
    | ok o =>
      cases o with
      | none =>
        refine ⟨[.exhausted], rfl, rfl, Or.inr (Or.inl ⟨0, by omega, rfl, rfl, ?_⟩)⟩
        intro e he ex hr
        rw [List.mem_singleton] at he
        subst he; exact hr
      | some b =>
        simp only
        have hb := batchStep_traced t k b { s with world := (w, s.world.2 ++ [.batch b]) } s rfl rfl
        generalize t.watch.batchStep k b { s with world := (w, s.world.2 ++ [.batch b]) } = rr at hb
        obtain ⟨s', r⟩ := rr
        obtain ⟨es, h1, h2, h3⟩ := hb
        cases r with
        | error e =>
          rcases h3 with ⟨hx, _⟩ | ⟨ex, hx, hc⟩
          · simp at hx
          · injection hx with hx
            subst hx
            refine ⟨es, h1, h2, Or.inr (Or.inr ⟨0, e, by omega, rfl, ?_⟩)⟩
            rcases hc with ⟨hpp, hp, hr⟩ | hc | hc
            · exact Or.inl ⟨by simpa [batches] using hpp, by simpa [batches] using hp, hr⟩
            · exact Or.inr (Or.inr (Or.inl hc))
            · exact Or.inr (Or.inr (Or.inr hc))
        | ok u =>
          rcases h3 with ⟨_, hs, hnr⟩ | ⟨ex, hx, _⟩
          · obtain ⟨fs, g1, g2, g3⟩ := ih (k + 1) s'
            have hsh : ∀ fs : List (Event V), shapes (es ++ fs) = oneBatch t.callbacks k ++ shapes fs := by
              intro fs; rw [← hs]; simp [shapes]
            refine ⟨es ++ fs, ?_, h2.append ?_, ?_⟩
            · rw [← List.append_assoc, ← h1]
              exact g1
            · rw [hs, count_oneBatch]
              exact g2
            · rcases g3 with ⟨g4, g5, g6⟩ | ⟨n, g3, g4, g5, g6⟩ | ⟨n, ex, g3, g4, g5⟩
              · exact Or.inl ⟨g4, by rw [hsh, g5]; rfl, hnr.append g6⟩
              · exact Or.inr (Or.inl ⟨n + 1, by omega, g4, by rw [hsh, g5, batches_succ, List.append_assoc], hnr.append g6⟩)
              · refine Or.inr (Or.inr ⟨n + 1, ex, by omega, g4, ?_⟩)
                rw [hsh, batches_succ _ _ (n + 1), batches_succ _ _ n]
                rcases g5 with ⟨c1, c2, c3⟩ | ⟨c1, c2⟩ | ⟨c1, c2⟩ | ⟨c1, c2, c3, c4⟩
                · exact Or.inl ⟨by rw [List.append_assoc]; exact (List.prefix_append_right_inj _).2 c1, (List.prefix_append_right_inj _).2 c2,
                    Spec.RaisedBy.prepend hnr c3⟩
                · exact Or.inr (Or.inl ⟨by rw [c1, List.append_assoc], Spec.RaisedBy.prepend hnr c2⟩)
                · exact Or.inr (Or.inr (Or.inl ⟨by rw [c1, List.append_assoc], Spec.RaisedBy.prepend hnr c2⟩))
                · exact Or.inr (Or.inr (Or.inr ⟨by rw [c1, List.append_assoc], hnr.append c2, c3, c4⟩))
          · simp at hx

theorem prepare_traced (t : Trainer W V) (k : Int) (s : TState (W × List (Event V)) V) :
    Traced t.sizeKey k (opening t.callbacks)
      { s with state := (s.state.set "bp_samples" (PyNum.ofInt 0)).set "bp_step" (PyNum.ofInt 1) } (t.watch.prepare s) := by
  unfold Trainer.prepare opening
  exact Traced.thenDo (phase_traced _ _ _ _ _) fun s => phase_traced _ _ _ _ s

/-- The state when training begins, `trainer.py` 67-68. -/
def startState (st : Dict String V) : Dict String V :=
  (st.set "bp_samples" (PyNum.ofInt 0)).set "bp_step" (PyNum.ofInt 1)

theorem train_traced (t : Trainer W V) (fuel : Nat) (k : Int) (s : TState (W × List (Event V)) V)
    (hk : (t.watch.prepare s).2 = .ok () → ∀ v k', (t.watch.prepare s).1.state.get? "bp_step" = some v →
      PyNum.toInt v = some k' → k' = k) :
    ∃ es, (t.watch.train fuel s).1.world.2 = s.world.2 ++ es ∧
      Flows t.sizeKey k (startState s.state) es (t.watch.train fuel s).1.state ∧
      Spec.Run t.callbacks t.sizeKey (startState s.state) k fuel es (t.watch.train fuel s).2 := by
  unfold Trainer.train
  obtain ⟨es, h1, h2, h3⟩ := prepare_traced t k s
  change Flows t.sizeKey k (startState s.state) es (t.watch.prepare s).1.state at h2
  rcases hp : t.watch.prepare s with ⟨s₁, r⟩
  rw [hp] at h1 h2 h3 hk
  simp only at h1 h2
  rcases h3 with ⟨hr, hsh, hnr⟩ | ⟨ex, hr, hpre, hst⟩
  · simp only at hr
    subst hr
    simp only
    have hcnt : (opening t.callbacks).count .batch = 0 := by
      unfold opening; rw [List.count_append, count_all, count_all]
    have hflow : ∀ fs st', Flows t.sizeKey k s₁.state fs st' →
        Flows t.sizeKey k (startState s.state) (es ++ fs) st' := fun fs st' h =>
      h2.append (by rw [hsh, hcnt]; simpa using h)
    have hshape : ∀ fs, shapes (es ++ fs) = opening t.callbacks ++ shapes fs := by
      intro fs; rw [← hsh]; simp [shapes]
    -- how the loop is left
    have hend : ∀ (s₂ : TState (W × List (Event V)) V) (fs : List (Event V)) (n : Nat) (ex : Exc), n ≤ fuel →
        s₂.world.2 = s₁.world.2 ++ fs → Flows t.sizeKey k s₁.state fs s₂.state →
        Cause t.callbacks t.sizeKey (startState s.state) k n ex (es ++ fs) →
        ∃ gs, (t.watch.finish s₂ (some (.error ex))).1.world.2 = s.world.2 ++ gs ∧
          Flows t.sizeKey k (startState s.state) gs (t.watch.finish s₂ (some (.error ex))).1.state ∧
          Spec.Run t.callbacks t.sizeKey (startState s.state) k fuel gs (t.watch.finish s₂ (some (.error ex))).2 := by
      intro s₂ fs n ex hle g1 g2 hcause
      unfold Trainer.finish
      obtain ⟨cs, c1, c2, c3⟩ := phase_traced t.sizeKey (k + (shapes (es ++ fs)).count .batch) (.endTraining ex)
        t.callbacks s₂
      have e : t.watch.callbacks = t.callbacks.map Callback.watch := rfl
      rw [e]
      simp only
      generalize Trainer.phase (.endTraining ex) (t.callbacks.map Callback.watch) s₂ = rr at c1 c2 c3
      obtain ⟨s₃, r⟩ := rr
      simp only at c1 c2
      have hfl := (hflow fs _ g2).append c2
      have hw : s₃.world.2 = s.world.2 ++ ((es ++ fs) ++ cs) := by
        rw [c1, g1, h1, List.append_assoc, List.append_assoc, List.append_assoc]
      rcases c3 with ⟨hr, c4, c5⟩ | ⟨e', hr, c4, c5⟩
      · simp only at hr
        subst hr
        refine ⟨es ++ fs ++ cs, hw, hfl, ?_⟩
        refine Spec.Run.stopped (es ++ fs) cs n ex _ rfl hle hcause (Closing.done c4 c5 rfl) ?_
        cases ex <;> rfl
      · simp only at hr
        subst hr
        exact ⟨es ++ fs ++ cs, hw, hfl, .stopped (es ++ fs) cs n ex _ rfl hle hcause (Closing.raised e' c4 c5 rfl) rfl⟩
    unfold Trainer.runLoop
    cases hv : s₁.state.get? "bp_step" with
    | none =>
      exact hend s₁ [] 0 _ (by omega) (by simp) rfl (.noStep _ s₁.state rfl rfl (by rw [hshape]; simp [shapes])
        (by simpa using hnr) (hflow [] _ rfl) (fun v n h => by rw [hv] at h; simp at h))
    | some v =>
      simp only
      cases hi : PyNum.toInt v with
      | none =>
        exact hend s₁ [] 0 _ (by omega) (by simp) rfl (.noStep _ s₁.state rfl rfl (by rw [hshape]; simp [shapes])
          (by simpa using hnr) (hflow [] _ rfl)
          (fun v' n h => by rw [hv] at h; injection h with h; subst h; rw [hi]; simp))
      | some k' =>
        have hkk : k' = k := hk rfl v k' hv hi
        subst hkk
        simp only
        have hit : t.watch.iter s₁.world = match t.iter s₁.world.1 with
          | (w', .error e) => ((w', s₁.world.2 ++ [.noData e]), .error e)
          | (w', .ok ()) => ((w', s₁.world.2), .ok ()) := rfl
        rw [hit]
        rcases t.iter s₁.world.1 with ⟨w, r⟩
        cases r with
        | error e =>
          exact hend { s₁ with world := (w, s₁.world.2 ++ [.noData e]) } [.noData e] 0 e (by omega) rfl rfl
            (.loader (by rw [hshape]; simp [shapes, Event.shape, batches]) (Spec.RaisedBy.prepend hnr (raisedBy_noData e)))
        | ok u =>
          simp only
          obtain ⟨fs, g1, g2, g3⟩ := loop_traced t fuel k' { s₁ with world := (w, s₁.world.2) }
          generalize t.watch.loop fuel k' { s₁ with world := (w, s₁.world.2) } = rr at g1 g2 g3
          obtain ⟨s₂, o⟩ := rr
          simp only at g1 g2 g3
          have hworld : s₂.world.2 = s.world.2 ++ (es ++ fs) := by rw [g1, h1, List.append_assoc]
          rcases g3 with ⟨ho, hs, hn⟩ | ⟨n, hlt, ho, hs, hn⟩ | ⟨n, ex, hle, ho, hc⟩
          · subst ho
            exact ⟨es ++ fs, hworld, hflow _ _ g2, .running (by rw [hshape, hs]) (hnr.append hn) rfl⟩
          · subst ho
            exact ⟨es ++ fs, hworld, hflow _ _ g2, .exhausted n hlt (by rw [hshape, hs, List.append_assoc]) (hnr.append hn) rfl⟩
          · subst ho
            refine hend s₂ fs n ex hle g1 g2 ?_
            rcases hc with ⟨c1, c2, c3⟩ | ⟨c1, c2⟩ | ⟨c1, c2⟩ | ⟨c1, c2, ⟨e, c3⟩, c4⟩
            · refine .hook ?_ ?_ (Spec.RaisedBy.prepend hnr c3)
              · rw [hshape, List.append_assoc]; exact (List.prefix_append_right_inj _).2 c1
              · rw [hshape]; exact (List.prefix_append_right_inj _).2 c2
            · exact .loader (by rw [hshape, c1, List.append_assoc]) (Spec.RaisedBy.prepend hnr c2)
            · exact .signal (by rw [hshape, c1, List.append_assoc]) (Spec.RaisedBy.prepend hnr c2)
            · exact .noSize e s₂.state c3 (by rw [hshape, c1, List.append_assoc]) (hnr.append c2) (hflow _ _ g2) c4
  · simp only at hr
    subst hr
    cases ex with
    | shutdown => exact ⟨es, h1, h2, .failedEarly .shutdown hpre hst rfl⟩
    | error e => exact ⟨es, h1, h2, .failedEarly (.error e) hpre hst rfl⟩

/-! ## Where the events come from -/

section
omit [PyNum V]

def AllGenuine (t : Trainer W V) (s : TState (W × List (Event V)) V) : Prop := ∀ e ∈ s.world.2, e.Genuine t

theorem AllGenuine.thenDo {t : Trainer W V} {r : TState (W × List (Event V)) V × Except Exc Unit}
    {f : TState (W × List (Event V)) V → TState (W × List (Event V)) V × Except Exc Unit}
    (hr : AllGenuine t r.1) (hf : ∀ s, AllGenuine t s → AllGenuine t (f s).1) : AllGenuine t (thenDo r f).1 := by
  obtain ⟨s, x⟩ := r
  cases x with
  | error e => exact hr
  | ok u => exact hf s hr

theorem AllGenuine.snoc {t : Trainer W V} {s s' : TState (W × List (Event V)) V} {e : Event V}
    (hs : AllGenuine t s) (h : s'.world.2 = s.world.2 ++ [e]) (he : e.Genuine t) : AllGenuine t s' := by
  intro x hx
  rw [h, List.mem_append, List.mem_singleton] at hx
  rcases hx with hx | hx
  · exact hs x hx
  · rw [hx]; exact he

theorem AllGenuine.same {t : Trainer W V} {s s' : TState (W × List (Event V)) V}
    (hs : AllGenuine t s) (h : s'.world.2 = s.world.2) : AllGenuine t s' := by
  intro x hx
  rw [h] at hx
  exact hs x hx

theorem phase_genuine (t : Trainer W V) (h : Hook) (cbs : List (Callback W V)) (hsub : ∀ cb ∈ cbs, cb ∈ t.callbacks)
    (s : TState (W × List (Event V)) V) (hs : AllGenuine t s) :
    AllGenuine t (Trainer.phase h (cbs.map Callback.watch) s).1 := by
  induction cbs generalizing s with
  | nil => exact hs
  | cons cb cbs ih =>
    refine AllGenuine.thenDo ?_ fun s hs => ih (fun c hc => hsub c (by simp [hc])) s hs
    unfold Trainer.callHook Callback.watch
    simp only
    have hg : (Event.call h cb.ident s.state (cb.hook h s.state s.world.1).2).Genuine t :=
      ⟨cb, hsub cb (by simp), rfl, s.world.1, rfl⟩
    generalize cb.hook h s.state s.world.1 = r at hg
    obtain ⟨w, r⟩ := r
    cases r with
    | error e => exact hs.snoc rfl hg
    | ok o => cases o <;> exact hs.snoc rfl hg

end

theorem batchStep_genuine (t : Trainer W V) (k : Int) (b : Dict String V) (s : TState (W × List (Event V)) V)
    (hs : AllGenuine t s) : AllGenuine t (t.watch.batchStep k b s).1 := by
  have hdef : t.watch.batchStep k b s = thenDo (t.watch.loadBatch k b s) fun s =>
      thenDo (t.watch.checkSignal s) fun s => t.watch.batchHooks k s := rfl
  rw [hdef]
  refine AllGenuine.thenDo (hs.same (by rw [(loadBatch_spec t.watch k b s).1])) fun s hs =>
    AllGenuine.thenDo ?_ fun s hs => ?_
  · unfold Trainer.checkSignal Trainer.watch
    simp only
    have hg : ∀ ex, ((t.signal s.world.1).2 = .error ex ∨ (t.signal s.world.1).2 = .ok true ∧ ex = .shutdown) →
        (Event.stop ex : Event V).Genuine t := fun ex h => ⟨s.world.1, h⟩
    have hgo : (t.signal s.world.1).2 = .ok false → (Event.goOn : Event V).Genuine t := fun h => ⟨s.world.1, h⟩
    generalize t.signal s.world.1 = r at hg hgo
    obtain ⟨w, r⟩ := r
    cases r with
    | error e => exact hs.snoc rfl (hg e (Or.inl rfl))
    | ok v =>
      cases v with
      | true => exact hs.snoc rfl (hg .shutdown (Or.inr ⟨rfl, rfl⟩))
      | false => exact hs.snoc rfl (hgo rfl)
  · have hcyc : ∀ k' : Int, (t.watch.cyclic.filter (Trainer.divides k')) = (due k' t.callbacks).map Callback.watch := by
      intro k'
      rw [watch_cyclic, watch_divides, divides_due]
    have hdue : ∀ (k' : Int), ∀ cb ∈ due k' t.callbacks, cb ∈ t.callbacks := fun k' cb h =>
      (List.mem_filter.1 h).1
    refine AllGenuine.thenDo ?_ fun s hs => AllGenuine.thenDo (phase_genuine t _ _ (fun _ h => h) s hs) fun s hs =>
      AllGenuine.thenDo (phase_genuine t _ _ (fun _ h => h) s hs) fun s hs =>
      AllGenuine.thenDo (phase_genuine t _ _ (fun _ h => h) s hs) fun s hs => ?_
    · unfold Trainer.beginCycle
      rw [hcyc]
      exact phase_genuine t _ _ (hdue _) s hs
    · unfold Trainer.endCycle
      rw [hcyc]
      exact phase_genuine t _ _ (hdue _) s hs

theorem loop_genuine (t : Trainer W V) (fuel : Nat) (k : Int) (s : TState (W × List (Event V)) V)
    (hs : AllGenuine t s) : AllGenuine t (t.watch.loop fuel k s).1 := by
  induction fuel generalizing k s with
  | zero => exact hs
  | succ fuel ih =>
    unfold Trainer.loop
    have hn : t.watch.next s.world = match t.next s.world.1 with
        | (w', .error e) => ((w', s.world.2 ++ [.noData e]), .error e)
        | (w', .ok (some b)) => ((w', s.world.2 ++ [.batch b]), .ok (some b))
        | (w', .ok none) => ((w', s.world.2 ++ [.exhausted]), .ok none) := rfl
    rw [hn]
    have hg : ∀ ex, (t.next s.world.1).2 = .error ex → (Event.noData ex : Event V).Genuine t :=
      fun ex h => ⟨s.world.1, Or.inr h⟩
    have hb : ∀ b, (t.next s.world.1).2 = .ok (some b) → (Event.batch b).Genuine t := fun b h => ⟨s.world.1, h⟩
    have hx : (t.next s.world.1).2 = .ok none → (Event.exhausted : Event V).Genuine t := fun h => ⟨s.world.1, h⟩
    generalize t.next s.world.1 = r at hg hb hx
    obtain ⟨w, r⟩ := r
    cases r with
    | error e => exact hs.snoc rfl (hg e rfl)
    | ok o =>
      cases o with
      | none => exact hs.snoc rfl (hx rfl)
      | some b =>
        simp only
        have h1 : AllGenuine t { s with world := (w, s.world.2 ++ [.batch b]) } := hs.snoc rfl (hb b rfl)
        have h2 := batchStep_genuine t k b _ h1
        generalize t.watch.batchStep k b { s with world := (w, s.world.2 ++ [.batch b]) } = rr at h2
        obtain ⟨s', r⟩ := rr
        cases r with
        | error e => exact h2
        | ok u => exact ih (k + 1) s' h2

theorem prepare_genuine (t : Trainer W V) (s : TState (W × List (Event V)) V) (hs : AllGenuine t s) :
    AllGenuine t (t.watch.prepare s).1 := by
  unfold Trainer.prepare
  refine AllGenuine.thenDo ?_ fun s hs => phase_genuine t _ _ (fun _ h => h) s hs
  exact phase_genuine t _ _ (fun _ h => h) _ hs

theorem train_genuine (t : Trainer W V) (fuel : Nat) (s : TState (W × List (Event V)) V)
    (hs : AllGenuine t s) : AllGenuine t (t.watch.train fuel s).1 := by
  unfold Trainer.train
  have hp := prepare_genuine t s hs
  generalize t.watch.prepare s = r at hp
  obtain ⟨s₁, r⟩ := r
  cases r with
  | error e => cases e <;> exact hp
  | ok u =>
    simp only
    have hl : AllGenuine t (t.watch.runLoop fuel s₁).1 := by
      unfold Trainer.runLoop
      cases s₁.state.get? "bp_step" with
      | none => exact hp
      | some v =>
        simp only
        cases PyNum.toInt v with
        | none => exact hp
        | some k =>
          simp only
          have hit : t.watch.iter s₁.world = match t.iter s₁.world.1 with
            | (w', .error e) => ((w', s₁.world.2 ++ [.noData e]), .error e)
            | (w', .ok ()) => ((w', s₁.world.2), .ok ()) := rfl
          rw [hit]
          have hg : ∀ ex, (t.iter s₁.world.1).2 = .error ex → (Event.noData ex : Event V).Genuine t :=
            fun ex h => ⟨s₁.world.1, Or.inl h⟩
          generalize t.iter s₁.world.1 = r at hg
          obtain ⟨w, r⟩ := r
          cases r with
          | error e => exact hp.snoc rfl (hg e rfl)
          | ok u => exact loop_genuine t fuel k _ (hp.same rfl)
    generalize t.watch.runLoop fuel s₁ = r at hl
    obtain ⟨s₂, o⟩ := r
    cases o with
    | none => exact hl
    | some r =>
      cases r with
      | ok u => exact hl
      | error ex =>
        unfold Trainer.finish
        have := phase_genuine t (.endTraining ex) t.callbacks (fun _ h => h) s₂ hl
        have e : t.watch.callbacks = t.callbacks.map Callback.watch := rfl
        rw [e]
        simp only
        generalize Trainer.phase (.endTraining ex) (t.callbacks.map Callback.watch) s₂ = rr at this
        obtain ⟨s₃, r⟩ := rr
        cases r <;> exact this

/-! ## Longer runs -/

theorem loop_succ (t : Trainer W V) (fuel : Nat) (k : Int) (s : TState W V) :
    t.loop (fuel + 1) k s = match t.next s.world with
    | (w, .error e) => ({ s with world := w }, some (.error e))
    | (w, .ok none) => ({ s with world := w }, some (.ok ()))
    | (w, .ok (some batch)) => match t.batchStep k batch { s with world := w } with
      | (s, .error e) => (s, some (.error e))
      | (s, .ok ()) => t.loop fuel (k + 1) s := rfl

theorem loop_add (t : Trainer W V) (fuel m : Nat) (k : Int) (s : TState W V) (h : (t.loop fuel k s).2 = none) :
    t.loop (fuel + m) k s = t.loop m (k + fuel) (t.loop fuel k s).1 := by
  induction fuel generalizing k s with
  | zero => simp [Trainer.loop]
  | succ fuel ih =>
    rw [show fuel + 1 + m = (fuel + m) + 1 by omega]
    rw [loop_succ] at h ⊢
    rw [loop_succ]
    generalize t.next s.world = r at h ⊢
    obtain ⟨w, r⟩ := r
    cases r with
    | error e => simp at h
    | ok o =>
      cases o with
      | none => simp at h
      | some b =>
        simp only at h ⊢
        generalize t.batchStep k b { s with world := w } = rr at h ⊢
        obtain ⟨s', r⟩ := rr
        cases r with
        | error e => simp at h
        | ok u =>
          simp only at h ⊢
          rw [ih (k + 1) s' h, show k + 1 + (fuel : Int) = k + ((fuel + 1 : Nat) : Int) by push_cast; omega]

/-- A run that is still going on after `fuel` batches goes on with the same events. -/
theorem train_prefix (t : Trainer W V) (fuel m : Nat) (s : TState (W × List (Event V)) V)
    (h : (t.watch.train fuel s).2 = none) :
    (t.watch.train fuel s).1.world.2 <+: (t.watch.train (fuel + m) s).1.world.2 := by
  unfold Trainer.train at h ⊢
  generalize t.watch.prepare s = r at h ⊢
  obtain ⟨s₁, r⟩ := r
  cases r with
  | error e => cases e <;> simp at h
  | ok u =>
    simp only at h ⊢
    have hnone : (t.watch.runLoop fuel s₁).2 = none := by
      revert h
      generalize t.watch.runLoop fuel s₁ = r
      obtain ⟨s₂, o⟩ := r
      cases o with
      | none => intro _; rfl
      | some r =>
        cases r with
        | ok u => intro h; simp [Trainer.finish] at h
        | error ex =>
          intro h
          unfold Trainer.finish at h
          simp only at h
          generalize Trainer.phase (.endTraining ex) t.watch.callbacks s₂ = rr at h
          obtain ⟨s₃, r⟩ := rr
          cases r <;> simp at h
    rw [hnone]
    have e1 : (t.watch.finish (t.watch.runLoop fuel s₁).1 none).1 = (t.watch.runLoop fuel s₁).1 := rfl
    rw [e1]
    unfold Trainer.runLoop at hnone ⊢
    cases hv : s₁.state.get? "bp_step" with
    | none => rw [hv] at hnone; simp at hnone
    | some v =>
      rw [hv] at hnone
      simp only at hnone ⊢
      cases hi : PyNum.toInt v with
      | none => rw [hi] at hnone; simp at hnone
      | some k =>
        rw [hi] at hnone
        simp only at hnone ⊢
        generalize t.watch.iter s₁.world = r at hnone ⊢
        obtain ⟨w, r⟩ := r
        cases r with
        | error e => simp at hnone
        | ok u =>
          simp only at hnone ⊢
          rw [loop_add t.watch fuel m k _ hnone]
          obtain ⟨es, h1, _, h3⟩ := loop_traced t m (k + fuel) (t.watch.loop fuel k { s₁ with world := w }).1
          generalize t.watch.loop m (k + fuel) (t.watch.loop fuel k { s₁ with world := w }).1 = rr at h1 h3 ⊢
          obtain ⟨s₂, o⟩ := rr
          simp only at h1
          cases o with
          | none => exact ⟨es, h1.symm⟩
          | some r =>
            cases r with
            | ok u => exact ⟨es, h1.symm⟩
            | error ex =>
              unfold Trainer.finish
              have e : t.watch.callbacks = t.callbacks.map Callback.watch := rfl
              rw [e]
              simp only
              obtain ⟨cs, c1, _, _⟩ := phase_traced t.sizeKey 0 (.endTraining ex) t.callbacks s₂
              generalize Trainer.phase (.endTraining ex) (t.callbacks.map Callback.watch) s₂ = rr at c1
              obtain ⟨s₃, r⟩ := rr
              simp only at c1
              refine ⟨es ++ cs, ?_⟩
              rw [← List.append_assoc, ← h1]
              cases r <;> exact c1.symm

end Verif
