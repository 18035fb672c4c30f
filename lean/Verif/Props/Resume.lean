import Verif.Props.Checkpoint
import Verif.Props.Trainer

/-!
# Resuming a training run from a checkpoint (C79)
-/

namespace Verif

open Spec

variable {W : Type u} {V : Type v} [PyNum V]

/-- A run, seen from outside, that resumes at the counters `k` and `m`: the callback `i` returns them from
`restore_state`, after the events `a` and before the events `b`; nobody else returns counters, and batches say how
large they are. -/
structure Resumes (sizeKey : String) (size : Dict String V → Int) (k m : Int) (es a : List (Event V)) (i : Nat)
    (seen d : Dict String V) (b : List (Event V)) : Prop where
  split : es = a ++ .call .restoreState i seen (.ok (some d)) :: b
  nodup : d.keys.Nodup
  step : d.get? "bp_step" = some (PyNum.ofInt k)
  samples : d.get? "bp_samples" = some (PyNum.ofInt m)
  before : ∀ e ∈ a, Counted sizeKey size e
  after : ∀ e ∈ b, Counted sizeKey size e
  key : sizeKey ≠ "bp_step"

/-- The restored state has the counters. -/
theorem applyResult_counters {st d : Dict String V} (hnd : d.keys.Nodup) {key : String} {v : V} (h : d.get? key = some v) :
    (applyResult st (.ok (some d))).get? key = some v := by
  show (st.update d).get? key = _
  rw [Dict.get?_update _ _ hnd, h]

theorem count_batch_opening (cbs : List (Callback W V)) : (opening cbs).count .batch = 0 := by
  unfold opening
  rw [List.count_append, count_all, count_all]

/-- What happened before training began is the beginning of what happens in the run. -/
theorem prepare_prefix (t : Trainer W V) (fuel : Nat) (s : TState (W × List (Event V)) V)
    (hok : (t.watch.prepare s).2 = .ok ()) :
    (t.watch.prepare s).1.world.2 <+: (t.watch.train fuel s).1.world.2 := by
  unfold Trainer.train
  rcases hp : t.watch.prepare s with ⟨s₁, r⟩
  rw [hp] at hok
  simp only at hok
  subst hok
  simp only
  have hfin : ∀ (s₂ : TState (W × List (Event V)) V) (o : Option (Except Exc Unit)),
      s₂.world.2 <+: (t.watch.finish s₂ o).1.world.2 := by
    intro s₂ o
    unfold Trainer.finish
    split
    · exact List.prefix_rfl
    · exact List.prefix_rfl
    · rename_i ex
      obtain ⟨cs, c1, -⟩ := phase_traced t.sizeKey 0 (.endTraining ex) t.callbacks s₂
      have e : t.watch.callbacks = t.callbacks.map Callback.watch := rfl
      rw [e]
      generalize Trainer.phase (.endTraining ex) (t.callbacks.map Callback.watch) s₂ = rr at c1
      obtain ⟨s₃, r⟩ := rr
      cases r <;> exact ⟨cs, c1.symm⟩
  refine List.IsPrefix.trans ?_ (hfin _ _)
  unfold Trainer.runLoop
  split
  · exact List.prefix_rfl
  · split
    · exact List.prefix_rfl
    · rename_i k' _
      have hit : t.watch.iter s₁.world = match t.iter s₁.world.1 with
          | (w', .error e) => ((w', s₁.world.2 ++ [.noData e]), .error e)
          | (w', .ok ()) => ((w', s₁.world.2), .ok ()) := rfl
      rw [hit]
      rcases t.iter s₁.world.1 with ⟨w, r⟩
      cases r with
      | error e => exact ⟨[.noData e], rfl⟩
      | ok u =>
        obtain ⟨fs, g1, -⟩ := loop_traced t fuel k' { s₁ with world := (w, s₁.world.2) }
        exact ⟨fs, g1.symm⟩

omit [PyNum V] in
theorem count_batches_restore (cbs : List (Callback W V)) (k : Int) (n i : Nat) :
    (batches cbs k n).count (.hook .restoreState i) = 0 := by
  induction n generalizing k with
  | zero => rfl
  | succ n ih =>
    unfold batches oneBatch
    simp only [List.count_append, List.count_cons, ih]
    rw [count_all_ne (h := .restoreState) (h' := .beginCycle) i _ (by decide),
      count_all_ne (h := .restoreState) (h' := .beginBatch) i _ (by decide),
      count_all_ne (h := .restoreState) (h' := .backward) i _ (by decide),
      count_all_ne (h := .restoreState) (h' := .endBatch) i _ (by decide),
      count_all_ne (h := .restoreState) (h' := .endCycle) i _ (by decide)]
    simp

/-- `restore_state` is called in the opening only. -/
theorem run_count_restore {cbs : List (Callback W V)} {key : String} {st : Dict String V} {k : Int} {fuel : Nat}
    {es : List (Event V)} {o : Option Outcome} (h : Spec.Run cbs key st k fuel es o) (i : Nat) :
    (shapes es).count (.hook .restoreState i) ≤ (opening cbs).count (.hook .restoreState i) := by
  have hb := fun k n => count_batches_restore cbs k n i
  cases h with
  | failedEarly ex h1 _ _ => exact h1.sublist.count_le _
  | running h1 _ _ => rw [h1, List.count_append, hb]; omega
  | exhausted n _ h1 _ _ => rw [h1, List.count_append, List.count_append, hb]; simp
  | stopped es₁ es₂ n ex o' he _ hc hcl _ =>
    have h2 : (shapes es₂).count (.hook .restoreState i) = 0 := by
      have hz : (Spec.all (.endTraining ex) cbs).count (.hook .restoreState i) = 0 :=
        count_all_ne (h := .restoreState) (h' := .endTraining ex) i cbs (by simp)
      cases hcl with
      | done h _ _ => rw [h, hz]
      | raised e h _ _ =>
        have := h.sublist.count_le (.hook .restoreState i)
        omega
    have h1 : (shapes es₁).count (.hook .restoreState i) ≤ (opening cbs).count (.hook .restoreState i) := by
      cases hc with
      | hook _ h _ =>
        have := h.sublist.count_le (.hook .restoreState i)
        rw [List.count_append, hb] at this
        omega
      | loader h _ => rw [h, List.count_append, List.count_append, hb]; simp
      | signal h _ => rw [h, List.count_append, List.count_append, hb]; simp
      | noStep e st' _ _ h _ _ _ => rw [h]
      | noSize e st' _ h _ _ _ => rw [h, List.count_append, List.count_append, hb]; simp
    rw [he]
    unfold shapes at *
    rw [List.map_append, List.count_append]
    omega

/-- In a resumed run, training begins only after the counters have been restored. -/
theorem resumes_opening {t : Trainer W V} {size : Dict String V → Int} {k m : Int} {fuel : Nat} {w : W}
    {st : Dict String V} {a b : List (Event V)} {i : Nat} {seen d : Dict String V}
    (h : Resumes t.sizeKey size k m (events t fuel w st) a i seen d b)
    (hok : (t.watch.prepare ⟨(w, []), st⟩).2 = .ok ()) :
    ∃ b₀ b₁, b = b₀ ++ b₁ ∧
      (t.watch.prepare ⟨(w, []), st⟩).1.world.2 = a ++ .call .restoreState i seen (.ok (some d)) :: b₀ ∧
      shapes (a ++ .call .restoreState i seen (.ok (some d)) :: b₀) = opening t.callbacks := by
  obtain ⟨es, h1, h2, h3⟩ := prepare_traced t 1 ⟨(w, []), st⟩
  simp only [List.nil_append] at h1
  rcases h3 with ⟨_, hs, _⟩ | ⟨ex, hx, _⟩
  · obtain ⟨rest, hrest⟩ := prepare_prefix t fuel ⟨(w, []), st⟩ hok
    rw [h1] at hrest
    have hev : events t fuel w st = es ++ rest := hrest.symm
    obtain ⟨k', hr⟩ := C35_protocol t fuel w st
    have hcnt := run_count_restore hr i
    have hsplit := h.split
    rw [hev] at hsplit hcnt
    have hcr : (shapes rest).count (.hook .restoreState i) = 0 := by
      have : shapes (es ++ rest) = opening t.callbacks ++ shapes rest := by rw [← hs]; simp [shapes]
      rw [this, List.count_append] at hcnt
      omega
    rw [List.append_eq_append_iff] at hsplit
    rcases hsplit with ⟨a', ha, hb⟩ | ⟨b', hb, hc⟩
    · exfalso
      rw [List.count_eq_zero] at hcr
      apply hcr
      rw [hb]
      simp [shapes, Event.shape]
    · cases b' with
      | nil =>
        exfalso
        simp only [List.nil_append] at hc
        rw [List.count_eq_zero] at hcr
        apply hcr
        rw [← hc]
        simp [shapes, Event.shape]
      | cons x b₀ =>
        simp only [List.cons_append, List.cons.injEq] at hc
        obtain ⟨rfl, hc⟩ := hc
        exact ⟨b₀, rest, hc, by rw [h1, hb], by rw [← hb, hs]⟩
  · rw [hok] at hx; simp at hx

/-- So the first batch has the number that was restored. -/
theorem resumes_start {t : Trainer W V} {size : Dict String V → Int} {k m : Int} {fuel : Nat} {w : W}
    {st : Dict String V} {a b : List (Event V)} {i : Nat} {seen d : Dict String V}
    (h : Resumes t.sizeKey size k m (events t fuel w st) a i seen d b) :
    (t.watch.prepare ⟨(w, []), st⟩).2 = .ok () → ∀ v k',
      (t.watch.prepare ⟨(w, []), st⟩).1.state.get? "bp_step" = some v → PyNum.toInt v = some k' → k' = k := by
  intro hok v k' hv hk
  obtain ⟨b₀, b₁, hb, hlog, hsh⟩ := resumes_opening h hok
  obtain ⟨es, h1, h2, -⟩ := prepare_traced t 1 ⟨(w, []), st⟩
  simp only [List.nil_append] at h1
  rw [← h1, hlog] at h2
  obtain ⟨mid, -, g1⟩ := flows_split h2
  obtain ⟨g2, g3⟩ := g1
  have h0 : (shapes b₀).count .batch = 0 := by
    have := count_batch_opening t.callbacks
    rw [← hsh] at this
    unfold shapes at *
    rw [List.map_append, List.map_cons, List.count_append, List.count_cons] at this
    omega
  have := (flows_counted h.key g3 (fun e he => h.after e (by rw [hb]; simp [he])) m
    (applyResult_counters h.nodup h.samples)).2.1 h0
  rw [this, applyResult_counters h.nodup h.step] at hv
  injection hv with hv
  subst hv
  rw [PyNum.toInt_ofInt] at hk
  injection hk with hk
  exact hk.symm

omit [PyNum V] in
theorem totalSize_skip (size : Dict String V → Int) (a : List (Event V)) (ha : (shapes a).count .batch = 0)
    (b : List (Event V)) : totalSize size (a ++ b) = totalSize size b := by
  induction a with
  | nil => rfl
  | cons e a ih =>
    cases e with
    | batch b => simp [shapes, Event.shape] at ha
    | call h i s r => exact ih (by simpa [shapes, Event.shape] using ha)
    | exhausted => exact ih (by simpa [shapes, Event.shape] using ha)
    | noData e => exact ih (by simpa [shapes, Event.shape] using ha)
    | goOn => exact ih (by simpa [shapes, Event.shape] using ha)
    | stop e => exact ih (by simpa [shapes, Event.shape] using ha)

/-- **C79** (what happens). In every run that resumes at step `k` with `m` samples, a hook that runs after `n ≥ 1`
batches sees `bp_step = k + n - 1`: step `k` is done a second time. `bp_samples` goes on from `m`. -/
theorem C79_repeats_step (t : Trainer W V) (size : Dict String V → Int) (k m : Int) (fuel : Nat) (w : W)
    (st : Dict String V) (a b : List (Event V)) (i : Nat) (seen d : Dict String V)
    (hr : Resumes t.sizeKey size k m (events t fuel w st) a i seen d b) (a' b' : List (Event V)) (h : Hook) (i' : Nat)
    (seen' : Dict String V) (r : Except Exc (Option (Dict String V)))
    (hev : events t fuel w st = a' ++ .call h i' seen' r :: b') (hn : (shapes a').count .batch ≠ 0) :
    seen'.get? "bp_step" = some (PyNum.ofInt (k + (shapes a').count .batch - 1)) ∧
      seen'.get? "bp_samples" = some (PyNum.ofInt (m + totalSize size a')) := by
  have hf := (events_run t fuel w st k (resumes_start hr)).2
  -- the counters are restored before the first batch
  have hok : (t.watch.prepare ⟨(w, []), st⟩).2 = .ok () := by
    by_contra hne
    obtain ⟨es, h1, h2, h3⟩ := prepare_traced t 1 ⟨(w, []), st⟩
    simp only [List.nil_append] at h1
    rcases h3 with ⟨h4, _⟩ | ⟨ex, h4, h5, _⟩
    · exact hne h4
    · have he : events t fuel w st = es := by
        show (t.watch.train fuel ⟨(w, []), st⟩).1.world.2 = es
        unfold Trainer.train
        generalize t.watch.prepare ⟨(w, []), st⟩ = p at h1 h4
        obtain ⟨s₁, x⟩ := p
        simp only at h1 h4
        subst h4
        cases ex <;> exact h1
      have hc := h5.sublist.count_le .batch
      rw [count_batch_opening, ← he, hev] at hc
      unfold shapes at *
      rw [List.map_append, List.count_append] at hc
      omega
  obtain ⟨b₀, b₁, hb, -, hsh⟩ := resumes_opening hr hok
  have hop := count_batch_opening t.callbacks
  rw [← hsh] at hop
  have hsplit := hr.split
  rw [hev, hb] at hsplit
  rw [show a ++ Event.call .restoreState i seen (.ok (some d)) :: (b₀ ++ b₁)
    = (a ++ .call .restoreState i seen (.ok (some d)) :: b₀) ++ b₁ by simp, List.append_eq_append_iff] at hsplit
  rcases hsplit with ⟨x, hx, -⟩ | ⟨c, hc, -⟩
  · exfalso
    rw [hx] at hop
    unfold shapes at *
    rw [List.map_append, List.count_append] at hop
    omega
  · have hpre : ∃ a₁, a' = a ++ .call .restoreState i seen (.ok (some d)) :: a₁ := ⟨b₀ ++ c, by rw [hc]; simp⟩
    clear hc
    obtain ⟨a₁, rfl⟩ := hpre
    have hafter : ∀ e ∈ a₁, Counted t.sizeKey size e := by
      have := hr.split
      rw [hev] at this
      simp only [List.append_assoc, List.append_cancel_left_eq, List.cons_append, List.cons.injEq, true_and] at this
      exact fun e he => hr.after e (by rw [← this]; simp [he])
    rw [hev] at hf
    obtain ⟨mid, g0, g1⟩ := flows_split hf
    obtain ⟨g2, _⟩ := g1
    obtain ⟨mid', g3, g4⟩ := flows_split g0
    obtain ⟨g5, g6⟩ := g4
    have ha0 : (shapes a).count .batch = 0 := by
      unfold shapes at *
      rw [List.map_append, List.count_append] at hop
      omega
    have hcount : (shapes (a ++ .call .restoreState i seen (.ok (some d)) :: a₁)).count .batch
        = (shapes a₁).count .batch := by
      unfold shapes at *
      rw [List.map_append, List.count_append, ha0]
      simp [Event.shape]
    have htot := totalSize_skip size a ha0 (.call .restoreState i seen (.ok (some d)) :: a₁)
    have htot' : totalSize size (.call .restoreState i seen (.ok (some d)) :: a₁) = totalSize size a₁ := rfl
    obtain ⟨c1, -, c3⟩ := flows_counted hr.key g6 hafter m (applyResult_counters hr.nodup hr.samples)
    rw [hcount] at hn ⊢
    rw [htot, htot', g2, c1, c3 hn, ha0]
    simp

/-- **C79** (cycles). In a run that resumes at step `k`, a callback with a cycle `n > 1` that divides `k` (as the
checkpointer's does) gets `end_cycle` after the first batch, and has had no `begin_cycle` before. -/
theorem C79_cycle_unopened (t : Trainer W V) (size : Dict String V → Int) (k m : Int) (w : W)
    (st : Dict String V) (a b : List (Event V)) (i : Nat) (seen d : Dict String V)
    (hr : Resumes t.sizeKey size k m (events t 1 w st) a i seen d b) (hgo : (t.train 1 ⟨w, st⟩).2 = none)
    (hnd : (t.callbacks.map Callback.ident).Nodup) (cb : Callback W V) (hcb : cb ∈ t.callbacks) (n : Int) (hn : 1 < n)
    (hc : cb.cycle = some n) (hdiv : n ∣ k) :
    (shapes (events t 1 w st)).count (.hook .beginCycle cb.ident) = 0 ∧
      (shapes (events t 1 w st)).count (.hook .endCycle cb.ident) = 1 := by
  have hrun := (events_run t 1 w st k (resumes_start hr)).1
  have hs : shapes (events t 1 w st) = opening t.callbacks ++ batches t.callbacks k 1 := by
    cases hrun with
    | running h _ _ => exact h
    | failedEarly _ _ _ h => rw [hgo] at h; simp at h
    | exhausted _ _ _ _ h => rw [hgo] at h; simp at h
    | stopped _ _ _ _ _ _ _ _ _ h => rw [hgo] at h; simp at h
  have hnot : ¬ ∃ n', cb.cycle = some n' ∧ 0 < n' ∧ n' ∣ k - 1 := by
    rintro ⟨n', h1, _, h3⟩
    rw [hc] at h1
    injection h1 with h1
    subst h1
    have h4 := Int.dvd_sub hdiv h3
    rw [show k - (k - 1) = 1 by omega] at h4
    have := Int.le_of_dvd (by omega) h4
    omega
  rw [hs]
  simp only [batches, oneBatch, List.append_nil, List.count_append, List.count_cons]
  constructor
  · rw [count_opening _ _ _ (by decide) (by decide), count_all_due _ _ _ _ hnd hcb, if_neg hnot,
      count_all_ne (h := .beginCycle) (h' := .beginBatch) _ _ (by decide),
      count_all_ne (h := .beginCycle) (h' := .backward) _ _ (by decide),
      count_all_ne (h := .beginCycle) (h' := .endBatch) _ _ (by decide),
      count_all_ne (h := .beginCycle) (h' := .endCycle) _ _ (by decide)]
    rfl
  · rw [count_opening _ _ _ (by decide) (by decide), count_all_due _ _ _ _ hnd hcb, if_pos ⟨n, hc, by omega, hdiv⟩,
      count_all_ne (h := .endCycle) (h' := .beginBatch) _ _ (by decide),
      count_all_ne (h := .endCycle) (h' := .backward) _ _ (by decide),
      count_all_ne (h := .endCycle) (h' := .endBatch) _ _ (by decide),
      count_all_ne (h := .endCycle) (h' := .beginCycle) _ _ (by decide)]
    rfl

/-- **C79**, as one would have it: in a run that resumes after step `k`, the `n`-th batch is step `k + n`, and samples are
counted on. -/
def C79_claim (W V : Type) [PyNum V] : Prop :=
  ∀ (t : Trainer W V) (size : Dict String V → Int) (k m : Int) (fuel : Nat) (w : W) (st : Dict String V)
    (a b : List (Event V)) (i : Nat) (seen d : Dict String V),
    Resumes t.sizeKey size k m (events t fuel w st) a i seen d b → ∀ (a' b' : List (Event V)) (h : Hook) (i' : Nat)
      (seen' : Dict String V) (r : Except Exc (Option (Dict String V))),
      events t fuel w st = a' ++ .call h i' seen' r :: b' → (shapes a').count .batch ≠ 0 →
      seen'.get? "bp_step" = some (PyNum.ofInt (k + (shapes a').count .batch)) ∧
        seen'.get? "bp_samples" = some (PyNum.ofInt (m + totalSize size a'))

deriving instance DecidableEq for Event

namespace ResumeDemo

open CkptDemo

abbrev Val := Int ⊕ String
abbrev Wo := CkWorld Nat Nat Val

/-- A network that is a number. -/
def net : Restoree Nat Nat := ⟨"net", id, fun s _ _ => (s, .ok ())⟩

/-- The loss, which improves the network in every `backward`. -/
def loss : Callback Wo Val := ⟨0, 0, none, fun h _ w => match h with
  | .backward => ({ w with user := w.user + 1 }, .ok none)
  | _ => (w, .ok none)⟩

/-- Batches of 32; the run is cut off by its fuel. -/
def trainer (cbs : List (Callback Wo Val)) : Trainer Wo Val where
  callbacks := cbs
  sizeKey := "size"
  iter := fun w => (w, .ok ())
  next := fun w => (w, .ok (some [("size", .inl 32)]))
  signal := fun w => (w, .ok false)

/-- The first run: five batches, and a checkpoint every two steps. -/
def first : TState Wo Val :=
  ((trainer [loss, saverCallback 1 2 "run/checkpoints" [net]]).train 5 ⟨⟨0, ⟨[], []⟩, 0⟩, []⟩).1

/-- The checkpoints: file, network, counters. -/
def onDisk (w : Wo) : List (String × Option Nat × Option Val × Option Val) :=
  w.disk.files.map fun p => (p.1, Dict.get? p.2.states "net", Dict.get? p.2.training "bp_step",
    Dict.get? p.2.training "bp_samples")

/- The disk has a checkpoint of step 2 and one of step 4. -/
set_option synthInstance.maxSize 1000 in
example : onDisk first.world =
      [("run/checkpoints/checkpoint_0.tar", some 2, some (.inl 2), some (.inl 64)),
        ("run/checkpoints/checkpoint_1.tar", some 4, some (.inl 4), some (.inl 128))] := by decide +kernel

/-- The second run loads the checkpoint of step 4. -/
def again : Trainer Wo Val := trainer [loss, saverCallback 1 2 "run/checkpoints" [net],
  loaderCallback 2 ⟨"run/checkpoints", 1, ⟨true, true, true⟩, [net]⟩]

def start : Wo := ⟨0, first.world.disk, 0⟩

def evs : List (Event Val) := events again 1 start []

/- Its first batch is step 4 once more (of the network that has already done it), and the checkpointer, whose
cycle has not begun, saves it over the first checkpoint. -/
example : (evs.filterMap fun e => match e with
    | .call h 1 seen _ => some (h, Dict.get? seen "bp_step", Dict.get? seen "bp_samples")
    | _ => none) =
      [(.restoreState, some (.inl 1), some (.inl 0)), (.beginTraining, some (.inl 4), some (.inl 128)),
        (.beginBatch, some (.inl 4), some (.inl 160)), (.backward, some (.inl 4), some (.inl 160)),
        (.endBatch, some (.inl 4), some (.inl 160)), (.endCycle, some (.inl 4), some (.inl 160))] := by decide +kernel

set_option synthInstance.maxSize 1000 in
example : onDisk (again.train 1 ⟨start, []⟩).1.world =
      [("run/checkpoints/checkpoint_0.tar", some 5, some (.inl 4), some (.inl 160)),
        ("run/checkpoints/checkpoint_1.tar", some 4, some (.inl 4), some (.inl 128))] := by decide +kernel

/-- The size of a batch. -/
def size (b : Dict String Val) : Int := match Dict.get? b "size" with
  | some (.inl n) => n
  | _ => 0

def countedB : Event Val → Bool
  | .call _ _ _ (.ok (some d)) => !(Dict.keys d).contains "bp_step" && !(Dict.keys d).contains "bp_samples"
  | .batch b => decide ((Dict.keys b).Nodup ∧ "bp_step" ∉ Dict.keys b ∧ "bp_samples" ∉ Dict.keys b ∧
      (Dict.get? b "size").isSome ∧ (Dict.get? b "size").bind PyNum.toInt = some (size b))
  | _ => true

theorem counted (e : Event Val) (h : countedB e = true) : Counted "size" size e := by
  unfold countedB at h
  split at h
  · rintro d ⟨⟩
    simpa using h
  · rename_i b
    obtain ⟨h1, h2, h3, h4, h5⟩ := of_decide_eq_true h
    refine ⟨h1, h2, h3, ?_⟩
    cases hb : Dict.get? b "size" with
    | none => rw [hb] at h4; simp at h4
    | some v => rw [hb] at h5; exact ⟨v, rfl, h5⟩
  · rename_i h1 h2
    cases e with
    | call h' i s r => rintro d rfl; exact absurd rfl (h1 h' i s d)
    | batch b => exact absurd rfl (h2 b)
    | _ => trivial

/-- The events of the second run, cut where the loader returns. -/
def cut : List (Event Val) × List (Event Val) := evs.span fun e => match e with
  | .call .restoreState 2 _ _ => false
  | _ => true

def loaded : Dict String Val := [("latest_checkpoint", .inr "run/checkpoints/checkpoint_1.tar"), ("bp_step", .inl 4),
  ("bp_samples", .inl 128), ("checkpoint_index", .inl 1)]

def seen₀ : Dict String Val := [("bp_samples", .inl 0), ("bp_step", .inl 1)]

/-- The second run resumes at step 4, with 128 samples. -/
theorem resumes : Resumes again.sizeKey size 4 128 evs cut.1 2 seen₀ loaded cut.2.tail where
  split := by decide +kernel
  nodup := by decide +kernel
  step := rfl
  samples := rfl
  before := fun e he => counted e (List.all_eq_true.mp (show cut.1.all countedB = true by decide +kernel) e he)
  after := fun e he => counted e (List.all_eq_true.mp (show cut.2.tail.all countedB = true by decide +kernel) e he)
  key := by decide

/- So the theorems speak about it. -/
example : (shapes evs).count (.hook .beginCycle 1) = 0 ∧ (shapes evs).count (.hook .endCycle 1) = 1 :=
  C79_cycle_unopened again size 4 128 start [] _ _ _ _ _ resumes (by decide +kernel) (by decide +kernel)
    (saverCallback 1 2 "run/checkpoints" [net]) (by simp [again, trainer]) 2 (by decide) rfl (by decide)

end ResumeDemo

/-- **C79** fails: the first hook after the first batch of the second run sees step 4 again. -/
theorem C79_false : ¬ C79_claim ResumeDemo.Wo ResumeDemo.Val := by
  intro h
  obtain ⟨a', i', seen', r, b', hev, hn, hs⟩ : ∃ a' i' seen' r b',
      ResumeDemo.evs = a' ++ .call .beginBatch i' seen' r :: b' ∧ (shapes a').count .batch = 1 ∧
        Dict.get? seen' "bp_step" = some (.inl 4) :=
    ⟨ResumeDemo.evs.take 8, 0, [("bp_samples", .inl 160), ("bp_step", .inl 4),
      ("latest_checkpoint", .inr "run/checkpoints/checkpoint_1.tar"), ("checkpoint_index", .inl 1), ("size", .inl 32)],
      .ok none, ResumeDemo.evs.drop 9, by decide +kernel, by decide +kernel, by decide +kernel⟩
  have := (h ResumeDemo.again ResumeDemo.size 4 128 1 ResumeDemo.start [] _ _ _ _ _ ResumeDemo.resumes a' b' .beginBatch
    i' seen' r hev (by omega)).1
  rw [hs, hn] at this
  revert this
  decide

end Verif
