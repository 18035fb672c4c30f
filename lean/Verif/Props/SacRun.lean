import Verif.Model.SacRun
import Verif.Model.Numerics
import Verif.Props.Trainer

/-!
# C130: a resumed run of soft actor-critic learns what the uninterrupted run learns
-/

namespace Verif

namespace SacRun

variable {N A O L E B T : Type}

/-! ## Specification -/

namespace Spec

/-- The same is learned, and the same was logged: everything but the positions of the schedules. -/
structure Same (s s' : State N A O L E) : Prop where
  q1 : s.q1.net = s'.q1.net ∧ s.q1.opt = s'.q1.opt ∧ s.q1.logs = s'.q1.logs
  q2 : s.q2.net = s'.q2.net ∧ s.q2.opt = s'.q2.opt ∧ s.q2.logs = s'.q2.logs
  pi : s.pi.net = s'.pi.net ∧ s.pi.opt = s'.pi.opt ∧ s.pi.logs = s'.pi.logs
  alpha : s.alpha.net = s'.alpha.net ∧ s.alpha.opt = s'.alpha.opt ∧ s.alpha.logs = s'.alpha.logs
  targets : s.q1t = s'.q1t ∧ s.q2t = s'.q2t
  targetLogs : s.targetLogs = s'.targetLogs

/-- The same outcome of a step, with positions of the schedule that are related again -/
def Alike {N O L : Type} (R : L → L → Prop) (x y : Learned N O L) : Prop := x.net = y.net ∧ x.opt = y.opt ∧ x.logs = y.logs ∧ R x.sched y.sched

/-- Positions of the schedules that are related by `R` and `Q` cannot be told apart. For schedules that are constant (the default) all
positions are related. -/
structure Blind (lib : Lib N A O L E B T) (R : L → L → Prop) (Q : E → E → Prop) : Prop where
  qLoss : ∀ b t n o l l', R l l' → Alike R (lib.qLoss b t n o l) (lib.qLoss b t n o l')
  piLoss : ∀ b a q q' n o l l', R l l' → Alike R (lib.piLoss b a q q' n o l) (lib.piLoss b a q q' n o l')
  alphaLoss : ∀ b n e e' a o l l', Q e e' → R l l' → Alike R (lib.alphaLoss b n e a o l) (lib.alphaLoss b n e' a o l')
  alphaLogs : ∀ a e e', Q e e' → lib.alphaLogs a e = lib.alphaLogs a e'
  next : ∀ e e', Q e e' → Q (lib.nextEntropy e) (lib.nextEntropy e')

/-- The schedules are in positions that are related. -/
structure Schedules (R : L → L → Prop) (Q : E → E → Prop) (s s' : State N A O L E) : Prop where
  q1 : R s.q1.sched s'.q1.sched
  q2 : R s.q2.sched s'.q2.sched
  pi : R s.pi.sched s'.pi.sched
  alpha : R s.alpha.sched s'.alpha.sched
  entropy : Q s.entropy s'.entropy

/-- A process as it is made, with any networks, optimizers and schedules. -/
def Made (q1t q2t : Option N) (s : State N A O L E) : Prop :=
  ∃ q1 q2 pi a opt sched e, s = State.new q1 q2 pi a opt sched e q1t q2t

end Spec

/-! ## The order of the callbacks -/

theorem split_orders {W V : Type} (l : List (Callback W V)) (h : l.Pairwise fun a b => a.order ≤ b.order)
    (h01 : ∀ a ∈ l, a.order = 0 ∨ a.order = 1) :
    l = l.filter (fun cb => decide (cb.order = 0)) ++ l.filter (fun cb => decide (cb.order = 1)) := by
  induction l with
  | nil => rfl
  | cons a l ih =>
    have ih := ih h.of_cons fun x hx => h01 x (by simp [hx])
    rcases h01 a (by simp) with ha | ha
    · simp only [List.filter_cons, ha]
      simpa using ih
    · have hall : ∀ x ∈ l, x.order = 1 := by
        intro x hx
        have := List.rel_of_pairwise_cons h hx
        rcases h01 x (by simp [hx]) with h' | h' <;> omega
      have h0 : l.filter (fun cb => decide (cb.order = 0)) = [] := by
        rw [List.filter_eq_nil_iff]
        intro x hx
        simp [hall x hx]
      rw [h0] at ih
      simp only [List.filter_cons, ha, h0]
      simpa using ih

/-- What a resumed run has in addition -/
def loaders (names : Names) (folder : String) : Option Int → List (Callback (World N A O L E B T) (Val B T))
  | none => []
  | some i => [loaderCallback 0 ⟨folder, i, ⟨true, true, true⟩, restorees names⟩]

theorem callbacks_eq (lib : Lib N A O L E B T) (size : B → Int) (order : List Part) (names : Names) (folder : String) (interval : Int)
    (resume : Option Int) :
    (trainer lib size order names folder interval resume).callbacks =
      loaders names folder resume ++ order.map (lossCallback lib) ++ [saverCallback 6 interval folder (restorees names)] ++
        [targetCallback lib] := by
  have hc := C35_order (loaders names folder resume ++ order.map (lossCallback lib) ++
    [targetCallback lib, saverCallback 6 interval folder (restorees names)]) "batch_size"
    (fun w : World N A O L E B T => (w, .ok ())) (nextBatch size) (fun w => (w, .ok false))
  obtain ⟨h1, h2, h3⟩ := hc
  have e : trainer lib size order names folder interval resume =
      Trainer.new (loaders names folder resume ++ order.map (lossCallback lib) ++
        [targetCallback lib, saverCallback 6 interval folder (restorees names)]) "batch_size"
        (fun w : World N A O L E B T => (w, .ok ())) (nextBatch size) (fun w => (w, .ok false)) := by
    cases resume <;> rfl
  have hl : ∀ a ∈ (loaders names folder resume ++ order.map (lossCallback lib) : List (Callback (World N A O L E B T) (Val B T))),
      a.order = 0 := by
    intro a ha
    rw [List.mem_append] at ha
    rcases ha with ha | ha
    · cases resume with
      | none => simp [loaders] at ha
      | some i =>
        simp only [loaders, List.mem_singleton] at ha
        rw [ha]
        rfl
    · obtain ⟨p, _, rfl⟩ := List.mem_map.1 ha
      rfl
  rw [e, split_orders _ h2, h3, h3]
  · simp only [List.filter_append]
    have f0 : ∀ l : List (Callback (World N A O L E B T) (Val B T)), (∀ a ∈ l, a.order = 0) →
        l.filter (fun cb => decide (cb.order = 0)) = l ∧ l.filter (fun cb => decide (cb.order = 1)) = [] := by
      intro l hl
      constructor
      · rw [List.filter_eq_self]
        intro a ha
        simp [hl a ha]
      · rw [List.filter_eq_nil_iff]
        intro a ha
        simp [hl a ha]
    have g1 := f0 _ fun a ha => hl a (List.mem_append_left _ ha)
    have g2 := f0 _ fun a ha => hl a (List.mem_append_right _ ha)
    rw [g1.1, g1.2, g2.1, g2.2]
    simp [targetCallback, saverCallback]
  · intro a ha
    have := h1.mem_iff.1 ha
    rw [List.mem_append] at this
    rcases this with h | h
    · exact Or.inl (hl a h)
    · simp only [List.mem_cons, List.not_mem_nil, or_false] at h
      rcases h with rfl | rfl
      · exact Or.inr rfl
      · exact Or.inl rfl

/-- Does it have a cycle? -/
def isCyclic {W V : Type} (cb : Callback W V) : Bool :=
  match cb.cycle with
  | none => false
  | some n => decide (n > 0)

theorem cyclic_eq (lib : Lib N A O L E B T) (size : B → Int) (order : List Part) (names : Names) (folder : String) {interval : Int}
    (hi : 0 < interval) (resume : Option Int) :
    (trainer lib size order names folder interval resume).cyclic = [saverCallback 6 interval folder (restorees names)] := by
  have e : (trainer lib size order names folder interval resume).cyclic =
      (trainer lib size order names folder interval resume).callbacks.filter isCyclic := by
    unfold Trainer.cyclic
    congr 1
  rw [e, callbacks_eq, List.filter_append, List.filter_append, List.filter_append]
  have h1 : (loaders names folder resume : List (Callback (World N A O L E B T) (Val B T))).filter isCyclic = [] := by
    rw [List.filter_eq_nil_iff]
    intro a ha
    cases resume with
    | none => simp [loaders] at ha
    | some i =>
      simp only [loaders, List.mem_singleton] at ha
      rw [ha]
      simp [loaderCallback, isCyclic]
  have h2 : (order.map (lossCallback lib)).filter isCyclic = [] := by
    rw [List.filter_eq_nil_iff]
    intro a ha
    obtain ⟨p, _, rfl⟩ := List.mem_map.1 ha
    simp [lossCallback, isCyclic]
  rw [h1, h2]
  simp [saverCallback, targetCallback, hi, isCyclic]

/-! ## Phases -/

theorem phase_append {W V : Type} (h : Hook) (l l' : List (Callback W V)) (s : TState W V) :
    Trainer.phase h (l ++ l') s = thenDo (Trainer.phase h l s) fun s => Trainer.phase h l' s := by
  induction l generalizing s with
  | nil => rfl
  | cons a l ih =>
    rw [List.cons_append]
    simp only [Trainer.phase]
    rcases Trainer.callHook h a s with ⟨s', e | u⟩
    · rfl
    · simp only [thenDo]
      rw [ih]
      rfl

/-- Hooks that do nothing -/
theorem phase_quiet {W V : Type} (h : Hook) (l : List (Callback W V)) (s : TState W V)
    (hq : ∀ cb ∈ l, ∀ st w, cb.hook h st w = (w, .ok none)) : Trainer.phase h l s = (s, .ok ()) := by
  induction l with
  | nil => rfl
  | cons a l ih =>
    unfold Trainer.phase Trainer.callHook
    rw [hq a (by simp)]
    exact ih fun cb hcb => hq cb (by simp [hcb])

theorem phase_losses (lib : Lib N A O L E B T) (h : Hook) (g : Part → State N A O L E → State N A O L E) (order : List Part)
    (w : World N A O L E B T) (st : Dict String (Val B T)) (hg : ∀ p w, (lossCallback lib p).hook h st w = (onState (g p) w, .ok none)) :
    Trainer.phase h (order.map (lossCallback lib)) ⟨w, st⟩ = (⟨onState (fun s => order.foldl (fun s p => g p s) s) w, st⟩, .ok ()) := by
  induction order generalizing w with
  | nil => rfl
  | cons p order ih =>
    rw [List.map_cons]
    unfold Trainer.phase Trainer.callHook
    simp only [hg, thenDo]
    rw [ih]
    rfl

theorem loaders_quiet (names : Names) (folder : String) (resume : Option Int) (h : Hook) (hh : h ≠ .restoreState) :
    ∀ cb ∈ (loaders names folder resume : List (Callback (World N A O L E B T) (Val B T))), ∀ st w, cb.hook h st w = (w, .ok none) := by
  intro cb hcb st w
  cases resume with
  | none => simp [loaders] at hcb
  | some i =>
    simp only [loaders, List.mem_singleton] at hcb
    rw [hcb]
    cases h <;> first | rfl | exact absurd rfl hh

/-! ## One batch -/

/-- What a batch does to what is learned -/
def step (lib : Lib N A O L E B T) (order : List Part) (s : State N A O L E) (b : B) : State N A O L E :=
  let t := targetOf lib b s
  let s := { s with targetLogs := note t.2 s.targetLogs }
  let s := order.foldl (fun s p => stepPart lib b t.1 s p) s
  let s := order.foldl (fun s p => endPart lib s p) s
  endTarget lib s

/-- What a checkpoint holds -/
def content (names : Names) (path : String) (bpStep bpSamples : Val B T) (index : Int) (w : Proc N A O L E B) :
    CkptFile (Saved N A O) (Val B T) :=
  ⟨(restorees names).map fun r => (r.name, r.stateDict w),
    [("latest_checkpoint", PyStr.ofStr path), ("bp_step", bpStep), ("bp_samples", bpSamples), ("checkpoint_index", PyNum.ofInt index)]⟩

theorem phase_beginBatch (lib : Lib N A O L E B T) (size : B → Int) (order : List Part) (names : Names) (folder : String) (interval : Int)
    (resume : Option Int) (w : World N A O L E B T) (st : Dict String (Val B T)) (b : B) (t : Option T)
    (hd : st.get? "default" = some (.group b t)) :
    Trainer.phase .beginBatch (trainer lib size order names folder interval resume).callbacks ⟨w, st⟩ =
      (⟨onState (fun s => { s with targetLogs := note (targetOf lib b s).2 s.targetLogs }) w,
        st.set "default" (.group b (some (targetOf lib b w.user.learn).1))⟩, .ok ()) := by
  rw [callbacks_eq, phase_append, phase_quiet]
  · simp only [thenDo, Trainer.phase, Trainer.callHook, targetCallback, hd, Dict.update, List.foldl]
  · intro cb hcb st w
    rw [List.mem_append, List.mem_append] at hcb
    rcases hcb with (h | h) | h
    · exact loaders_quiet names folder resume .beginBatch (by simp) cb h st w
    · obtain ⟨p, _, rfl⟩ := List.mem_map.1 h
      rfl
    · simp only [List.mem_singleton] at h
      rw [h]
      rfl

theorem phase_backward (lib : Lib N A O L E B T) (size : B → Int) (order : List Part) (names : Names) (folder : String) (interval : Int)
    (resume : Option Int) (w : World N A O L E B T) (st : Dict String (Val B T)) (b : B) (t : T)
    (hd : st.get? "default" = some (.group b (some t))) :
    Trainer.phase .backward (trainer lib size order names folder interval resume).callbacks ⟨w, st⟩ =
      (⟨onState (fun s => order.foldl (fun s p => stepPart lib b t s p) s) w, st⟩, .ok ()) := by
  rw [callbacks_eq, phase_append, phase_append, phase_append, phase_quiet _ (loaders names folder resume)]
  · simp only [thenDo]
    rw [phase_losses lib .backward (fun p s => stepPart lib b t s p) order w st]
    · simp only [thenDo, Trainer.phase, Trainer.callHook, targetCallback, saverCallback]
    · intro p w
      simp only [lossCallback, hd]
  · exact loaders_quiet names folder resume .backward (by simp)

theorem phase_endBatch (lib : Lib N A O L E B T) (size : B → Int) (order : List Part) (names : Names) (folder : String) (interval : Int)
    (resume : Option Int) (w : World N A O L E B T) (st : Dict String (Val B T)) :
    Trainer.phase .endBatch (trainer lib size order names folder interval resume).callbacks ⟨w, st⟩ =
      (⟨onState (fun s => endTarget lib (order.foldl (fun s p => endPart lib s p) s)) w, st⟩, .ok ()) := by
  rw [callbacks_eq, phase_append, phase_append, phase_append, phase_quiet _ (loaders names folder resume)]
  · simp only [thenDo]
    rw [phase_losses lib .endBatch (fun p s => endPart lib s p) order w st]
    · simp only [thenDo, Trainer.phase, Trainer.callHook, targetCallback, saverCallback]
      rfl
    · intro p w
      rfl
  · exact loaders_quiet names folder resume .endBatch (by simp)

/-- The counters in the trainer's state -/
structure Counts (k m : Int) (st : Dict String (Val B T)) : Prop where
  step : st.get? "bp_step" = some (.int k)
  samples : st.get? "bp_samples" = some (.int m)

theorem batchStep_eq (lib : Lib N A O L E B T) (size : B → Int) (order : List Part) (names : Names) (folder : String) {interval : Int}
    (hi : 0 < interval) (resume : Option Int) (w : World N A O L E B T) (st : Dict String (Val B T)) (k m : Int) (b : B)
    (hf : folder ∈ w.disk.folders) (hm : st.get? "bp_samples" = some (.int m)) :
    ∃ st' d' i', (trainer lib size order names folder interval resume).batchStep k
        [("default", .group b none), ("batch_size", .int (size b))] ⟨w, st⟩ =
        (⟨⟨⟨step lib order w.user.learn b, w.user.data⟩, d', i'⟩, st'⟩, .ok ()) ∧ Counts k (m + size b) st' ∧ folder ∈ d'.folders ∧
      (k % interval = 0 → d'.files.get? (checkpointPath folder (i' - 1)) =
        some (content names (checkpointPath folder (i' - 1)) (.int k) (.int (m + size b)) (i' - 1)
          ⟨step lib order w.user.learn b, w.user.data⟩)) := by
  unfold Trainer.batchStep
  have hload : (trainer lib size order names folder interval resume).loadBatch k
      [("default", .group b none), ("batch_size", .int (size b))] ⟨w, st⟩ =
      (⟨w, ((((st.set "default" (.group b none)).set "batch_size" (.int (size b))).set "bp_step" (.int k)).set "bp_samples"
        (.int (m + size b)))⟩, .ok ()) := by
    unfold Trainer.loadBatch
    have e : (trainer lib size order names folder interval resume).sizeKey = "batch_size" := rfl
    have h1 : (((st.set "default" (.group b none)).set "batch_size" (.int (size b))).set "bp_step" (.int k)).get? "bp_samples" =
        some (.int m) := by simp [Dict.get?_set, hm]
    have h2 : (((st.set "default" (.group b none)).set "batch_size" (.int (size b))).set "bp_step" (.int k)).get? "batch_size" =
        some (.int (size b) : Val B T) := by simp [Dict.get?_set]
    simp only [Dict.update, List.foldl, e, PyNum.ofInt, h1, h2, PyNum.toInt]
  rw [hload]
  set st1 := ((((st.set "default" (.group b none)).set "batch_size" (.int (size b))).set "bp_step" (.int k)).set "bp_samples"
    (.int (m + size b))) with hst1
  have hsig : (trainer lib size order names folder interval resume).checkSignal ⟨w, st1⟩ = (⟨w, st1⟩, .ok ()) := rfl
  have hbc : (trainer lib size order names folder interval resume).beginCycle k ⟨w, st1⟩ = (⟨w, st1⟩, .ok ()) := by
    unfold Trainer.beginCycle
    apply phase_quiet
    intro cb hcb st w
    have := (List.mem_filter.1 hcb).1
    rw [cyclic_eq lib size order names folder hi resume, List.mem_singleton] at this
    rw [this]
    rfl
  simp only [thenDo, hsig, hbc]
  have hd1 : st1.get? "default" = some (.group b none) := by simp [hst1, Dict.get?_set]
  rw [phase_beginBatch lib size order names folder interval resume w st1 b none hd1]
  simp only
  set st2 := st1.set "default" (.group b (some (targetOf lib b w.user.learn).1)) with hst2
  have hd2 : st2.get? "default" = some (.group b (some (targetOf lib b w.user.learn).1)) := by simp [hst2]
  rw [phase_backward lib size order names folder interval resume _ st2 b _ hd2]
  simp only
  rw [phase_endBatch lib size order names folder interval resume]
  simp only
  have hstep : st2.get? "bp_step" = some (.int k) := by simp [hst2, hst1, Dict.get?_set]
  have hsamp : st2.get? "bp_samples" = some (.int (m + size b)) := by simp [hst2, hst1, Dict.get?_set]
  unfold Trainer.endCycle
  rw [cyclic_eq lib size order names folder hi resume]
  by_cases hk : k % interval = 0
  · have hdv : Trainer.divides k (saverCallback 6 interval folder (restorees names) : Callback (World N A O L E B T) (Val B T)) = true := by
      simp [Trainer.divides, saverCallback, hk]
    simp only [List.filter_cons, hdv, List.filter_nil, if_true, Trainer.phase, Trainer.callHook]
    simp only [saverCallback, hstep, hsamp, Saver.endCycle, onState, hf, if_true, thenDo]
    refine ⟨_, _, _, rfl, ⟨?_, ?_⟩, hf, fun _ => ?_⟩
    · simp [Dict.update, Dict.get?_set, hstep]
    · simp [Dict.update, Dict.get?_set, hsamp]
    · simp only [Int.add_sub_cancel, Dict.get?_set_self]
      rfl
  · have hdv : Trainer.divides k (saverCallback 6 interval folder (restorees names) : Callback (World N A O L E B T) (Val B T)) = false := by
      simp [Trainer.divides, saverCallback, hk]
    simp only [List.filter_cons, hdv, List.filter_nil, Trainer.phase]
    exact ⟨_, _, _, rfl, ⟨hstep, hsamp⟩, hf, fun h => absurd h hk⟩

/-! ## Many batches -/

theorem loop_eq (lib : Lib N A O L E B T) (size : B → Int) (order : List Part) (names : Names) (folder : String) {interval : Int}
    (hi : 0 < interval) (resume : Option Int) (n : Nat) (w : World N A O L E B T) (st : Dict String (Val B T)) (k m : Int)
    (hf : folder ∈ w.disk.folders) (hm : st.get? "bp_samples" = some (.int m)) (hn : n ≤ w.user.data.length) :
    ∃ st' d' i', (trainer lib size order names folder interval resume).loop n k ⟨w, st⟩ =
        (⟨⟨⟨(w.user.data.take n).foldl (step lib order) w.user.learn, w.user.data.drop n⟩, d', i'⟩, st'⟩, none) ∧
      (0 < n → (k + n - 1) % interval = 0 → ∃ m', d'.files.get? (checkpointPath folder (i' - 1)) =
        some (content names (checkpointPath folder (i' - 1)) (.int (k + n - 1)) (.int m') (i' - 1)
          ⟨(w.user.data.take n).foldl (step lib order) w.user.learn, w.user.data.drop n⟩)) ∧ folder ∈ d'.folders := by
  induction n generalizing w st k m with
  | zero =>
    exact ⟨st, w.disk, w.index, rfl, fun h => absurd h (by omega), hf⟩
  | succ n ih =>
    obtain ⟨⟨s, data⟩, d, i⟩ := w
    cases data with
    | nil => simp at hn
    | cons b data =>
      obtain ⟨st1, d1, i1, h1, h2, h3, h4⟩ := batchStep_eq lib size order names folder hi resume ⟨⟨s, data⟩, d, i⟩ st k m b hf hm
      obtain ⟨st2, d2, i2, g1, g2, g3⟩ := ih ⟨⟨step lib order s b, data⟩, d1, i1⟩ st1 (k + 1) (m + size b) h3 h2.samples
        (by simpa using hn)
      refine ⟨st2, d2, i2, ?_, fun _ hk => ?_, g3⟩
      · unfold Trainer.loop
        have e : (trainer lib size order names folder interval resume).next ⟨⟨s, b :: data⟩, d, i⟩ =
          (⟨⟨s, data⟩, d, i⟩, .ok (some [("default", .group b none), ("batch_size", .int (size b))])) := rfl
        simp only [e, h1]
        exact g1
      · cases n with
        | zero =>
          simp only [Trainer.loop, Prod.mk.injEq, and_true, TState.mk.injEq, CkWorld.mk.injEq] at g1
          obtain ⟨⟨_, rfl, rfl⟩, _⟩ := g1
          have hk' : k % interval = 0 := by simpa using hk
          refine ⟨m + size b, ?_⟩
          have := h4 hk'
          simpa using this
        | succ n =>
          have e : k + 1 + ((n + 1 : Nat) : Int) - 1 = k + ((n + 1 + 1 : Nat) : Int) - 1 := by push_cast; ring
          obtain ⟨m', hm'⟩ := g2 (by omega) (by rw [e]; exact hk)
          rw [e] at hm'
          exact ⟨m', hm'⟩

/-- Training has begun at step `k`. -/
theorem train_eq (lib : Lib N A O L E B T) (size : B → Int) (order : List Part) (names : Names) (folder : String) {interval : Int}
    (hi : 0 < interval) (resume : Option Int) (n : Nat) (w w1 : World N A O L E B T) (st : Dict String (Val B T)) (k m : Int)
    (hp : (trainer lib size order names folder interval resume).prepare ⟨w, []⟩ = (⟨w1, st⟩, .ok ()))
    (hf : folder ∈ w1.disk.folders) (hc : Counts k m st) (hn : n ≤ w1.user.data.length) :
    let w' := after (trainer lib size order names folder interval resume) n w
    w'.user = ⟨(w1.user.data.take n).foldl (step lib order) w1.user.learn, w1.user.data.drop n⟩ ∧
      (0 < n → (k + n - 1) % interval = 0 → ∃ m', w'.disk.files.get? (checkpointPath folder (w'.index - 1)) =
        some (content names (checkpointPath folder (w'.index - 1)) (.int (k + n - 1)) (.int m') (w'.index - 1) w'.user)) ∧
      folder ∈ w'.disk.folders := by
  obtain ⟨st', d', i', h1, h2, h3⟩ := loop_eq lib size order names folder hi resume n w1 st k m hf hc.samples hn
  have : (trainer lib size order names folder interval resume).train n ⟨w, []⟩ =
      (⟨⟨⟨(w1.user.data.take n).foldl (step lib order) w1.user.learn, w1.user.data.drop n⟩, d', i'⟩, st'⟩, none) := by
    unfold Trainer.train
    rw [hp]
    simp only
    have hr : (trainer lib size order names folder interval resume).runLoop n ⟨w1, st⟩ =
        (trainer lib size order names folder interval resume).loop n k ⟨w1, st⟩ := by
      unfold Trainer.runLoop
      rw [hc.step]
      rfl
    rw [hr, h1]
    rfl
  unfold after
  rw [this]
  exact ⟨rfl, h2, h3⟩

/-! ## The beginning -/

theorem mem_makeFolder {S V : Type} (folder : String) (d : CkDisk S V) : folder ∈ (makeFolder folder d).folders := by
  unfold makeFolder
  split
  · assumption
  · simp

/-- `begin_training` makes the folder. -/
theorem phase_beginTraining (lib : Lib N A O L E B T) (size : B → Int) (order : List Part) (names : Names) (folder : String) (interval : Int)
    (resume : Option Int) (w : World N A O L E B T) (st : Dict String (Val B T)) :
    Trainer.phase .beginTraining (trainer lib size order names folder interval resume).callbacks ⟨w, st⟩ =
      (⟨{ w with disk := makeFolder folder w.disk }, st⟩, .ok ()) := by
  rw [callbacks_eq, phase_append, phase_append, phase_quiet _ (loaders names folder resume ++ order.map (lossCallback lib))]
  · simp only [thenDo, Trainer.phase, Trainer.callHook, targetCallback, saverCallback]
  · intro cb hcb st w
    rw [List.mem_append] at hcb
    rcases hcb with h | h
    · exact loaders_quiet names folder resume .beginTraining (by simp) cb h st w
    · obtain ⟨p, _, rfl⟩ := List.mem_map.1 h
      rfl

theorem prepare_fresh (lib : Lib N A O L E B T) (size : B → Int) (order : List Part) (names : Names) (folder : String) (interval : Int)
    (w : World N A O L E B T) :
    (trainer lib size order names folder interval none).prepare ⟨w, []⟩ =
      (⟨{ w with disk := makeFolder folder w.disk }, [("bp_samples", .int 0), ("bp_step", .int 1)]⟩, .ok ()) := by
  unfold Trainer.prepare
  simp only []
  rw [phase_quiet .restoreState]
  · simp only [thenDo]
    rw [phase_beginTraining]
    rfl
  · rw [callbacks_eq]
    intro cb hcb st w
    simp only [loaders, List.nil_append, List.mem_append, List.mem_singleton] at hcb
    rcases hcb with (h | rfl) | rfl
    · obtain ⟨p, _, rfl⟩ := List.mem_map.1 h
      rfl
    · rfl
    · rfl

/-- Logs as these callbacks have them: no windows -/
def Plain (l : Logs) : Prop := l.windowed = [] ∧ l.defaultLength = 250

/-- The logs that a process has after loading -/
theorem load_plain {l l' : Logs} (h : Plain l) (h' : Plain l') : l'.loadStateDict l.stateDict = (l, .ok ()) := by
  obtain ⟨s, w, c, hi, d⟩ := l
  obtain ⟨s', w', c', hi', d'⟩ := l'
  obtain ⟨rfl, rfl⟩ := h
  obtain ⟨rfl, rfl⟩ := h'
  rfl

structure AllPlain (s : State N A O L E) : Prop where
  q1 : Plain s.q1.logs
  q2 : Plain s.q2.logs
  pi : Plain s.pi.logs
  alpha : Plain s.alpha.logs
  target : Plain s.targetLogs

theorem note_plain (xs : List (String × Rat)) {l : Logs} (h : Plain l) : Plain (note xs l) := by
  unfold note
  induction xs generalizing l with
  | nil => exact h
  | cons x xs ih => exact ih ⟨h.1, h.2⟩

theorem step_plain (lib : Lib N A O L E B T) (order : List Part) {s : State N A O L E} (h : AllPlain s) (b : B) :
    AllPlain (step lib order s b) := by
  have h1 : ∀ (t : T) (s : State N A O L E) (p : Part), AllPlain s → AllPlain (stepPart lib b t s p) := by
    intro t s p h
    cases p
    · exact ⟨note_plain _ h.q1, h.q2, h.pi, h.alpha, h.target⟩
    · exact ⟨h.q1, note_plain _ h.q2, h.pi, h.alpha, h.target⟩
    · exact ⟨h.q1, h.q2, note_plain _ h.pi, h.alpha, h.target⟩
    · exact ⟨h.q1, h.q2, h.pi, note_plain _ h.alpha, h.target⟩
  have h2 : ∀ (s : State N A O L E) (p : Part), AllPlain s → AllPlain (endPart lib s p) := by
    intro s p h
    cases p
    · exact h
    · exact h
    · exact h
    · exact ⟨h.q1, h.q2, h.pi, note_plain _ h.alpha, h.target⟩
  have h3 : ∀ (f : State N A O L E → Part → State N A O L E), (∀ s p, AllPlain s → AllPlain (f s p)) → ∀ s, AllPlain s →
      AllPlain (order.foldl f s) := by
    intro f hf
    induction order with
    | nil => intro s hs; exact hs
    | cons p order ih => intro s hs; exact ih _ (hf s p hs)
  have g1 : AllPlain { s with targetLogs := note (targetOf lib b s).2 s.targetLogs } := ⟨h.q1, h.q2, h.pi, h.alpha, note_plain _ h.target⟩
  have g2 := h3 _ (h1 (targetOf lib b s).1) _ g1
  have g3 := h3 _ h2 _ g2
  exact ⟨g3.q1, g3.q2, g3.pi, g3.alpha, g3.target⟩

theorem fold_plain (lib : Lib N A O L E B T) (order : List Part) {s : State N A O L E} (h : AllPlain s) (bs : List B) :
    AllPlain (bs.foldl (step lib order) s) := by
  induction bs generalizing s with
  | nil => exact h
  | cons b bs ih => exact ih (step_plain lib order h b)

/-- What a process has learned after it has loaded what another one had saved -/
def restored (saved mine : State N A O L E) : State N A O L E where
  q1 := ⟨saved.q1.net, saved.q1.opt, mine.q1.sched, saved.q1.logs⟩
  q2 := ⟨saved.q2.net, saved.q2.opt, mine.q2.sched, saved.q2.logs⟩
  pi := ⟨saved.pi.net, saved.pi.opt, mine.pi.sched, saved.pi.logs⟩
  alpha := ⟨saved.alpha.net, saved.alpha.opt, mine.alpha.sched, saved.alpha.logs⟩
  entropy := mine.entropy
  q1t := mine.q1t
  q2t := mine.q2t
  targetLogs := saved.targetLogs

theorem load_loss {N : Type} {c c' : Loss N O L} (h : Plain c.logs) (h' : Plain c'.logs) :
    c'.load c.cb.stateDict ⟨true, true, true⟩ = (⟨c.net, c.opt, c'.sched, c.logs⟩, .ok ()) := by
  simp [Loss.load, LossCb.loadStateDict, Loss.cb, LossCb.stateDict, LossCb.loadOptimizer, LossCb.loadLogs, load_plain h h', Res.lift]

theorem load_alpha {s s' : State N A O L E} (h : Plain s.alpha.logs) (h' : Plain s'.alpha.logs) :
    s'.loadAlpha s.alphaCb.stateDict ⟨true, true, true⟩ =
      ({ s' with alpha := ⟨s.alpha.net, s.alpha.opt, s'.alpha.sched, s.alpha.logs⟩ }, .ok ()) := by
  simp [State.loadAlpha, AlphaCb.loadStateDict, AlphaCb.stateDict, State.alphaCb, LossCb.loadStateDict, LossCb.stateDict,
    LossCb.loadOptimizer, LossCb.loadLogs, load_plain h h', Res.lift]

/-- The names of the callbacks are different. -/
def Distinct (names : Names) : Prop := [names .q1, names .q2, names .pi, names .alpha, "QTarget"].Nodup

theorem loadAll_eq {names : Names} (hd : Distinct names) (saved mine : Proc N A O L E B) (hs : AllPlain saved.learn)
    (hm : AllPlain mine.learn) :
    loadAll ((restorees names).map fun r => (r.name, r.stateDict saved)) ⟨true, true, true⟩ (restorees names) mine =
      (⟨restored saved.learn mine.learn, mine.data⟩, .ok ()) := by
  obtain ⟨n1, n2, n3, n4⟩ : (names .q1 ≠ names .q2 ∧ names .q1 ≠ names .pi ∧ names .q1 ≠ names .alpha ∧ names .q1 ≠ "QTarget") ∧
      (names .q2 ≠ names .pi ∧ names .q2 ≠ names .alpha ∧ names .q2 ≠ "QTarget") ∧ (names .pi ≠ names .alpha ∧ names .pi ≠ "QTarget") ∧
      names .alpha ≠ "QTarget" := by
    unfold Distinct at hd
    simp only [List.nodup_cons, List.mem_cons, List.not_mem_nil, or_false, not_or, not_false_eq_true, List.nodup_nil, and_true] at hd
    tauto
  have ha : ∀ s' : State N A O L E, s'.alpha = mine.learn.alpha → s'.loadAlpha saved.learn.alphaCb.stateDict ⟨true, true, true⟩ =
      ({ s' with alpha := ⟨saved.learn.alpha.net, saved.learn.alpha.opt, s'.alpha.sched, saved.learn.alpha.logs⟩ }, .ok ()) :=
    fun s' h => load_alpha hs.alpha (h ▸ hm.alpha)
  have ht : ∀ s' : State N A O L E, s'.targetLogs = mine.learn.targetLogs →
      s'.loadTarget saved.learn.targetLogs.stateDict ⟨true, true, true⟩ = ({ s' with targetLogs := saved.learn.targetLogs }, .ok ()) := by
    intro s' h
    unfold State.loadTarget
    rw [h, load_plain hs.target hm.target]
    rfl
  simp only [restorees, List.map_cons, List.map_nil, loadAll, restoreeOf, targetRestoree, Dict.get?, n1.1, n1.2.1, n1.2.2.1, n1.2.2.2,
    n2.1, n2.2.1, n2.2.2, n3.1, n3.2, n4, if_false, if_true, thenDo,
    load_loss hs.q1 hm.q1, load_loss hs.q2 hm.q2, load_loss hs.pi hm.pi, toExc]
  rw [ha]
  · simp only []
    rw [ht]
    · rfl
    · rfl
  · rfl

theorem prepare_resumed (lib : Lib N A O L E B T) (size : B → Int) (order : List Part) {names : Names} (hd : Distinct names)
    (folder : String) (interval i : Int) (w : World N A O L E B T) (saved : Proc N A O L E B) (k m : Int)
    (hs : AllPlain saved.learn) (hm : AllPlain w.user.learn)
    (hf : folder ∈ w.disk.folders) (hfile : w.disk.files.get? (checkpointPath folder i) =
      some (content names (checkpointPath folder i) (.int k) (.int m) i saved)) :
    ∃ st, (trainer lib size order names folder interval (some i)).prepare ⟨w, []⟩ =
      (⟨⟨⟨restored saved.learn w.user.learn, w.user.data⟩, makeFolder folder w.disk, w.index⟩, st⟩, .ok ()) ∧ Counts k m st := by
  unfold Trainer.prepare
  simp only []
  have e : ∀ st : Dict String (Val B T),
      Trainer.phase .restoreState (trainer lib size order names folder interval (some i)).callbacks ⟨w, st⟩ =
      (⟨⟨⟨restored saved.learn w.user.learn, w.user.data⟩, w.disk, w.index⟩,
        st.update (content names (checkpointPath folder i) (.int k) (.int m) i saved).training⟩, .ok ()) := by
    intro st
    rw [callbacks_eq, phase_append, phase_append, phase_append]
    have h1 : Trainer.phase .restoreState (loaders names folder (some i)) ⟨w, st⟩ =
        (⟨⟨⟨restored saved.learn w.user.learn, w.user.data⟩, w.disk, w.index⟩,
          st.update (content names (checkpointPath folder i) (.int k) (.int m) i saved).training⟩, .ok ()) := by
      have hl := loadAll_eq hd saved w.user hs hm
      simp only [loaders, Trainer.phase, Trainer.callHook, loaderCallback, CkptLoader.restore, hfile, hf, if_true]
      simp only [content] at hl ⊢
      rw [hl]
      rfl
    rw [h1]
    simp only [thenDo]
    rw [phase_quiet .restoreState (order.map (lossCallback lib))]
    · rfl
    · intro cb hcb st w
      obtain ⟨p, _, rfl⟩ := List.mem_map.1 hcb
      rfl
  rw [e]
  simp only [thenDo]
  rw [phase_beginTraining]
  refine ⟨_, rfl, ?_, ?_⟩
  · simp [content, Dict.update, Dict.get?_set]
  · simp [content, Dict.update, Dict.get?_set]

/-! ## Whole runs -/

/-- A fresh run of `n` batches -/
theorem after_fresh (lib : Lib N A O L E B T) (size : B → Int) (order : List Part) (names : Names) (folder : String) {interval : Int}
    (hi : 0 < interval) (n : Nat) (w : World N A O L E B T) (hn : n ≤ w.user.data.length) :
    let w' := after (trainer lib size order names folder interval none) n w
    w'.user = ⟨(w.user.data.take n).foldl (step lib order) w.user.learn, w.user.data.drop n⟩ ∧
      (0 < n → (n : Int) % interval = 0 → ∃ m', w'.disk.files.get? (checkpointPath folder (w'.index - 1)) =
        some (content names (checkpointPath folder (w'.index - 1)) (.int n) (.int m') (w'.index - 1) w'.user)) ∧
      folder ∈ w'.disk.folders := by
  have h := train_eq lib size order names folder hi none n w _ _ 1 0 (prepare_fresh lib size order names folder interval w)
    (mem_makeFolder folder w.disk) ⟨rfl, rfl⟩ hn
  have e : (1 : Int) + n - 1 = n := by ring
  rw [e] at h
  exact h

/-- A run that was resumed, of `n` batches -/
theorem after_resumed (lib : Lib N A O L E B T) (size : B → Int) (order : List Part) {names : Names} (hd : Distinct names)
    (folder : String) {interval : Int} (hi : 0 < interval) (i : Int) (n : Nat) (w : World N A O L E B T) (saved : Proc N A O L E B)
    (k m : Int) (hs : AllPlain saved.learn) (hm : AllPlain w.user.learn) (hf : folder ∈ w.disk.folders)
    (hfile : w.disk.files.get? (checkpointPath folder i) = some (content names (checkpointPath folder i) (.int k) (.int m) i saved))
    (hn : n ≤ w.user.data.length) :
    (after (trainer lib size order names folder interval (some i)) n w).user =
      ⟨(w.user.data.take n).foldl (step lib order) (restored saved.learn w.user.learn), w.user.data.drop n⟩ := by
  obtain ⟨st, hp, hc⟩ := prepare_resumed lib size order hd folder interval i w saved k m hs hm hf hfile
  exact (train_eq lib size order names folder hi (some i) n w _ st k m hp (mem_makeFolder folder w.disk) hc hn).1

theorem made_plain {s : State N A O L E} {q1t q2t : Option N} (h : Spec.Made q1t q2t s) : AllPlain s := by
  obtain ⟨q1, q2, pi, a, opt, sched, e, rfl⟩ := h
  exact ⟨⟨rfl, rfl⟩, ⟨rfl, rfl⟩, ⟨rfl, rfl⟩, ⟨rfl, rfl⟩, ⟨rfl, rfl⟩⟩

/-! ## The claims -/

/-- The state of a run of `k` batches, of which checkpoints were written, of a process that starts as `first` -/
def run (lib : Lib N A O L E B T) (size : B → Int) (order : List Part) (names : Names) (folder : String) (interval : Int)
    (first : State N A O L E) (bs : List B) (d : CkDisk (Saved N A O) (Val B T)) (k : Nat) : World N A O L E B T :=
  after (trainer lib size order names folder interval none) k ⟨⟨first, bs⟩, d, 0⟩

/-- After that a process that starts as `again` loads the last checkpoint and runs for `n` batches, with the batches that follow. -/
def resumed (lib : Lib N A O L E B T) (size : B → Int) (order : List Part) (names : Names) (folder : String) (interval : Int)
    (again : State N A O L E) (bs : List B) (w : World N A O L E B T) (k n : Nat) : World N A O L E B T :=
  after (trainer lib size order names folder interval (some (w.index - 1))) n ⟨⟨again, bs.drop k⟩, w.disk, 0⟩

/-- The claim: a process that is started again, made in the same way with other random parameters, and that loads the checkpoint learns
what the first one would have learned. (All schedules are constant.) -/
def C130_claim : Prop := ∀ (N A O L E B T : Type) (lib : Lib N A O L E B T) (size : B → Int) (order : List Part) (names : Names)
  (folder : String) (interval : Int) (first again : State N A O L E) (bs : List B) (d : CkDisk (Saved N A O) (Val B T)) (k n : Nat),
  Distinct names → 0 < interval → 0 < k → (k : Int) % interval = 0 → k + n ≤ bs.length →
  Spec.Blind lib (fun _ _ => True) (fun _ _ => True) → Spec.Made none none first → Spec.Made none none again →
    Spec.Same (resumed lib size order names folder interval again bs (run lib size order names folder interval first bs d k) k n).user.learn
      (run lib size order names folder interval first bs d (k + n)).user.learn

/-- What both runs have learned -/
theorem C130_runs (lib : Lib N A O L E B T) (size : B → Int) (order : List Part) {names : Names} (hd : Distinct names)
    (folder : String) {interval : Int} (hi : 0 < interval) {first again : State N A O L E} (hp : AllPlain first) (hp' : AllPlain again)
    (bs : List B) (d : CkDisk (Saved N A O) (Val B T)) {k : Nat} (n : Nat) (hk : 0 < k) (hki : (k : Int) % interval = 0)
    (hl : k + n ≤ bs.length) :
    (run lib size order names folder interval first bs d (k + n)).user.learn = (bs.take (k + n)).foldl (step lib order) first ∧
    (resumed lib size order names folder interval again bs (run lib size order names folder interval first bs d k) k n).user.learn =
      ((bs.drop k).take n).foldl (step lib order) (restored ((bs.take k).foldl (step lib order) first) again) := by
  have h1 := after_fresh lib size order names folder hi (k + n) ⟨⟨first, bs⟩, d, 0⟩ hl
  have h2 := after_fresh lib size order names folder hi k ⟨⟨first, bs⟩, d, 0⟩ (by simp only; omega)
  refine ⟨congrArg Proc.learn h1.1, ?_⟩
  unfold resumed run
  simp only at h2
  obtain ⟨hu, hfile, hf⟩ := h2
  obtain ⟨m', hfile⟩ := hfile hk hki
  generalize hw : after (trainer lib size order names folder interval none) k ⟨⟨first, bs⟩, d, 0⟩ = w at hu hfile hf
  rw [hu] at hfile
  rw [after_resumed lib size order hd folder hi (w.index - 1) n ⟨⟨again, bs.drop k⟩, w.disk, 0⟩ _ k m' (fold_plain lib order hp _) hp' hf
    hfile (by simp only [List.length_drop]; omega)]

/-- C130: when the checkpoint has been loaded, networks, temperature, optimizers and logs are those of the first process; the target
networks are those that were given to the new process, or copies of its own critics before it loaded the checkpoint. -/
theorem C130_loaded (lib : Lib N A O L E B T) (size : B → Int) (order : List Part) {names : Names} (hd : Distinct names)
    (folder : String) {interval : Int} (hi : 0 < interval) {first again : State N A O L E} {q1t q2t : Option N}
    (hp : Spec.Made none none first) (hp' : Spec.Made q1t q2t again) (bs : List B) (d : CkDisk (Saved N A O) (Val B T)) {k : Nat}
    (hk : 0 < k) (hki : (k : Int) % interval = 0) (hl : k ≤ bs.length) :
    let w := run lib size order names folder interval first bs d k
    let s := (resumed lib size order names folder interval again bs w k 0).user.learn
    Spec.Same s { w.user.learn with q1t := q1t.getD again.q1.net, q2t := q2t.getD again.q2.net } := by
  have ht : again.q1t = q1t.getD again.q1.net ∧ again.q2t = q2t.getD again.q2.net := by
    obtain ⟨q1, q2, pi, a, opt, sched, e, rfl⟩ := hp'
    exact ⟨rfl, rfl⟩
  rw [← ht.1, ← ht.2]
  obtain ⟨h1, h2⟩ := C130_runs lib size order hd folder hi (made_plain hp) (made_plain hp') bs d 0 hk hki hl
  simp only [Nat.add_zero] at h1
  simp only [h1, h2]
  exact ⟨⟨rfl, rfl, rfl⟩, ⟨rfl, rfl, rfl⟩, ⟨rfl, rfl, rfl⟩, ⟨rfl, rfl, rfl⟩, ⟨rfl, rfl⟩, rfl⟩

theorem of_thenDo {W : Type u} {r : W × Except Exc Unit} {f : W → W × Except Exc Unit} {w : W} (h : thenDo r f = (w, .ok ())) :
    r.2 = .ok () ∧ f r.1 = (w, .ok ()) := by
  obtain ⟨a, b⟩ := r
  cases b with
  | error e => simp [thenDo] at h
  | ok u => exact ⟨rfl, h⟩

theorem of_toExc {r : Except Err Unit} (h : toExc r = .ok ()) : r = .ok () := by
  cases r with
  | ok u => rfl
  | error e => simp [toExc] at h

theorem of_load {N O L : Type} {s : LossSaved N O} {c : Loss N O L} (h : (c.load s ⟨true, true, true⟩).2 = .ok ()) :
    s.network = some (c.load s ⟨true, true, true⟩).1.net ∧ s.optimizer = some (c.load s ⟨true, true, true⟩).1.opt ∧
      (c.load s ⟨true, true, true⟩).1.sched = c.sched := by
  obtain ⟨sn, so, sl⟩ := s
  obtain ⟨n, o, l, g⟩ := c
  cases sn with
  | none => simp [Loss.load, Loss.cb, LossCb.loadStateDict] at h
  | some n' =>
    cases so with
    | none => simp [Loss.load, Loss.cb, LossCb.loadStateDict, LossCb.loadOptimizer] at h
    | some o' => simp [Loss.load, Loss.cb, LossCb.loadStateDict, LossCb.loadOptimizer, LossCb.loadLogs, Res.lift]

theorem of_loadAlpha {s : LossSaved A O} {w : State N A O L E} (h : (w.loadAlpha s ⟨true, true, true⟩).2 = .ok ()) :
    ∃ a o g, s.network = some a ∧ s.optimizer = some o ∧
      (w.loadAlpha s ⟨true, true, true⟩).1 = { w with alpha := ⟨a, o, w.alpha.sched, g⟩ } := by
  obtain ⟨sn, so, sl⟩ := s
  cases sn with
  | none => simp [State.loadAlpha, State.alphaCb, AlphaCb.loadStateDict] at h
  | some n' =>
    cases so with
    | none => simp [State.loadAlpha, State.alphaCb, AlphaCb.loadStateDict, LossCb.loadStateDict, LossCb.loadOptimizer, Res.lift] at h
    | some o' =>
      exact ⟨n', o', _, rfl, rfl, by
        simp [State.loadAlpha, State.alphaCb, AlphaCb.loadStateDict, LossCb.loadStateDict, LossCb.loadOptimizer, LossCb.loadLogs, Res.lift]
        rfl⟩

/-- C130: whatever is in the file, loading either fails or leaves what the file has for each of the losses. Nothing that the file lacks is
passed over. -/
theorem C130_any_file {names : Names} {folder : String} {i : Int} {d : CkDisk (Saved N A O) (Val B T)} {w w' : Proc N A O L E B}
    {res : Dict String (Val B T)}
    (h : CkptLoader.restore ⟨folder, i, ⟨true, true, true⟩, restorees names⟩ d w = (w', .ok res)) :
    ∃ file, d.files.get? (checkpointPath folder i) = some file ∧ res = file.training ∧
      (∃ s, file.states.get? (names .q1) = some (.loss s) ∧ s.network = some w'.learn.q1.net ∧ s.optimizer = some w'.learn.q1.opt) ∧
      (∃ s, file.states.get? (names .q2) = some (.loss s) ∧ s.network = some w'.learn.q2.net ∧ s.optimizer = some w'.learn.q2.opt) ∧
      (∃ s, file.states.get? (names .pi) = some (.loss s) ∧ s.network = some w'.learn.pi.net ∧ s.optimizer = some w'.learn.pi.opt) ∧
      (∃ s, file.states.get? (names .alpha) = some (.alpha s) ∧ s.network = some w'.learn.alpha.net ∧
        s.optimizer = some w'.learn.alpha.opt) ∧
      (∃ s, file.states.get? "QTarget" = some (.logs s)) ∧
      w'.learn.q1t = w.learn.q1t ∧ w'.learn.q2t = w.learn.q2t ∧ w'.learn.entropy = w.learn.entropy ∧ w'.data = w.data := by
  unfold CkptLoader.restore at h
  simp only at h
  split at h
  rotate_left
  · simp at h
  cases hf : d.files.get? (checkpointPath folder i) with
  | none => simp [hf] at h
  | some file =>
    simp only [hf] at h
    cases hl : loadAll file.states ⟨true, true, true⟩ (restorees names) w with
    | mk w1 r =>
      cases r with
      | error e => simp [hl] at h
      | ok u =>
        simp only [hl, if_true, Prod.mk.injEq, Except.ok.injEq] at h
        obtain ⟨rfl, rfl⟩ := h
        refine ⟨file, rfl, rfl, ?_⟩
        simp only [restorees, loadAll, restoreeOf, targetRestoree] at hl
        cases h1 : file.states.get? (names .q1) with
        | none => simp [h1] at hl
        | some s1 =>
          cases s1 with
          | alpha s => simp [h1, thenDo] at hl
          | logs s => simp [h1, thenDo] at hl
          | loss s1 =>
            simp only [h1] at hl
            obtain ⟨g1, hl⟩ := of_thenDo hl
            cases h2 : file.states.get? (names .q2) with
            | none => simp [h2] at hl
            | some s2 =>
              cases s2 with
              | alpha s => simp [h2, thenDo] at hl
              | logs s => simp [h2, thenDo] at hl
              | loss s2 =>
                simp only [h2] at hl
                obtain ⟨g2, hl⟩ := of_thenDo hl
                cases h3 : file.states.get? (names .pi) with
                | none => simp [h3] at hl
                | some s3 =>
                  cases s3 with
                  | alpha s => simp [h3, thenDo] at hl
                  | logs s => simp [h3, thenDo] at hl
                  | loss s3 =>
                    simp only [h3] at hl
                    obtain ⟨g3, hl⟩ := of_thenDo hl
                    cases h4 : file.states.get? (names .alpha) with
                    | none => simp [h4] at hl
                    | some s4 =>
                      cases s4 with
                      | loss s => simp [h4, thenDo] at hl
                      | logs s => simp [h4, thenDo] at hl
                      | alpha s4 =>
                        simp only [h4] at hl
                        obtain ⟨g4, hl⟩ := of_thenDo hl
                        cases h5 : file.states.get? "QTarget" with
                        | none => simp [h5] at hl
                        | some s5 =>
                          cases s5 with
                          | loss s => simp [h5, thenDo] at hl
                          | alpha s => simp [h5, thenDo] at hl
                          | logs s5 =>
                            simp only [h5] at hl
                            obtain ⟨g5, hl⟩ := of_thenDo hl
                            simp only [Prod.mk.injEq, and_true] at hl
                            obtain ⟨a, o, g, k1, k2, k3⟩ := of_loadAlpha (of_toExc g4)
                            have e1 := of_load (of_toExc g1)
                            have e2 := of_load (of_toExc g2)
                            have e3 := of_load (of_toExc g3)
                            rw [k3] at hl
                            simp only [State.loadTarget, if_true] at hl
                            subst hl
                            exact ⟨⟨s1, rfl, e1.1, e1.2.1⟩, ⟨s2, rfl, e2.1, e2.2.1⟩, ⟨s3, rfl, e3.1, e3.2.1⟩, ⟨s4, rfl, k1, k2⟩, ⟨s5, rfl⟩,
                              rfl, rfl, rfl, rfl⟩

/-- A file in which the second critic's optimizer is missing is refused with a `KeyError`. -/
example : (loadAll (W := Proc Nat Nat Nat Unit Unit Unit) [("q1", .loss ⟨some 1, some 2, Logs.stateDict (Logs.new 250)⟩), ("q2", .loss ⟨some 3, none, Logs.stateDict (Logs.new 250)⟩)] ⟨true, true, true⟩
    (restorees fun | .q1 => "q1" | .q2 => "q2" | .pi => "pi" | .alpha => "alpha")
    ⟨State.new 0 0 0 0 (0, 0, 0, 0) ((), (), (), ()) () none none, []⟩).2 = .error (.error .keyError) := by
  simp [restorees, loadAll, restoreeOf, Dict.get?, thenDo, Loss.load, Loss.cb, LossCb.loadStateDict, LossCb.loadOptimizer, LossCb.loadLogs,
    State.new, Res.lift, toExc]
  rfl

/-! ### What holds -/

section

variable {R : L → L → Prop} {Q : E → E → Prop} {lib : Lib N A O L E B T}

/-- Two losses that differ at most in the position of the schedule -/
def Near {N O L : Type} (R : L → L → Prop) (c c' : Loss N O L) : Prop := c.net = c'.net ∧ c.opt = c'.opt ∧ c.logs = c'.logs ∧ R c.sched c'.sched

structure NearState (R : L → L → Prop) (Q : E → E → Prop) (s s' : State N A O L E) : Prop where
  q1 : Near R s.q1 s'.q1
  q2 : Near R s.q2 s'.q2
  pi : Near R s.pi s'.pi
  alpha : Near R s.alpha s'.alpha
  entropy : Q s.entropy s'.entropy
  targets : s.q1t = s'.q1t ∧ s.q2t = s'.q2t
  logs : s.targetLogs = s'.targetLogs

theorem near_learn {N O L : Type} {R : L → L → Prop} {c c' : Loss N O L} (h : Near R c c') {x y : Learned N O L} (hx : Spec.Alike R x y) :
    Near R (c.learn x) (c'.learn y) := by
  refine ⟨hx.1, hx.2.1, ?_, hx.2.2.2⟩
  simp only [Loss.learn]
  rw [hx.2.2.1, h.2.2.1]

theorem near_stepPart (hb : Spec.Blind lib R Q) (b : B) (t : T) {s s' : State N A O L E} (h : NearState R Q s s') (p : Part) :
    NearState R Q (stepPart lib b t s p) (stepPart lib b t s' p) := by
  cases p
  · refine ⟨near_learn h.q1 ?_, h.q2, h.pi, h.alpha, h.entropy, h.targets, h.logs⟩
    rw [h.q1.1, h.q1.2.1]
    exact hb.qLoss _ _ _ _ _ _ h.q1.2.2.2
  · refine ⟨h.q1, near_learn h.q2 ?_, h.pi, h.alpha, h.entropy, h.targets, h.logs⟩
    rw [h.q2.1, h.q2.2.1]
    exact hb.qLoss _ _ _ _ _ _ h.q2.2.2.2
  · refine ⟨h.q1, h.q2, near_learn h.pi ?_, h.alpha, h.entropy, h.targets, h.logs⟩
    rw [h.pi.1, h.pi.2.1, h.alpha.1, h.q1.1, h.q2.1]
    exact hb.piLoss _ _ _ _ _ _ _ _ h.pi.2.2.2
  · refine ⟨h.q1, h.q2, h.pi, near_learn h.alpha ?_, h.entropy, h.targets, h.logs⟩
    rw [h.alpha.1, h.alpha.2.1, h.pi.1]
    exact hb.alphaLoss _ _ _ _ _ _ _ _ h.entropy h.alpha.2.2.2

theorem near_endPart (hb : Spec.Blind lib R Q) {s s' : State N A O L E} (h : NearState R Q s s') (p : Part) :
    NearState R Q (endPart lib s p) (endPart lib s' p) := by
  cases p
  · exact h
  · exact h
  · exact h
  · refine ⟨h.q1, h.q2, h.pi, ⟨?_, h.alpha.2.1, ?_, h.alpha.2.2.2⟩, hb.next _ _ h.entropy, h.targets, h.logs⟩
    · simp only [endPart, endAlpha]
      rw [h.alpha.1]
    · simp only [endPart, endAlpha]
      rw [h.alpha.1, h.alpha.2.2.1, hb.alphaLogs _ _ _ h.entropy]

theorem near_fold {f : State N A O L E → Part → State N A O L E}
    (hf : ∀ s s' p, NearState R Q s s' → NearState R Q (f s p) (f s' p)) (order : List Part) {s s' : State N A O L E}
    (h : NearState R Q s s') : NearState R Q (order.foldl f s) (order.foldl f s') := by
  induction order generalizing s s' with
  | nil => exact h
  | cons p order ih => exact ih (hf s s' p h)

theorem near_step (hb : Spec.Blind lib R Q) (order : List Part) {s s' : State N A O L E} (h : NearState R Q s s') (b : B) :
    NearState R Q (step lib order s b) (step lib order s' b) := by
  have ht : targetOf lib b s = targetOf lib b s' := by
    unfold targetOf
    rw [h.pi.1, h.alpha.1, h.targets.1, h.targets.2]
  have g1 : NearState R Q { s with targetLogs := note (targetOf lib b s).2 s.targetLogs }
      { s' with targetLogs := note (targetOf lib b s').2 s'.targetLogs } := by
    refine ⟨h.q1, h.q2, h.pi, h.alpha, h.entropy, h.targets, ?_⟩
    simp only
    rw [ht, h.logs]
  unfold step
  simp only
  rw [← ht] at g1 ⊢
  have g3 := near_fold (fun s s' p h => near_endPart hb h p) order
    (near_fold (fun _ _ p h => near_stepPart hb b (targetOf lib b s).1 h p) order g1)
  refine ⟨g3.q1, g3.q2, g3.pi, g3.alpha, g3.entropy, ⟨?_, ?_⟩, g3.logs⟩
  · simp only [endTarget]
    rw [g3.q1.1, g3.targets.1]
  · simp only [endTarget]
    rw [g3.q2.1, g3.targets.2]

theorem near_steps (hb : Spec.Blind lib R Q) (order : List Part) {s s' : State N A O L E} (h : NearState R Q s s') (bs : List B) :
    NearState R Q (bs.foldl (step lib order) s) (bs.foldl (step lib order) s') := by
  induction bs generalizing s s' with
  | nil => exact h
  | cons b bs ih => exact ih (near_step hb order h b)

end

/-- C130, partial: if the new process is made with the target networks that the first one had when the checkpoint was written, and with
schedules that cannot be told apart from those the first one had then, it learns what the first one would have learned.
Missing: target networks are in no checkpoint, so that by default they are copies of the new process's own critics, and the claim is
false, see `C130_false`. -/
theorem C130_partial (lib : Lib N A O L E B T) (R : L → L → Prop) (Q : E → E → Prop) (hb : Spec.Blind lib R Q) (size : B → Int)
    (order : List Part) {names : Names} (hd : Distinct names) (folder : String) {interval : Int} (hi : 0 < interval)
    {first again : State N A O L E} (bs : List B) (d : CkDisk (Saved N A O) (Val B T)) {k : Nat} (n : Nat) (hk : 0 < k)
    (hki : (k : Int) % interval = 0) (hl : k + n ≤ bs.length) (hm : Spec.Made none none first)
    (hm' : Spec.Made (some (run lib size order names folder interval first bs d k).user.learn.q1t)
      (some (run lib size order names folder interval first bs d k).user.learn.q2t) again)
    (hs : Spec.Schedules R Q again (run lib size order names folder interval first bs d k).user.learn) :
    Spec.Same (resumed lib size order names folder interval again bs (run lib size order names folder interval first bs d k) k n).user.learn
      (run lib size order names folder interval first bs d (k + n)).user.learn := by
  obtain ⟨h1, h2⟩ := C130_runs lib size order hd folder hi (made_plain hm) (made_plain hm') bs d n hk hki hl
  have h0 := (C130_runs lib size order hd folder hi (made_plain hm) (made_plain hm') bs d 0 hk hki (by omega)).1
  rw [Nat.add_zero] at h0
  rw [h1, h2, List.take_add, List.foldl_append]
  rw [h0] at hs hm'
  set s := (bs.take k).foldl (step lib order) first
  have ht : again.q1t = s.q1t ∧ again.q2t = s.q2t := by
    obtain ⟨q1, q2, pi, a, opt, sched, e, rfl⟩ := hm'
    exact ⟨rfl, rfl⟩
  have hn : NearState R Q (restored s again) s :=
    ⟨⟨rfl, rfl, rfl, hs.q1⟩, ⟨rfl, rfl, rfl, hs.q2⟩, ⟨rfl, rfl, rfl, hs.pi⟩, ⟨rfl, rfl, rfl, hs.alpha⟩, hs.entropy, ht, rfl⟩
  have := near_steps hb order hn ((bs.drop k).take n)
  exact ⟨⟨this.q1.1, this.q1.2.1, this.q1.2.2.1⟩, ⟨this.q2.1, this.q2.2.1, this.q2.2.2.1⟩, ⟨this.pi.1, this.pi.2.1, this.pi.2.2.1⟩,
    ⟨this.alpha.1, this.alpha.2.1, this.alpha.2.2.1⟩, this.targets, this.logs⟩

/-! ### What does not hold -/

namespace Ex

/-- One state, one action; critics with one number, plain gradient descent on half the squared difference with rate 1/10, targets
`r + 1/2 min` (with the entropy), target networks mixed with rate 1/2 -/
def lib : Lib ℚ ℚ Unit Unit Unit ℚ ℚ where
  target r pi a q1 q2 := (r + 1 / 2 * (min q1 q2 - a * pi), [("training/next_q_target_mean", min q1 q2)])
  qLoss _ t q o l := ⟨q - 1 / 10 * (q - t), o, l, [("loss/q", (q - t) ^ 2)]⟩
  piLoss _ a q1 q2 pi o l := ⟨pi - 1 / 10 * (a - min q1 q2), o, l, []⟩
  alphaLoss _ pi _ a o l := ⟨a - 1 / 10 * pi, o, l, []⟩
  clamp a := min a 2
  alphaLogs a _ := [("training/alpha_value", a)]
  nextEntropy e := e
  soft q t := 1 / 2 * q + 1 / 2 * t

def names : Names
  | .q1 => "q1"
  | .q2 => "q2"
  | .pi => "policy"
  | .alpha => "alpha"

def order : List Part := [.q1, .q2, .pi, .alpha]

def first : State ℚ ℚ Unit Unit Unit := State.new 0 1 0 1 ((), (), (), ()) ((), (), (), ()) () none none

/-- The same with other initial parameters -/
def again : State ℚ ℚ Unit Unit Unit := State.new 8 9 3 1 ((), (), (), ()) ((), (), (), ()) () none none

theorem blind : Spec.Blind lib (fun _ _ => True) (fun _ _ => True) :=
  ⟨fun _ _ _ _ _ _ _ => ⟨rfl, rfl, rfl, trivial⟩, fun _ _ _ _ _ _ _ _ _ => ⟨rfl, rfl, rfl, trivial⟩,
    fun _ _ _ _ _ _ _ _ _ _ => ⟨rfl, rfl, rfl, trivial⟩, fun _ _ _ _ => rfl, fun _ _ _ => trivial⟩

theorem distinct : Distinct names := by unfold Distinct; decide +kernel

def disk : CkDisk (Saved ℚ ℚ Unit) (Val ℚ ℚ) := ⟨[], []⟩

end Ex

theorem C130_false : ¬ C130_claim := by
  intro hc
  have h := hc ℚ ℚ Unit Unit Unit ℚ ℚ Ex.lib (fun _ => 1) Ex.order Ex.names "run" 2 Ex.first Ex.again [1, 1, 1] Ex.disk 2 1 Ex.distinct
    (by decide) (by decide) (by decide) (by decide) Ex.blind ⟨_, _, _, _, _, _, _, rfl⟩ ⟨_, _, _, _, _, _, _, rfl⟩
  obtain ⟨h1, h2⟩ := C130_runs Ex.lib (fun _ => 1) Ex.order Ex.distinct "run" (interval := 2) (by decide) (first := Ex.first)
    (again := Ex.again) (made_plain ⟨_, _, _, _, _, _, _, rfl⟩) (made_plain ⟨_, _, _, _, _, _, _, rfl⟩) [1, 1, 1] Ex.disk (k := 2) 1
    (by decide) (by decide) (by decide)
  rw [h1, h2] at h
  have := h.q1.1
  revert this
  decide +kernel

/-- A checkpoint after the first of two batches: the run that is resumed has another critic in the end. -/
example : (run Ex.lib (fun _ => 1) Ex.order Ex.names "run" 1 Ex.first [1, 1] Ex.disk 2).user.learn.q1.net = 394081 / 2000000 ∧
    (resumed Ex.lib (fun _ => 1) Ex.order Ex.names "run" 1 Ex.again [1, 1]
      (run Ex.lib (fun _ => 1) Ex.order Ex.names "run" 1 Ex.first [1, 1] Ex.disk 1) 1 1).user.learn.q1.net = 1189081 / 2000000 := by
  obtain ⟨h1, h2⟩ := C130_runs Ex.lib (fun _ => 1) Ex.order Ex.distinct "run" (interval := 1) (by decide) (first := Ex.first)
    (again := Ex.again) (made_plain ⟨_, _, _, _, _, _, _, rfl⟩) (made_plain ⟨_, _, _, _, _, _, _, rfl⟩) [1, 1] Ex.disk (k := 1) 1
    (by decide) (by decide) (by decide)
  rw [show (2 : Nat) = 1 + 1 from rfl, h1, h2]
  decide +kernel

/-- With the right target networks it has the same one. -/
example : (resumed Ex.lib (fun _ => 1) Ex.order Ex.names "run" 1
    (State.new 8 9 3 1 ((), (), (), ()) ((), (), (), ()) () (some (1 / 20)) (some (39 / 40))) [1, 1]
    (run Ex.lib (fun _ => 1) Ex.order Ex.names "run" 1 Ex.first [1, 1] Ex.disk 1) 1 1).user.learn.q1.net = 394081 / 2000000 := by
  obtain ⟨h1, h2⟩ := C130_runs Ex.lib (fun _ => 1) Ex.order Ex.distinct "run" (interval := 1) (by decide) (first := Ex.first)
    (again := State.new 8 9 3 1 ((), (), (), ()) ((), (), (), ()) () (some (1 / 20)) (some (39 / 40)))
    (made_plain ⟨_, _, _, _, _, _, _, rfl⟩) (made_plain ⟨_, _, _, _, _, _, _, rfl⟩) [1, 1] Ex.disk (k := 1) 1
    (by decide) (by decide) (by decide)
  rw [h2]
  decide +kernel

end SacRun

end Verif
