import Verif.Lemmas.Trainer
import Mathlib.Data.List.Sort
import Mathlib.Algebra.Order.Ring.Nat
import Mathlib.Algebra.Order.Group.Nat
import Mathlib.Data.Nat.Init

/-!
# Properties of the training loop (C35-C41, C81)

Every theorem is about the events of a run, as seen by an observer of the hooks, the data loader and the shutdown
signal. `C35_watching` says that the observer changes nothing.
-/

namespace Verif

open Spec

variable {W : Type u} {V : Type v}

section
variable [PyNum V]

/-- What an observer sees of `train`, cut off after `fuel` batches. -/
def events (t : Trainer W V) (fuel : Nat) (w : W) (st : Dict String V) : List (Event V) :=
  (t.watch.train fuel ⟨(w, []), st⟩).1.world.2

/-! ## C35 -/

/-- **C35** (observing changes nothing). The run that is observed ends in the same world and state, with the same
outcome, as the run that is not. -/
theorem C35_watching (t : Trainer W V) (fuel : Nat) (w : W) (st : Dict String V) :
    ((t.watch.train fuel ⟨(w, []), st⟩).1.forget, (t.watch.train fuel ⟨(w, []), st⟩).2)
      = t.train fuel ⟨w, st⟩ :=
  train_forget t fuel ⟨(w, []), st⟩

theorem events_outcome (t : Trainer W V) (fuel : Nat) (w : W) (st : Dict String V) :
    (t.watch.train fuel ⟨(w, []), st⟩).2 = (t.train fuel ⟨w, st⟩).2 :=
  congrArg Prod.snd (C35_watching t fuel w st)

theorem events_genuine (t : Trainer W V) (fuel : Nat) (w : W) (st : Dict String V) :
    ∀ e ∈ events t fuel w st, e.Genuine t :=
  train_genuine t fuel ⟨(w, []), st⟩ (by intro e he; simp at he)

/-- The step number with which the loop begins. -/
theorem exists_start (t : Trainer W V) (s : TState (W × List (Event V)) V) :
    ∃ k : Int, (t.watch.prepare s).2 = .ok () → ∀ v k', (t.watch.prepare s).1.state.get? "bp_step" = some v →
      PyNum.toInt v = some k' → k' = k := by
  cases hv : (t.watch.prepare s).1.state.get? "bp_step" with
  | none => exact ⟨0, fun _ v k' h => by simp at h⟩
  | some v =>
    cases hi : PyNum.toInt v with
    | none => exact ⟨0, fun _ v' k' h h' => by injection h with h; subst h; rw [hi] at h'; simp at h'⟩
    | some k =>
      exact ⟨k, fun _ v' k' h h' => by
        injection h with h; subst h; rw [hi] at h'; injection h' with h'; exact h'.symm⟩

theorem events_run (t : Trainer W V) (fuel : Nat) (w : W) (st : Dict String V) (k : Int)
    (hk : (t.watch.prepare ⟨(w, []), st⟩).2 = .ok () → ∀ v k',
      (t.watch.prepare ⟨(w, []), st⟩).1.state.get? "bp_step" = some v → PyNum.toInt v = some k' → k' = k) :
    Spec.Run t.callbacks t.sizeKey (startState st) k fuel (events t fuel w st) (t.train fuel ⟨w, st⟩).2 ∧
      Flows t.sizeKey k (startState st) (events t fuel w st) (t.train fuel ⟨w, st⟩).1.state := by
  obtain ⟨es, h1, h2, h3⟩ := train_traced t fuel k ⟨(w, []), st⟩ hk
  simp only [List.nil_append] at h1
  unfold events
  rw [h1]
  have e : (t.train fuel ⟨w, st⟩).1.state = (t.watch.train fuel ⟨(w, []), st⟩).1.state := by
    rw [← C35_watching]; rfl
  rw [e, ← events_outcome]
  exact ⟨h3, h2⟩

/-- **C35**. Every run, of any callbacks on any data, is one of `Spec.Run`: `restore_state` and `begin_training` of
all callbacks, then batch after batch `begin_cycle`, `begin_batch`, `backward`, `end_batch` and `end_cycle`, each
over the callbacks in the trainer's order; and if anything raises, nothing of this follows any more. -/
theorem C35_protocol (t : Trainer W V) (fuel : Nat) (w : W) (st : Dict String V) :
    ∃ k, Spec.Run t.callbacks t.sizeKey (startState st) k fuel (events t fuel w st) (t.train fuel ⟨w, st⟩).2 := by
  obtain ⟨k, hk⟩ := exists_start t ⟨(w, []), st⟩
  exact ⟨k, (events_run t fuel w st k hk).1⟩

/-- **C35**. Every call in the run is one of a callback of the trainer, and its result is the callback's. -/
theorem C35_genuine (t : Trainer W V) (fuel : Nat) (w : W) (st : Dict String V) :
    ∀ e ∈ events t fuel w st, e.Genuine t := events_genuine t fuel w st

/-- **C35** (cutting off). A run that is still going on after `fuel` batches continues with what was seen so far. -/
theorem C35_continues (t : Trainer W V) (fuel m : Nat) (w : W) (st : Dict String V)
    (h : (t.train fuel ⟨w, st⟩).2 = none) : events t fuel w st <+: events t (fuel + m) w st :=
  train_prefix t fuel m ⟨(w, []), st⟩ (by rw [events_outcome]; exact h)

end

/-- **C35** (order). The trainer's callbacks are those given to it, in ascending order value, and for each order
value in the order given. -/
theorem C35_order (cbs : List (Callback W V)) (sizeKey : String) (iter : W → W × Except Exc Unit)
    (next : W → W × Except Exc (Option (Dict String V))) (signal : W → W × Except Exc Bool) :
    (Trainer.new cbs sizeKey iter next signal).callbacks.Perm cbs ∧
      (Trainer.new cbs sizeKey iter next signal).callbacks.Pairwise (fun a b => a.order ≤ b.order) ∧
      ∀ o : Int, (Trainer.new cbs sizeKey iter next signal).callbacks.filter (fun cb => decide (cb.order = o))
        = cbs.filter (fun cb => decide (cb.order = o)) := by
  show (Trainer.sortCallbacks cbs).Perm cbs ∧ (Trainer.sortCallbacks cbs).Pairwise (fun a b => a.order ≤ b.order) ∧
      ∀ o : Int, (Trainer.sortCallbacks cbs).filter (fun cb => decide (cb.order = o))
        = cbs.filter (fun cb => decide (cb.order = o))
  unfold Trainer.sortCallbacks
  have htrans : ∀ a b c : Callback W V, decide (a.order ≤ b.order) = true → decide (b.order ≤ c.order) = true →
      decide (a.order ≤ c.order) = true := by
    intro a b c h1 h2
    simp only [decide_eq_true_eq] at *
    omega
  have htotal : ∀ a b : Callback W V, (decide (a.order ≤ b.order) || decide (b.order ≤ a.order)) = true := by
    intro a b
    simp only [Bool.or_eq_true, decide_eq_true_eq]
    omega
  have hperm := List.mergeSort_perm cbs fun a b => decide (a.order ≤ b.order)
  refine ⟨hperm, ?_, ?_⟩
  · have := List.pairwise_mergeSort htrans htotal cbs
    exact this.imp fun h => by simpa using h
  · intro o
    have h1 : (cbs.filter fun cb => decide (cb.order = o)).Sublist
        (cbs.mergeSort fun a b => decide (a.order ≤ b.order)) := by
      refine List.sublist_mergeSort htrans htotal ?_ List.filter_sublist
      rw [List.pairwise_filter]
      refine List.Pairwise.imp_of_mem (R := fun _ _ => True) ?_ (List.pairwise_of_forall (fun _ _ => trivial))
      intro a b _ _ _ ha hb
      simp only [decide_eq_true_eq] at *
      omega
    have h2 := h1.filter fun cb => decide (cb.order = o)
    rw [List.filter_filter] at h2
    simp only [Bool.and_self] at h2
    exact (h2.eq_of_length (hperm.filter _).length_eq.symm).symm

/-! ## C41 -/

section
variable [PyNum V]

theorem flows_split {key : String} {k : Int} {st st' : Dict String V} {a b : List (Event V)}
    (h : Flows key k st (a ++ b) st') :
    ∃ mid, Flows key k st a mid ∧ Flows key (k + (shapes a).count .batch) mid b st' := by
  induction a generalizing k st with
  | nil => exact ⟨st, rfl, by simpa [shapes] using h⟩
  | cons e a ih =>
    cases e with
    | call hk i seen r =>
      obtain ⟨h1, h2⟩ := h
      obtain ⟨mid, h3, h4⟩ := ih h2
      exact ⟨mid, ⟨h1, h3⟩, by simpa [shapes, Event.shape] using h4⟩
    | batch b' =>
      obtain ⟨st₁, h1, h2⟩ := h
      obtain ⟨mid, h3, h4⟩ := ih h2
      refine ⟨mid, ⟨st₁, h1, h3⟩, ?_⟩
      simp only [shapes, List.map_cons, Event.shape, List.count_cons_self]
      rw [show k + (((List.map Event.shape a).count .batch + 1 : Nat) : Int)
        = k + 1 + ((List.map Event.shape a).count .batch : Int) by push_cast; omega]
      exact h4
    | stop ex =>
      obtain ⟨mid, h3, h4⟩ := ih (st := st) h
      exact ⟨mid, h3, by simpa [shapes, Event.shape] using h4⟩
    | exhausted =>
      obtain ⟨mid, h3, h4⟩ := ih (st := st) h
      exact ⟨mid, h3, by simpa [shapes, Event.shape] using h4⟩
    | noData ex =>
      obtain ⟨mid, h3, h4⟩ := ih (st := st) h
      exact ⟨mid, h3, by simpa [shapes, Event.shape] using h4⟩
    | goOn =>
      obtain ⟨mid, h3, h4⟩ := ih (st := st) h
      exact ⟨mid, h3, by simpa [shapes, Event.shape] using h4⟩

/-- **C41**. The state that a hook sees is, in every run of any callbacks, the state at the start changed by the
results of the earlier hook calls and the batches, in that order, and by nothing else. -/
theorem C41_flows (t : Trainer W V) (fuel : Nat) (w : W) (st : Dict String V) :
    ∃ k, Flows t.sizeKey k (startState st) (events t fuel w st) (t.train fuel ⟨w, st⟩).1.state := by
  obtain ⟨k, hk⟩ := exists_start t ⟨(w, []), st⟩
  exact ⟨k, (events_run t fuel w st k hk).2⟩

/-- The event writes `key`: a hook returning it, or a batch with it. -/
def Event.Writes (key : String) : Event V → Prop
  | .call _ _ _ (.ok (some d)) => key ∈ d.keys
  | .batch b => key ∈ b.keys
  | _ => False

omit [PyNum V] in
theorem get?_update_not_mem (st d : Dict String V) (key : String) (h : key ∉ d.keys) :
    (st.update d).get? key = st.get? key := by
  induction d generalizing st with
  | nil => rfl
  | cons p d ih =>
    rw [show Dict.update st (p :: d) = Dict.update (st.set p.1 p.2) d from rfl, ih _ (fun hm => h (by simp [Dict.keys] at hm ⊢; exact Or.inr hm))]
    exact Dict.get?_set_ne (fun e => h (by simp [Dict.keys, e]))

theorem flows_not_written {skey : String} {k : Int} {st st' : Dict String V} {es : List (Event V)}
    (h : Flows skey k st es st') (key : String) (h1 : key ≠ "bp_step") (h2 : key ≠ "bp_samples")
    (hw : ∀ e ∈ es, ¬ Event.Writes key e) : st'.get? key = st.get? key := by
  induction es generalizing k st with
  | nil => rw [show st' = st from h]
  | cons e es ih =>
    have hw' : ∀ e ∈ es, ¬ Event.Writes key e := fun e he => hw e (by simp [he])
    have he := hw e (by simp)
    cases e with
    | call hk i seen r =>
      rw [ih h.2 hw']
      cases r with
      | error e => rfl
      | ok o =>
        cases o with
        | none => rfl
        | some d => exact get?_update_not_mem st d key he
    | batch b =>
      obtain ⟨st₁, g1, g2⟩ := h
      rw [ih g2 hw', g1.others key h1 h2]
      exact get?_update_not_mem st b key he
    | stop ex => exact ih (st := st) h hw'
    | exhausted => exact ih (st := st) h hw'
    | noData ex => exact ih (st := st) h hw'
    | goOn => exact ih (st := st) h hw'

/-- **C41** (visible until overwritten). What a hook returns under `key` is what every later hook finds there, as
long as no other hook and no batch writes `key` in between. -/
theorem C41_visible (t : Trainer W V) (fuel : Nat) (w : W) (st : Dict String V) (a b c : List (Event V))
    (h h' : Hook) (i i' : Nat) (seen seen' d : Dict String V) (r' : Except Exc (Option (Dict String V)))
    (hev : events t fuel w st = a ++ .call h i seen (.ok (some d)) :: (b ++ .call h' i' seen' r' :: c))
    (key : String) (v : V) (h1 : key ≠ "bp_step") (h2 : key ≠ "bp_samples") (hd : d.keys.Nodup)
    (hv : d.get? key = some v) (hb : ∀ e ∈ b, ¬ Event.Writes key e) : seen'.get? key = some v := by
  obtain ⟨k, hf⟩ := C41_flows t fuel w st
  rw [hev] at hf
  obtain ⟨m1, _, g1⟩ := flows_split hf
  obtain ⟨_, g2⟩ := g1
  obtain ⟨m2, g3, g4⟩ := flows_split g2
  obtain ⟨g5, _⟩ := g4
  rw [g5, flows_not_written g3 key h1 h2 hb]
  show (m1.update d).get? key = _
  rw [Dict.get?_update _ _ hd, hv]

/-- **C41** (nothing else is visible). If no earlier hook and no earlier batch wrote `key`, a hook finds there what
the trainer's state had at the start of `train`. -/
theorem C41_nothing_else (t : Trainer W V) (fuel : Nat) (w : W) (st : Dict String V) (a b : List (Event V))
    (h : Hook) (i : Nat) (seen : Dict String V) (r : Except Exc (Option (Dict String V)))
    (hev : events t fuel w st = a ++ .call h i seen r :: b) (key : String)
    (h1 : key ≠ "bp_step") (h2 : key ≠ "bp_samples") (ha : ∀ e ∈ a, ¬ Event.Writes key e) :
    seen.get? key = st.get? key := by
  obtain ⟨k, hf⟩ := C41_flows t fuel w st
  rw [hev] at hf
  obtain ⟨m1, g0, g1⟩ := flows_split hf
  obtain ⟨g2, _⟩ := g1
  rw [g2, flows_not_written g0 key h1 h2 ha]
  unfold startState
  rw [Dict.get?_set_ne (Ne.symm h1), Dict.get?_set_ne (Ne.symm h2)]

/-! ## C36 -/

/-- Nobody but the trainer writes the counters, and every batch says how large it is. -/
structure Fresh (t : Trainer W V) (size : Dict String V → Int) : Prop where
  hooks : ∀ cb ∈ t.callbacks, ∀ h st w d, (cb.hook h st w).2 = .ok (some d) →
    "bp_step" ∉ d.keys ∧ "bp_samples" ∉ d.keys
  batches : ∀ w b, (t.next w).2 = .ok (some b) → b.keys.Nodup ∧ "bp_step" ∉ b.keys ∧ "bp_samples" ∉ b.keys ∧
    ∃ v, b.get? t.sizeKey = some v ∧ PyNum.toInt v = some (size b)
  sizeKey : t.sizeKey ≠ "bp_step" ∧ t.sizeKey ≠ "bp_samples"

/-- The sizes of the batches, added up. -/
def totalSize (size : Dict String V → Int) : List (Event V) → Int
  | [] => 0
  | .batch b :: es => size b + totalSize size es
  | _ :: es => totalSize size es

/-- A hook call that returns no counters; a batch without counters, that says how large it is. -/
def Counted (sizeKey : String) (size : Dict String V → Int) : Event V → Prop
  | .call _ _ _ r => ∀ d, r = .ok (some d) → "bp_step" ∉ d.keys ∧ "bp_samples" ∉ d.keys
  | .batch b => b.keys.Nodup ∧ "bp_step" ∉ b.keys ∧ "bp_samples" ∉ b.keys ∧
    ∃ v, b.get? sizeKey = some v ∧ PyNum.toInt v = some (size b)
  | _ => True

theorem flows_counted {sizeKey : String} {size : Dict String V → Int} (hkey : sizeKey ≠ "bp_step") {k : Int}
    {st st' : Dict String V} {es : List (Event V)} (hf : Flows sizeKey k st es st')
    (hg : ∀ e ∈ es, Counted sizeKey size e) (m : Int) (hm : st.get? "bp_samples" = some (PyNum.ofInt m)) :
    st'.get? "bp_samples" = some (PyNum.ofInt (m + totalSize size es)) ∧
      ((shapes es).count .batch = 0 → st'.get? "bp_step" = st.get? "bp_step") ∧
      ((shapes es).count .batch ≠ 0 →
        st'.get? "bp_step" = some (PyNum.ofInt (k + (shapes es).count .batch - 1))) := by
  induction es generalizing k st m with
  | nil =>
    rw [show st' = st from hf]
    exact ⟨by simpa [totalSize] using hm, fun _ => rfl, fun h => absurd rfl h⟩
  | cons e es ih =>
    have hg' : ∀ e ∈ es, Counted sizeKey size e := fun e he => hg e (by simp [he])
    have he := hg e (by simp)
    cases e with
    | call h i seen r =>
      obtain ⟨h1, h2⟩ := hf
      have hsame : (applyResult st r).get? "bp_samples" = st.get? "bp_samples" ∧
          (applyResult st r).get? "bp_step" = st.get? "bp_step" := by
        cases r with
        | error e => exact ⟨rfl, rfl⟩
        | ok o =>
          cases o with
          | none => exact ⟨rfl, rfl⟩
          | some d =>
            obtain ⟨g1, g2⟩ := he d rfl
            exact ⟨get?_update_not_mem st d _ g2, get?_update_not_mem st d _ g1⟩
      have := ih h2 hg' m (by rw [hsame.1, hm])
      rw [hsame.2] at this
      have hcount : (shapes (.call h i seen r :: es)).count .batch = (shapes es).count .batch := by
        simp [shapes, Event.shape]
      rw [hcount]
      exact this
    | batch b =>
      obtain ⟨st₁, h1, h2⟩ := hf
      obtain ⟨hnd, hb1, hb2, v, hv, hs⟩ := he
      have hsam := h1.samples hkey (PyNum.ofInt m) v m (size b) (by rw [get?_update_not_mem _ _ _ hb2, hm])
        (by rw [Dict.get?_update _ _ hnd, hv]) (PyNum.toInt_ofInt m) hs
      obtain ⟨i1, i2⟩ := ih h2 hg' _ hsam
      have hcount : (shapes (.batch b :: es)).count .batch = (shapes es).count .batch + 1 := by
        simp [shapes, Event.shape]
      rw [hcount]
      refine ⟨?_, fun h0 => by omega, fun _ => ?_⟩
      · rw [i1]
        simp only [totalSize]
        rw [show m + size b + totalSize size es = m + (size b + totalSize size es) by omega]
      · by_cases h0 : (shapes es).count .batch = 0
        · rw [i2.1 h0, h1.step, h0]
          simp
        · rw [i2.2 h0]
          congr 2
          push_cast
          omega
    | stop ex =>
      have := ih (st := st) hf hg' m hm
      have hcount : (shapes ((.stop ex : Event V) :: es)).count .batch = (shapes es).count .batch := by
        simp [shapes, Event.shape]
      rw [hcount]
      exact this
    | noData ex =>
      have := ih (st := st) hf hg' m hm
      have hcount : (shapes ((.noData ex : Event V) :: es)).count .batch = (shapes es).count .batch := by
        simp [shapes, Event.shape]
      rw [hcount]
      exact this
    | exhausted =>
      have := ih (st := st) hf hg' m hm
      have hcount : (shapes ((.exhausted : Event V) :: es)).count .batch = (shapes es).count .batch := by
        simp [shapes, Event.shape]
      rw [hcount]
      exact this
    | goOn =>
      have := ih (st := st) hf hg' m hm
      have hcount : (shapes ((.goOn : Event V) :: es)).count .batch = (shapes es).count .batch := by
        simp [shapes, Event.shape]
      rw [hcount]
      exact this

theorem Fresh.counted {t : Trainer W V} {size : Dict String V → Int} (hq : Fresh t size) {e : Event V}
    (he : e.Genuine t) : Counted t.sizeKey size e := by
  cases e with
  | call h i seen r =>
    obtain ⟨cb, hcb, _, w, hr⟩ := he
    exact fun d hd => hq.hooks cb hcb h seen w d (hr.symm.trans hd)
  | batch b =>
    obtain ⟨w, hb⟩ := he
    exact hq.batches w b hb
  | stop ex => trivial
  | noData ex => trivial
  | exhausted => trivial
  | goOn => trivial

theorem flows_counters {t : Trainer W V} {size : Dict String V → Int} (hq : Fresh t size) {k : Int}
    {st st' : Dict String V} {es : List (Event V)} (hf : Flows t.sizeKey k st es st') (hg : ∀ e ∈ es, e.Genuine t)
    (m : Int) (hm : st.get? "bp_samples" = some (PyNum.ofInt m)) :
    st'.get? "bp_samples" = some (PyNum.ofInt (m + totalSize size es)) ∧
      ((shapes es).count .batch = 0 → st'.get? "bp_step" = st.get? "bp_step") ∧
      ((shapes es).count .batch ≠ 0 →
        st'.get? "bp_step" = some (PyNum.ofInt (k + (shapes es).count .batch - 1))) :=
  flows_counted hq.sizeKey.1 hf (fun e he => hq.counted (hg e he)) m hm

theorem startState_samples (st : Dict String V) : (startState st).get? "bp_samples" = some (PyNum.ofInt 0) := by
  unfold startState
  rw [Dict.get?_set_ne (by decide), Dict.get?_set_self]

theorem startState_step (st : Dict String V) : (startState st).get? "bp_step" = some (PyNum.ofInt 1) :=
  Dict.get?_set_self

/-- If no hook returns a step number, the first batch is number 1. -/
theorem fresh_start {t : Trainer W V} {size : Dict String V → Int} (hq : Fresh t size) (w : W) (st : Dict String V) :
    (t.watch.prepare ⟨(w, []), st⟩).2 = .ok () → ∀ v k',
      (t.watch.prepare ⟨(w, []), st⟩).1.state.get? "bp_step" = some v → PyNum.toInt v = some k' → k' = 1 := by
  intro hok v k' hv hk
  obtain ⟨es, h1, h2, h3⟩ := prepare_traced t 1 ⟨(w, []), st⟩
  have hg := prepare_genuine t ⟨(w, []), st⟩ (by intro e he; simp at he)
  simp only [List.nil_append] at h1
  have hg' : ∀ e ∈ es, e.Genuine t := by intro e he; exact hg e (by rw [h1]; exact he)
  rcases h3 with ⟨_, hs, _⟩ | ⟨ex, hx, _⟩
  · obtain ⟨_, h4, _⟩ := flows_counters hq h2 hg' 0 (startState_samples st)
    have hc : (shapes es).count .batch = 0 := by
      rw [hs]; unfold opening; rw [List.count_append, count_all, count_all]
    have h4 := h4 hc
    have h5 : (startState st).get? "bp_step" = some (PyNum.ofInt 1) := startState_step st
    unfold startState at h5
    simp only at h4
    rw [h5] at h4
    rw [h4] at hv
    injection hv with hv
    subst hv
    rw [PyNum.toInt_ofInt] at hk
    injection hk with hk
    exact hk.symm
  · rw [hok] at hx; simp at hx

/-- **C36**. In a fresh run whose callbacks leave the counters alone, a hook that runs after `n` batches have been
fetched sees `bp_step = n` (1 before the first batch) and `bp_samples` = the sum of the sizes of those batches. -/
theorem C36_counters (t : Trainer W V) (size : Dict String V → Int) (hq : Fresh t size) (fuel : Nat) (w : W)
    (st : Dict String V) (a b : List (Event V)) (h : Hook) (i : Nat) (seen : Dict String V)
    (r : Except Exc (Option (Dict String V))) (hev : events t fuel w st = a ++ .call h i seen r :: b) :
    seen.get? "bp_step" = some (PyNum.ofInt (if (shapes a).count .batch = 0 then 1 else (shapes a).count .batch)) ∧
      seen.get? "bp_samples" = some (PyNum.ofInt (totalSize size a)) := by
  have hf := (events_run t fuel w st 1 (fresh_start hq w st)).2
  have hg := events_genuine t fuel w st
  rw [hev] at hf hg
  obtain ⟨m1, g0, g1⟩ := flows_split hf
  obtain ⟨g2, _⟩ := g1
  obtain ⟨c1, c2, c3⟩ := flows_counters hq g0 (fun e he => hg e (by simp [he])) 0 (startState_samples st)
  rw [g2, c1]
  refine ⟨?_, by simp⟩
  by_cases h0 : (shapes a).count .batch = 0
  · rw [if_pos h0, c2 h0, startState_step]
  · rw [if_neg h0, c3 h0]
    congr 2; omega

/-! ## C37 -/

omit [PyNum V] in
theorem batches_snoc (cbs : List (Callback W V)) (k : Int) (n : Nat) :
    batches cbs k (n + 1) = batches cbs k n ++ oneBatch cbs (k + n) := by
  induction n generalizing k with
  | zero => simp [batches]
  | succ n ih =>
    rw [show batches cbs k (n + 1 + 1) = oneBatch cbs k ++ batches cbs (k + 1) (n + 1) from rfl, ih (k + 1),
      ← List.append_assoc]
    rw [show k + 1 + (n : Int) = k + ((n + 1 : Nat) : Int) by push_cast; omega]
    rfl

omit [PyNum V] in
theorem count_all_ne {h h' : Hook} (i : Nat) (cbs : List (Callback W V)) (hne : h' ≠ h) :
    (Spec.all h' cbs).count (.hook h i) = 0 := by
  rw [List.count_eq_zero]
  unfold Spec.all
  simp only [List.mem_map, Shape.hook.injEq, not_exists, not_and]
  intro cb _ e
  exact absurd e hne

omit [PyNum V] in
theorem count_all_due (h : Hook) (cbs : List (Callback W V)) (k : Int) (cb : Callback W V)
    (hnd : (cbs.map Callback.ident).Nodup) (hcb : cb ∈ cbs) :
    (Spec.all h (due k cbs)).count (.hook h cb.ident) = if ∃ n, cb.cycle = some n ∧ 0 < n ∧ n ∣ k then 1 else 0 := by
  unfold Spec.all
  have hnd' : ((due k cbs).map fun cb => Shape.hook h cb.ident).Nodup := by
    have : ((due k cbs).map Callback.ident).Nodup := hnd.sublist (List.filter_sublist.map _)
    rw [show (fun cb : Callback W V => Shape.hook h cb.ident) = (fun i => Shape.hook h i) ∘ Callback.ident from rfl,
      ← List.map_map]
    exact this.map (fun a b e => by injection e)
  rw [hnd'.count]
  refine if_congr ?_ rfl rfl
  simp only [List.mem_map, Shape.hook.injEq, true_and]
  constructor
  · rintro ⟨cb', h1, h2⟩
    obtain ⟨h3, h4⟩ := List.mem_filter.1 h1
    have : cb' = cb := List.inj_on_of_nodup_map hnd h3 hcb h2
    subst this
    revert h4
    cases hc : cb'.cycle with
    | none => simp
    | some n => intro h4; exact ⟨n, rfl, by simpa using h4⟩
  · rintro ⟨n, h1, h2⟩
    refine ⟨cb, List.mem_filter.2 ⟨hcb, ?_⟩, rfl⟩
    rw [h1]
    simpa using h2

omit [PyNum V] in
theorem count_oneBatch_end (cbs : List (Callback W V)) (k : Int) (cb : Callback W V)
    (hnd : (cbs.map Callback.ident).Nodup) (hcb : cb ∈ cbs) :
    (oneBatch cbs k).count (.hook .endCycle cb.ident) = if ∃ n, cb.cycle = some n ∧ 0 < n ∧ n ∣ k then 1 else 0 := by
  unfold oneBatch
  rw [List.count_cons_of_ne (by simp), List.count_cons_of_ne (by simp)]
  simp only [List.count_append]
  rw [count_all_ne _ _ (by decide), count_all_ne _ _ (by decide), count_all_ne _ _ (by decide),
    count_all_ne _ _ (by decide), count_all_due _ _ _ _ hnd hcb]
  omega

omit [PyNum V] in
theorem count_oneBatch_begin (cbs : List (Callback W V)) (k : Int) (cb : Callback W V)
    (hnd : (cbs.map Callback.ident).Nodup) (hcb : cb ∈ cbs) :
    (oneBatch cbs k).count (.hook .beginCycle cb.ident)
      = if ∃ n, cb.cycle = some n ∧ 0 < n ∧ n ∣ k - 1 then 1 else 0 := by
  unfold oneBatch
  rw [List.count_cons_of_ne (by simp), List.count_cons_of_ne (by simp)]
  simp only [List.count_append]
  rw [count_all_ne (h' := .beginBatch) _ _ (by decide), count_all_ne (h' := .backward) _ _ (by decide),
    count_all_ne (h' := .endBatch) _ _ (by decide), count_all_ne (h' := .endCycle) _ _ (by decide),
    count_all_due _ _ _ _ hnd hcb]
  omega

omit [PyNum V] in
theorem count_opening (cbs : List (Callback W V)) (h : Hook) (i : Nat) (h1 : h ≠ .restoreState)
    (h2 : h ≠ .beginTraining) : (opening cbs).count (.hook h i) = 0 := by
  unfold opening
  rw [List.count_append, count_all_ne _ _ (Ne.symm h1), count_all_ne _ _ (Ne.symm h2)]

omit [PyNum V] in
theorem count_batches_end (cbs : List (Callback W V)) (cb : Callback W V) (n : Nat) (hn : 0 < n)
    (hc : cb.cycle = some (n : Int)) (hnd : (cbs.map Callback.ident).Nodup) (hcb : cb ∈ cbs) (N : Nat) :
    (batches cbs 1 N).count (.hook .endCycle cb.ident) = N / n := by
  induction N with
  | zero => simp [batches]
  | succ N ih =>
    rw [batches_snoc, List.count_append, ih, count_oneBatch_end _ _ _ hnd hcb, Nat.succ_div]
    congr 1
    refine if_congr ?_ rfl rfl
    constructor
    · rintro ⟨n', h1, _, h3⟩
      rw [hc] at h1; injection h1 with h1; subst h1
      rw [show (1 : Int) + (N : Int) = ((N + 1 : Nat) : Int) by push_cast; omega] at h3
      exact Int.natCast_dvd_natCast.1 h3
    · intro h
      refine ⟨n, hc, by omega, ?_⟩
      rw [show (1 : Int) + (N : Int) = ((N + 1 : Nat) : Int) by push_cast; omega]
      exact Int.natCast_dvd_natCast.2 h

omit [PyNum V] in
theorem count_batches_begin (cbs : List (Callback W V)) (cb : Callback W V) (n : Nat) (hn : 0 < n)
    (hc : cb.cycle = some (n : Int)) (hnd : (cbs.map Callback.ident).Nodup) (hcb : cb ∈ cbs) (N : Nat) :
    (batches cbs 1 N).count (.hook .beginCycle cb.ident) = (N + n - 1) / n := by
  induction N with
  | zero => rw [show 0 + n - 1 = n - 1 by omega, Nat.div_eq_of_lt (by omega)]; rfl
  | succ N ih =>
    rw [batches_snoc, List.count_append, ih, count_oneBatch_begin _ _ _ hnd hcb,
      show N + 1 + n - 1 = (N + n - 1) + 1 by omega, Nat.succ_div]
    congr 1
    refine if_congr ?_ rfl rfl
    rw [show N + n - 1 + 1 = N + n by omega]
    constructor
    · rintro ⟨n', h1, _, h3⟩
      rw [hc] at h1; injection h1 with h1; subst h1
      rw [show (1 : Int) + (N : Int) - 1 = ((N : Nat) : Int) by omega] at h3
      exact (Nat.dvd_add_left (Nat.dvd_refl n)).2 (Int.natCast_dvd_natCast.1 h3)
    · intro h
      refine ⟨n, hc, by omega, ?_⟩
      rw [show (1 : Int) + (N : Int) - 1 = ((N : Nat) : Int) by omega]
      exact Int.natCast_dvd_natCast.2 ((Nat.dvd_add_left (Nat.dvd_refl n)).1 h)

theorem running_shapes {t : Trainer W V} {size : Dict String V → Int} (hq : Fresh t size) {N : Nat} {w : W}
    {st : Dict String V} (hN : (t.train N ⟨w, st⟩).2 = none) :
    shapes (events t N w st) = opening t.callbacks ++ batches t.callbacks 1 N := by
  have hr := (events_run t N w st 1 (fresh_start hq w st)).1
  cases hr with
  | running h _ _ => exact h
  | failedEarly _ _ _ h => rw [hN] at h; simp at h
  | exhausted _ _ _ _ h => rw [hN] at h; simp at h
  | stopped _ _ _ _ _ _ _ _ _ h => rw [hN] at h; simp at h

/-- **C37** (how often). After `N` completed batches of a fresh run a callback with cycle `n` has had `⌊N/n⌋`
`end_cycle` calls and `⌈N/n⌉` `begin_cycle` calls. (`C35_continues`: what comes later does not change that.) -/
theorem C37_counts (t : Trainer W V) (size : Dict String V → Int) (hq : Fresh t size)
    (hnd : (t.callbacks.map Callback.ident).Nodup) (cb : Callback W V) (hcb : cb ∈ t.callbacks) (n : Nat) (hn : 0 < n)
    (hc : cb.cycle = some (n : Int)) (N : Nat) (w : W) (st : Dict String V) (hN : (t.train N ⟨w, st⟩).2 = none) :
    (shapes (events t N w st)).count (.hook .endCycle cb.ident) = N / n ∧
      (shapes (events t N w st)).count (.hook .beginCycle cb.ident) = (N + n - 1) / n := by
  rw [running_shapes hq hN, List.count_append, List.count_append, count_opening _ _ _ (by decide) (by decide),
    count_opening _ _ _ (by decide) (by decide), count_batches_end _ _ _ hn hc hnd hcb,
    count_batches_begin _ _ _ hn hc hnd hcb]
  omega

/-- **C37** (when). Batch `N+1` of a fresh run adds a `begin_cycle`, before `begin_batch`, exactly when `n` divides
`N`, and an `end_cycle`, after `end_batch`, exactly when `n` divides `N+1`. -/
theorem C37_when (t : Trainer W V) (size : Dict String V → Int) (hq : Fresh t size)
    (hnd : (t.callbacks.map Callback.ident).Nodup) (cb : Callback W V) (hcb : cb ∈ t.callbacks) (n : Nat) (hn : 0 < n)
    (hc : cb.cycle = some (n : Int)) (N : Nat) (w : W) (st : Dict String V) (hN : (t.train (N + 1) ⟨w, st⟩).2 = none) :
    ∃ bc ec, shapes (events t (N + 1) w st) = (opening t.callbacks ++ batches t.callbacks 1 N) ++
        (.batch :: .goOn :: bc ++ Spec.all .beginBatch t.callbacks ++ Spec.all .backward t.callbacks ++
          Spec.all .endBatch t.callbacks ++ ec) ∧
      bc.count (.hook .beginCycle cb.ident) = (if n ∣ N then 1 else 0) ∧
      ec.count (.hook .endCycle cb.ident) = (if n ∣ N + 1 then 1 else 0) := by
  refine ⟨Spec.all .beginCycle (due ((1 + (N : Int)) - 1) t.callbacks), Spec.all .endCycle (due (1 + (N : Int)) t.callbacks), ?_, ?_, ?_⟩
  · rw [running_shapes hq hN, batches_snoc]
    unfold oneBatch
    simp only [List.append_assoc, List.cons_append]
  · rw [count_all_due _ _ _ _ hnd hcb]
    refine if_congr ?_ rfl rfl
    rw [show (1 : Int) + (N : Int) - 1 = ((N : Nat) : Int) by omega]
    constructor
    · rintro ⟨n', h1, _, h3⟩
      rw [hc] at h1; injection h1 with h1; subst h1
      exact Int.natCast_dvd_natCast.1 h3
    · intro h
      exact ⟨n, hc, by omega, Int.natCast_dvd_natCast.2 h⟩
  · rw [count_all_due _ _ _ _ hnd hcb]
    refine if_congr ?_ rfl rfl
    rw [show (1 : Int) + (N : Int) = ((N + 1 : Nat) : Int) by push_cast; omega]
    constructor
    · rintro ⟨n', h1, _, h3⟩
      rw [hc] at h1; injection h1 with h1; subst h1
      exact Int.natCast_dvd_natCast.1 h3
    · intro h
      exact ⟨n, hc, by omega, Int.natCast_dvd_natCast.2 h⟩

/-- **C37**. A callback without a positive cycle gets no cycle hook, whatever happens in the run. -/
theorem C37_none (t : Trainer W V) (hnd : (t.callbacks.map Callback.ident).Nodup) (cb : Callback W V)
    (hcb : cb ∈ t.callbacks) (hc : ∀ n, cb.cycle = some n → n ≤ 0) (fuel : Nat) (w : W) (st : Dict String V) :
    Shape.hook .endCycle cb.ident ∉ shapes (events t fuel w st) ∧
      Shape.hook .beginCycle cb.ident ∉ shapes (events t fuel w st) := by
  obtain ⟨k, hr⟩ := C35_protocol t fuel w st
  have h1 : ∀ k : Int, ¬ ∃ n, cb.cycle = some n ∧ 0 < n ∧ n ∣ k := by
    rintro k ⟨n, g1, g2, _⟩
    have := hc n g1
    omega
  have hb : ∀ (k : Int) (n : Nat), (batches t.callbacks k n).count (.hook .endCycle cb.ident) = 0 ∧
      (batches t.callbacks k n).count (.hook .beginCycle cb.ident) = 0 := by
    intro k n
    induction n generalizing k with
    | zero => simp [batches]
    | succ n ih =>
      unfold batches
      rw [List.count_append, List.count_append, (ih _).1, (ih _).2, count_oneBatch_end _ _ _ hnd hcb,
        count_oneBatch_begin _ _ _ hnd hcb, if_neg (h1 _), if_neg (h1 _)]
      simp
  have key : ∀ h : Hook, h = .endCycle ∨ h = .beginCycle → Shape.hook h cb.ident ∉ shapes (events t fuel w st) := by
    intro h hh
    have ho : ∀ n, Shape.hook h cb.ident ∉ opening t.callbacks ++ batches t.callbacks k n := by
      intro n
      rw [← List.count_eq_zero, List.count_append]
      rcases hh with rfl | rfl
      · rw [count_opening _ _ _ (by decide) (by decide), (hb k n).1]
      · rw [count_opening _ _ _ (by decide) (by decide), (hb k n).2]
    have hclose : ∀ (es : List (Event V)) ex o, Closing t.callbacks ex es o → Shape.hook h cb.ident ∉ shapes es := by
      intro es ex o hcl hm
      have : Shape.hook h cb.ident ∈ Spec.all (.endTraining ex) t.callbacks := by
        cases hcl with
        | done h1 _ _ => rw [← h1]; exact hm
        | raised e h1 _ _ => exact h1.subset hm
      unfold Spec.all at this
      simp only [List.mem_map, Shape.hook.injEq] at this
      obtain ⟨_, _, he, _⟩ := this
      rcases hh with rfl | rfl <;> simp at he
    generalize events t fuel w st = es at hr ⊢
    generalize (t.train fuel ⟨w, st⟩).2 = o at hr
    cases hr with
    | failedEarly ex h1 _ _ => exact fun hm => ho 0 (by simpa [batches] using h1.subset hm)
    | running h1 _ _ => rw [h1]; exact ho _
    | exhausted n _ h1 _ _ =>
      rw [h1, List.mem_append]
      rintro (hm | hm)
      · exact ho _ hm
      · simp at hm
    | stopped es₁ es₂ n ex o hes _ hcause hcl _ =>
      intro hm
      rw [hes, shapes, List.map_append, List.mem_append] at hm
      rcases hm with hm | hm
      · change Shape.hook h cb.ident ∈ shapes es₁ at hm
        cases hcause with
        | hook _ h2 _ => exact ho _ (h2.subset hm)
        | loader h2 _ =>
          rw [h2, List.mem_append] at hm
          rcases hm with hm | hm
          · exact ho _ hm
          · simp at hm
        | signal h2 _ =>
          rw [h2, List.mem_append] at hm
          rcases hm with hm | hm
          · exact ho _ hm
          · simp at hm
        | noStep _ _ _ _ h2 => rw [h2] at hm; exact ho 0 (by simpa [batches] using hm)
        | noSize _ _ _ h2 =>
          rw [h2, List.mem_append] at hm
          rcases hm with hm | hm
          · exact ho _ hm
          · simp at hm
      · exact hclose es₂ ex o hcl hm
  exact ⟨key _ (Or.inl rfl), key _ (Or.inr rfl)⟩

/-! ## C39 -/

/-- The `end_training` hooks do not raise. -/
def EndsQuietly (t : Trainer W V) : Prop :=
  ∀ cb ∈ t.callbacks, ∀ ex st w e, (cb.hook (.endTraining ex) st w).2 ≠ .error e

theorem closing_done {t : Trainer W V} (hend : EndsQuietly t) {es : List (Event V)} {ex : Exc} {o : Outcome}
    (hg : ∀ e ∈ es, e.Genuine t) (h : Closing t.callbacks ex es o) :
    shapes es = Spec.all (.endTraining ex) t.callbacks ∧ NoRaise es ∧ o = outcomeOf ex := by
  cases h with
  | done h1 h2 h3 => exact ⟨h1, h2, h3⟩
  | raised e h1 h2 _ =>
    exfalso
    obtain ⟨a, x, rfl, _, hx⟩ := h2
    have hs : x.shape ∈ Spec.all (.endTraining ex) t.callbacks := h1.subset (by simp [shapes])
    have hgx := hg x (by simp)
    unfold Spec.all at hs
    rw [List.mem_map] at hs
    obtain ⟨cb, _, hcb⟩ := hs
    cases x with
    | call h i seen r =>
      simp only [Event.shape, Shape.hook.injEq] at hcb
      obtain ⟨rfl, rfl⟩ := hcb
      obtain ⟨cb', hcb', _, w, hr⟩ := hgx
      cases r with
      | error e' => exact hend cb' hcb' ex seen w e' hr.symm
      | ok o => exact hx
    | batch b => simp [Event.shape] at hcb
    | stop ex => simp [Event.shape] at hcb
    | exhausted => simp [Event.shape] at hcb
    | noData e => simp [Event.shape] at hcb
    | goOn => simp [Event.shape] at hcb

omit [PyNum V] in
theorem raisedBy_unique {es a b : List (Event V)} {x : Event V} {ex ex' : Exc} (h : RaisedBy ex es)
    (he : es = a ++ x :: b) (hx : x.Raised ex') : b = [] ∧ ex' = ex := by
  obtain ⟨a', x', rfl, hn, hx'⟩ := h
  have hb : b = [] := by
    cases hb : b.reverse with
    | nil => simpa using hb
    | cons y ys =>
      exfalso
      have : b = ys.reverse ++ [y] := by rw [← List.reverse_reverse b, hb]; simp
      rw [this, ← List.cons_append, ← List.append_assoc] at he
      have := (List.append_inj' he rfl).1
      exact hn x (by rw [this]; simp) ex' hx
  subst hb
  obtain ⟨_, h2⟩ := List.append_inj' he rfl
  injection h2 with h2
  subst h2
  refine ⟨rfl, ?_⟩
  cases x' with
  | call h i seen r =>
    cases r with
    | error e => exact hx.symm.trans hx'
    | ok o => exact absurd hx id
  | batch b => exact absurd hx id
  | exhausted => exact absurd hx id
  | goOn => exact absurd hx id
  | noData e => exact hx.symm.trans hx'
  | stop e => exact hx.symm.trans hx'

/-- **C39**. Once training has begun (all `restore_state` and `begin_training` hooks are done), whatever raises `ex`
first (a hook of any callback in any phase of any batch, the data loader, the shutdown signal), what follows is one
`end_training(ex)` for every callback, in order, and nothing else; then `train` returns if `ex` is the shutdown
exception, and raises `ex` otherwise. -/
theorem C39_end_training (t : Trainer W V) (hend : EndsQuietly t) (fuel : Nat) (w : W) (st : Dict String V)
    (a b : List (Event V)) (x : Event V) (ex : Exc) (hev : events t fuel w st = a ++ x :: b)
    (hbegun : opening t.callbacks <+: shapes a) (hx : x.Raised ex) :
    shapes b = Spec.all (.endTraining ex) t.callbacks ∧ (t.train fuel ⟨w, st⟩).2 = some (outcomeOf ex) := by
  obtain ⟨k, hr⟩ := C35_protocol t fuel w st
  have hg := events_genuine t fuel w st
  rw [hev] at hr hg
  generalize (t.train fuel ⟨w, st⟩).2 = o at hr
  generalize hes : a ++ x :: b = es at hr hg
  cases hr with
  | failedEarly ex' h1 _ _ =>
    exfalso
    have l1 := h1.length_le
    have l2 := hbegun.length_le
    rw [← hes] at l1
    simp [shapes] at l1 l2
    omega
  | running _ h2 _ => exact absurd hx (h2 x (by rw [← hes]; simp) ex)
  | exhausted n _ _ h2 _ => exact absurd hx (h2 x (by rw [← hes]; simp) ex)
  | stopped es₁ es₂ n ex' o' heq _ hcause hcl ho =>
    subst ho
    rw [heq] at hes hg
    obtain ⟨h1, h2, h3⟩ := closing_done hend (fun e he => hg e (by simp [he])) hcl
    rw [List.append_eq_append_iff] at hes
    have hin : ∀ c', es₁ = a ++ x :: c' → c' ++ es₂ = b → shapes b = Spec.all (.endTraining ex) t.callbacks ∧
        some o' = some (outcomeOf ex) := by
      intro c' e1 e2
      have hrb : RaisedBy ex' es₁ := by
        cases hcause with
        | hook _ _ h => exact h
        | loader _ h => exact h
        | signal _ h => exact h
        | noStep _ _ _ _ _ h => exact absurd hx (h x (by rw [e1]; simp) ex)
        | noSize _ _ _ _ h => exact absurd hx (h x (by rw [e1]; simp) ex)
      obtain ⟨g1, g2⟩ := raisedBy_unique hrb e1 hx
      subst g1 g2
      rw [← e2]
      exact ⟨by simpa using h1, by rw [h3]⟩
    rcases hes with ⟨a', e1, e2⟩ | ⟨c', e1, e2⟩
    · cases a' with
      | nil =>
        exfalso
        exact h2 x (by simp only [List.nil_append] at e2; rw [← e2]; simp) ex hx
      | cons y ys =>
        rw [List.cons_append] at e2
        injection e2 with e2 e3
        subst e2
        exact hin ys e1 e3.symm
    · exfalso
      exact h2 x (by rw [e2]; simp) ex hx

omit [PyNum V] in
/-- Who can have raised an exception. -/
theorem raised_source {t : Trainer W V} {x : Event V} {ex : Exc} (hg : x.Genuine t) (hx : x.Raised ex) :
    (∃ h seen, ∃ cb ∈ t.callbacks, x = .call h cb.ident seen (.error ex) ∧ ∃ w, (cb.hook h seen w).2 = .error ex) ∨
    (x = .noData ex ∧ ∃ w, (t.iter w).2 = .error ex ∨ (t.next w).2 = .error ex) ∨
    (x = .stop ex ∧ ∃ w, (t.signal w).2 = .error ex ∨ (t.signal w).2 = .ok true ∧ ex = .shutdown) := by
  cases x with
  | call h i seen r =>
    obtain ⟨cb, hcb, hi, w, hr⟩ := hg
    cases r with
    | error e =>
      obtain rfl : e = ex := hx
      subst hi
      exact Or.inl ⟨h, seen, cb, hcb, rfl, w, hr.symm⟩
    | ok o => exact absurd hx id
  | batch b => exact absurd hx id
  | exhausted => exact absurd hx id
  | goOn => exact absurd hx id
  | noData e =>
    obtain rfl : e = ex := hx
    exact Or.inr (Or.inl ⟨rfl, hg⟩)
  | stop e =>
    obtain rfl : e = ex := hx
    exact Or.inr (Or.inr ⟨rfl, hg⟩)

omit [PyNum V] in
theorem shapes_last {es a : List (Event V)} {x : Event V} {l : List Shape} {y : Shape} (he : es = a ++ [x])
    (hs : shapes es = l ++ [y]) : shapes a = l ∧ x.shape = y := by
  subst he
  have : shapes a ++ [x.shape] = l ++ [y] := by rw [← hs]; simp [shapes]
  obtain ⟨h1, h2⟩ := List.append_inj' this rfl
  injection h2 with h2
  exact ⟨h1, h2⟩

/-- In a fresh run the counters and batch sizes are always usable, so that the loop is only left because something
raised. -/
theorem fresh_cause {t : Trainer W V} {size : Dict String V → Int} (hq : Fresh t size) {st : Dict String V} {n : Nat}
    {ex : Exc} {es : List (Event V)} (hg : ∀ e ∈ es, e.Genuine t)
    (hc : Cause t.callbacks t.sizeKey (startState st) 1 n ex es) : RaisedBy ex es := by
  cases hc with
  | hook _ _ h => exact h
  | loader _ h => exact h
  | signal _ h => exact h
  | noStep e st' hn hex hs hnr hf hno =>
    exfalso
    obtain ⟨_, h2, _⟩ := flows_counters hq hf hg 0 (startState_samples st)
    have hcount : (shapes es).count .batch = 0 := by
      rw [hs]; unfold opening; rw [List.count_append, count_all, count_all]
    have := h2 hcount
    rw [startState_step] at this
    exact hno _ 1 this (PyNum.toInt_ofInt 1)
  | noSize e st' hex hs hnr hf hno =>
    exfalso
    obtain ⟨h1, _, _⟩ := flows_counters hq hf hg 0 (startState_samples st)
    rcases hno with hno | hno
    · exact hno _ _ h1 (PyNum.toInt_ofInt _)
    · obtain ⟨a, x, hax⟩ : ∃ a x, es = a ++ [x] := by
        rcases List.eq_nil_or_concat es with h | ⟨a, x, h⟩
        · rw [h] at hs; simp [shapes] at hs
        · exact ⟨a, x, by rw [h]; simp⟩
      obtain ⟨_, hsx⟩ := shapes_last hax hs
      cases x with
      | batch b =>
        subst hax
        obtain ⟨mid, _, st₁, g2, g3⟩ := flows_split hf
        obtain ⟨w, hw⟩ := hg (.batch b) (by simp)
        obtain ⟨hnd, _, _, v, hv, hsz⟩ := hq.batches w b hw
        have := g2.others t.sizeKey hq.sizeKey.1 hq.sizeKey.2
        rw [Dict.get?_update _ _ hnd, hv] at this
        rw [show st' = st₁ from g3] at hno
        exact hno v (size b) this hsz
      | call h i seen r => simp [Event.shape] at hsx
      | exhausted => simp [Event.shape] at hsx
      | goOn => simp [Event.shape] at hsx
      | noData e => simp [Event.shape] at hsx
      | stop e => simp [Event.shape] at hsx

omit [PyNum V] in
theorem mem_opening {cbs : List (Callback W V)} {h : Hook} {i : Nat} (hm : Shape.hook h i ∈ opening cbs) :
    h = .restoreState ∨ h = .beginTraining := by
  unfold opening Spec.all at hm
  simp only [List.mem_append, List.mem_map, Shape.hook.injEq] at hm
  rcases hm with ⟨_, _, h1, _⟩ | ⟨_, _, h1, _⟩
  · exact Or.inl h1.symm
  · exact Or.inr h1.symm

omit [PyNum V] in
theorem mem_opening_hook {cbs : List (Callback W V)} {y : Shape} (hm : y ∈ opening cbs) : ∃ h i, y = .hook h i := by
  unfold opening Spec.all at hm
  simp only [List.mem_append, List.mem_map] at hm
  rcases hm with ⟨cb, _, h1⟩ | ⟨cb, _, h1⟩
  · exact ⟨_, _, h1.symm⟩
  · exact ⟨_, _, h1.symm⟩

omit [PyNum V] in
/-- If the opening hooks do not raise, no run fails early. -/
theorem not_failed_early {t : Trainer W V}
    (hbegin : ∀ cb ∈ t.callbacks, ∀ h st w e, (h = .restoreState ∨ h = .beginTraining) → (cb.hook h st w).2 ≠ .error e)
    {es : List (Event V)} (hg : ∀ e ∈ es, e.Genuine t) {ex : Exc} (hs : shapes es <+: opening t.callbacks)
    (hr : RaisedBy ex es) : False := by
  obtain ⟨a, x, rfl, _, hx⟩ := hr
  have hmem : x.shape ∈ opening t.callbacks := hs.subset (by simp [shapes])
  rcases raised_source (hg x (by simp)) hx with ⟨h, seen, cb, hcb, rfl, w, hw⟩ | ⟨rfl, _⟩ | ⟨rfl, _⟩
  · exact hbegin cb hcb h seen w ex (mem_opening hmem) hw
  · obtain ⟨_, _, h⟩ := mem_opening_hook hmem
    simp [Event.shape] at h
  · obtain ⟨_, _, h⟩ := mem_opening_hook hmem
    simp [Event.shape] at h

omit [PyNum V] in
theorem mem_shapes {es : List (Event V)} {y : Shape} (h : y ∈ shapes es) : ∃ e ∈ es, e.shape = y := by
  simpa [shapes] using h

omit [PyNum V] in
theorem goOn_mem_batches (cbs : List (Callback W V)) (k : Int) (n : Nat) : Shape.goOn ∈ batches cbs k (n + 1) := by
  unfold batches oneBatch
  simp

omit [PyNum V] in
theorem goOn_genuine {t : Trainer W V} (hsig : ∀ w, (t.signal w).2 = .ok true) {es : List (Event V)}
    (hg : ∀ e ∈ es, e.Genuine t) : Shape.goOn ∉ shapes es := by
  intro hm
  obtain ⟨e, he, hs⟩ := mem_shapes hm
  have := hg e he
  cases e with
  | goOn =>
    obtain ⟨w, hw⟩ := this
    rw [hsig w] at hw; simp at hw
  | call h i seen r => simp [Event.shape] at hs
  | exhausted => simp [Event.shape] at hs
  | batch b => simp [Event.shape] at hs
  | noData e => simp [Event.shape] at hs
  | stop e => simp [Event.shape] at hs

/-- **C39** (the signal). When the shutdown signal says stop, no hook of the batch just fetched runs: what follows
is `end_training` for every callback, and `train` returns. -/
theorem C39_signal (t : Trainer W V) (hend : EndsQuietly t) (hsig : ∀ w, (t.signal w).2 = .ok true)
    (hnext : ∀ w, ∃ b, (t.next w).2 = .ok (some b)) (hiter : ∀ w e, (t.iter w).2 ≠ .error e)
    (size : Dict String V → Int) (hq : Fresh t size)
    (hbegin : ∀ cb ∈ t.callbacks, ∀ h st w e, (h = .restoreState ∨ h = .beginTraining) → (cb.hook h st w).2 ≠ .error e)
    (fuel : Nat) (hf : 0 < fuel) (w : W) (st : Dict String V) :
    shapes (events t fuel w st) = opening t.callbacks ++ [.batch, .stop] ++ Spec.all (.endTraining .shutdown) t.callbacks ∧
      (t.train fuel ⟨w, st⟩).2 = some .returned := by
  obtain ⟨hr, _⟩ := events_run t fuel w st 1 (fresh_start hq w st)
  have hg := events_genuine t fuel w st
  have hgo := goOn_genuine hsig hg
  generalize events t fuel w st = es at hr hg hgo ⊢
  generalize (t.train fuel ⟨w, st⟩).2 = o at hr ⊢
  cases hr with
  | failedEarly ex h1 h2 _ => exact (not_failed_early hbegin hg h1 h2).elim
  | running h1 _ _ =>
    obtain ⟨n, rfl⟩ : ∃ n, fuel = n + 1 := ⟨fuel - 1, by omega⟩
    exact absurd (by rw [h1]; exact List.mem_append_right _ (goOn_mem_batches _ _ _)) hgo
  | exhausted n _ h1 _ _ =>
    obtain ⟨e, he, hs⟩ := mem_shapes (es := es) (y := .exhausted) (by rw [h1]; simp)
    have := hg e he
    cases e with
    | exhausted =>
      obtain ⟨w', hw'⟩ := this
      obtain ⟨b, hb⟩ := hnext w'
      rw [hb] at hw'; simp at hw'
    | call h i seen r => simp [Event.shape] at hs
    | goOn => simp [Event.shape] at hs
    | batch b => simp [Event.shape] at hs
    | noData e => simp [Event.shape] at hs
    | stop e => simp [Event.shape] at hs
  | stopped es₁ es₂ n ex o' heq _ hcause hcl ho =>
    subst heq ho
    have hg1 : ∀ e ∈ es₁, e.Genuine t := fun e he => hg e (by simp [he])
    obtain ⟨h1, _, h3⟩ := closing_done hend (fun e he => hg e (by simp [he])) hcl
    have hgo1 : Shape.goOn ∉ shapes es₁ := goOn_genuine hsig hg1
    have hrb := fresh_cause hq hg1 hcause
    have hn0 : ∀ n l, opening t.callbacks ++ batches t.callbacks 1 n ++ l <+: shapes es₁ → n = 0 := by
      intro n l hp
      cases n with
      | zero => rfl
      | succ n =>
        exact absurd (hp.subset (List.mem_append_left _ (List.mem_append_right _ (goOn_mem_batches _ _ _)))) hgo1
    obtain ⟨a, x, hax, hna, hx⟩ := hrb
    have hsrc := raised_source (hg1 x (by rw [hax]; simp)) hx
    cases hcause with
    | hook p1 p2 _ =>
      exfalso
      have := hn0 n _ p1
      subst this
      replace p1 := (List.prefix_append _ _).trans p1
      -- the shapes are a prefix of the opening, a batch, and a `goOn`
      have h5 : shapes es₁ = opening t.callbacks ∨ shapes es₁ = opening t.callbacks ++ [.batch] := by
        obtain ⟨l, hl⟩ := p1
        simp only [batches, List.append_nil] at hl
        rw [← hl] at p2
        have p3 := (List.prefix_append_right_inj _).1 p2
        cases l with
        | nil => left; rw [← hl]; simp
        | cons y l =>
          unfold batches oneBatch at p3
          rw [List.cons_append] at p3
          obtain ⟨e1, p4⟩ := List.cons_prefix_cons.1 p3
          cases l with
          | nil => right; rw [← hl, e1]
          | cons z l =>
            rw [List.cons_append] at p4
            obtain ⟨e2, _⟩ := List.cons_prefix_cons.1 p4
            exfalso
            exact hgo1 (by rw [← hl, e2]; simp)
      have hxs : x.shape ∈ opening t.callbacks ∨ x.shape = .batch := by
        have : x.shape ∈ shapes es₁ := by rw [hax]; simp [shapes]
        rcases h5 with h5 | h5
        · left; rw [← h5]; exact this
        · rw [h5, List.mem_append, List.mem_singleton] at this; exact this
      rcases hsrc with ⟨h, seen, cb, hcb, rfl, w', hw'⟩ | ⟨rfl, _⟩ | ⟨rfl, _⟩
      · rcases hxs with hxs | hxs
        · exact hbegin cb hcb h seen w' ex (mem_opening hxs) hw'
        · simp [Event.shape] at hxs
      · rcases hxs with hxs | hxs
        · obtain ⟨_, _, h⟩ := mem_opening_hook hxs
          simp [Event.shape] at h
        · simp [Event.shape] at hxs
      · rcases hxs with hxs | hxs
        · obtain ⟨_, _, h⟩ := mem_opening_hook hxs
          simp [Event.shape] at h
        · simp [Event.shape] at hxs
    | loader hs _ =>
      exfalso
      have hx2 := (shapes_last hax hs).2
      rcases hsrc with ⟨h, seen, cb, hcb, rfl, w', hw'⟩ | ⟨rfl, w', hw'⟩ | ⟨rfl, w', hw'⟩
      · simp [Event.shape] at hx2
      · rcases hw' with hw' | hw'
        · exact hiter w' ex hw'
        · obtain ⟨b, hb⟩ := hnext w'
          rw [hb] at hw'; simp at hw'
      · simp [Event.shape] at hx2
    | signal hs _ =>
      have := hn0 n [.batch, .stop] (by rw [hs]; exact List.prefix_rfl)
      subst this
      have hex : ex = .shutdown := by
        have hx2 := (shapes_last (l := opening t.callbacks ++ batches t.callbacks 1 0 ++ [.batch]) hax
          (hs.trans (by rw [List.append_assoc _ [Shape.batch] [Shape.stop]]; rfl))).2
        rcases hsrc with ⟨h, seen, cb, hcb, rfl, w', hw'⟩ | ⟨rfl, w', hw'⟩ | ⟨rfl, w', hw'⟩
        · simp [Event.shape] at hx2
        · simp [Event.shape] at hx2
        · rcases hw' with hw' | hw'
          · rw [hsig w'] at hw'; simp at hw'
          · exact hw'.2
      subst hex
      refine ⟨?_, by rw [h3]; rfl⟩
      rw [shapes, List.map_append]
      show shapes es₁ ++ shapes es₂ = _
      rw [h1, hs]
      simp [batches]
    | noStep _ _ _ _ _ hnr _ _ => exact absurd hx (hnr x (by rw [hax]; simp) ex)
    | noSize _ _ _ _ hnr _ _ => exact absurd hx (hnr x (by rw [hax]; simp) ex)

/-! ## C40 -/

/-- **C40** (what goes wrong). When the data is exhausted, `train` returns and no callback has had its
`end_training`. -/
theorem C40_exhausted (t : Trainer W V) (fuel : Nat) (w : W) (st : Dict String V)
    (hx : Shape.exhausted ∈ shapes (events t fuel w st)) :
    (t.train fuel ⟨w, st⟩).2 = some .returned ∧
      ∀ ex i, Shape.hook (.endTraining ex) i ∉ shapes (events t fuel w st) := by
  obtain ⟨k, hr⟩ := C35_protocol t fuel w st
  generalize events t fuel w st = es at hr hx ⊢
  generalize (t.train fuel ⟨w, st⟩).2 = o at hr ⊢
  have nohook : ∀ n, Shape.exhausted ∉ opening t.callbacks ++ batches t.callbacks k n ∧
      ∀ ex i, Shape.hook (.endTraining ex) i ∉ opening t.callbacks ++ batches t.callbacks k n := by
    intro n
    have hb : ∀ (k : Int) (n : Nat), Shape.exhausted ∉ batches t.callbacks k n ∧
        ∀ ex i, Shape.hook (.endTraining ex) i ∉ batches t.callbacks k n := by
      intro k n
      induction n generalizing k with
      | zero => simp [batches]
      | succ n ih =>
        obtain ⟨i1, i2⟩ := ih (k + 1)
        unfold batches oneBatch Spec.all
        constructor
        · simp [i1]
        · intro ex i
          simp [i2 ex i]
    constructor
    · simp [opening, Spec.all, (hb k n).1]
    · intro ex i
      simp [opening, Spec.all, (hb k n).2 ex i]
  have habs : ∀ n, shapes es <+: opening t.callbacks ++ batches t.callbacks k n → False := fun n hp =>
    (nohook n).1 (hp.subset hx)
  cases hr with
  | failedEarly ex h1 _ _ => exact (habs 0 (by simpa [batches] using h1)).elim
  | running h1 _ _ => exact (habs fuel (by rw [h1]; exact List.prefix_rfl)).elim
  | exhausted n _ h1 _ ho =>
    refine ⟨ho, fun ex i hm => ?_⟩
    rw [h1, List.mem_append] at hm
    rcases hm with hm | hm
    · exact (nohook n).2 ex i hm
    · simp at hm
  | stopped es₁ es₂ n ex o' heq _ hcause hcl _ =>
    exfalso
    rw [heq, shapes, List.map_append, List.mem_append] at hx
    rcases hx with hx | hx
    · change Shape.exhausted ∈ shapes es₁ at hx
      cases hcause with
      | hook _ h2 _ => exact (nohook _).1 (h2.subset hx)
      | loader h2 _ =>
        rw [h2, List.mem_append] at hx
        rcases hx with hx | hx
        · exact (nohook _).1 hx
        · simp at hx
      | signal h2 _ =>
        rw [h2, List.mem_append] at hx
        rcases hx with hx | hx
        · exact (nohook _).1 hx
        · simp at hx
      | noStep _ _ _ _ h2 => rw [h2] at hx; exact (nohook 0).1 (by simpa [batches] using hx)
      | noSize _ _ _ h2 =>
        rw [h2, List.mem_append] at hx
        rcases hx with hx | hx
        · exact (nohook _).1 hx
        · simp at hx
    · change Shape.exhausted ∈ shapes es₂ at hx
      have : Shape.exhausted ∈ Spec.all (.endTraining ex) t.callbacks := by
        cases hcl with
        | done h1 _ _ => rw [← h1]; exact hx
        | raised e h1 _ _ => exact h1.subset hx
      simp [Spec.all] at this

/-- **C40** (what holds). If training began and `train` returns without the data being exhausted, every callback
has had its `end_training`, once, at the very end. -/
theorem C40_partial (t : Trainer W V) (hend : EndsQuietly t) (fuel : Nat) (w : W) (st : Dict String V)
    (hbegun : ∃ y l, shapes (events t fuel w st) = opening t.callbacks ++ y :: l)
    (hret : (t.train fuel ⟨w, st⟩).2 = some .returned) (hx : Shape.exhausted ∉ shapes (events t fuel w st)) :
    ∃ l, shapes (events t fuel w st) = l ++ Spec.all (.endTraining .shutdown) t.callbacks ∧
      ∀ ex i, Shape.hook (.endTraining ex) i ∉ l := by
  obtain ⟨k, hr⟩ := C35_protocol t fuel w st
  have hg := events_genuine t fuel w st
  generalize events t fuel w st = es at hr hx hg hbegun ⊢
  have nohook : ∀ n ex i, Shape.hook (.endTraining ex) i ∉ opening t.callbacks ++ batches t.callbacks k n := by
    intro n
    have hb : ∀ (k : Int) (n : Nat) ex i, Shape.hook (.endTraining ex) i ∉ batches t.callbacks k n := by
      intro k n
      induction n generalizing k with
      | zero => simp [batches]
      | succ n ih =>
        have i2 := ih (k + 1)
        unfold batches oneBatch Spec.all
        intro ex i
        simp [i2 ex i]
    intro ex i
    simp [opening, Spec.all, hb k n ex i]
  cases hr with
  | failedEarly ex h1 _ _ =>
    exfalso
    obtain ⟨y, l, hy⟩ := hbegun
    have := h1.length_le
    rw [hy] at this
    simp at this
  | running _ _ ho => rw [hret] at ho; simp at ho
  | exhausted n _ h1 _ _ => exact absurd (by rw [h1]; simp) hx
  | stopped es₁ es₂ n ex o' heq _ hcause hcl ho =>
    subst heq
    obtain ⟨h1, _, h3⟩ := closing_done hend (fun e he => hg e (by simp [he])) hcl
    have hex : ex = .shutdown := by
      rw [hret, h3] at ho
      cases ex with
      | shutdown => rfl
      | error e => simp [outcomeOf] at ho
    subst hex
    refine ⟨shapes es₁, by rw [← h1]; simp [shapes], fun ex i hm => ?_⟩
    cases hcause with
    | hook _ h2 _ => exact nohook _ ex i (h2.subset hm)
    | loader h2 _ =>
      rw [h2, List.mem_append] at hm
      rcases hm with hm | hm
      · exact nohook _ ex i hm
      · simp at hm
    | signal h2 _ =>
      rw [h2, List.mem_append] at hm
      rcases hm with hm | hm
      · exact nohook _ ex i hm
      · simp at hm
    | noStep _ _ _ _ h2 => rw [h2] at hm; exact nohook 0 ex i (by simpa [batches] using hm)
    | noSize _ _ _ h2 =>
      rw [h2, List.mem_append] at hm
      rcases hm with hm | hm
      · exact nohook _ ex i hm
      · simp at hm

/-! ## C38 and C81 -/

/-- Batch `k`, given up at the `end_cycle` of the callback with identity `i`, which comes after the callbacks
`before` it. -/
def untilEndCycle (cbs before : List (Callback W V)) (k : Int) (i : Nat) : List Shape :=
  .batch :: .goOn :: (Spec.all .beginCycle (due (k - 1) cbs) ++ (Spec.all .beginBatch cbs ++ (Spec.all .backward cbs ++
    (Spec.all .endBatch cbs ++ (Spec.all .endCycle (due k before) ++ [.hook .endCycle i])))))

omit [PyNum V] in
theorem prefix_at {α : Type} {l p u v : List α} {y : α} (hp : p ++ [y] <+: l) (hyp : y ∉ p) (hl : l = u ++ y :: v)
    (hyu : y ∉ u) : p = u := by
  obtain ⟨s, hs⟩ := hp
  rw [hl, List.append_assoc] at hs
  rw [List.append_eq_append_iff] at hs
  rcases hs with ⟨a', e1, e2⟩ | ⟨c', e1, e2⟩
  · cases a' with
    | nil => simpa using e1.symm
    | cons z zs =>
      simp only [List.singleton_append, List.cons_append] at e2
      injection e2 with e2 _
      exact absurd (by rw [e1, e2]; simp) hyu
  · cases c' with
    | nil => simpa using e1
    | cons z zs =>
      simp only [List.cons_append] at e2
      injection e2 with e2 _
      exact absurd (by rw [e1, e2]; simp) hyp

/-- The conditions of C38: the terminator of `N` steps among callbacks with different identities that do not raise,
a data loader that does not raise, and no shutdown signal. -/
structure StepLimited (t : Trainer W V) (size : Dict String V → Int) (before after : List (Callback W V)) (i : Nat)
    (N : Nat) : Prop where
  callbacks : t.callbacks = before ++ terminator i N :: after
  idents : (t.callbacks.map Callback.ident).Nodup
  positive : 0 < N
  quiet : ∀ cb ∈ before ++ after, ∀ h st w e, (cb.hook h st w).2 ≠ .error e
  iter : ∀ w e, (t.iter w).2 ≠ .error e
  next : ∀ w e, (t.next w).2 ≠ .error e
  signal : ∀ w, (t.signal w).2 = .ok false
  fresh : Fresh t size

omit [PyNum V] in
theorem due_append (k : Int) (a b : List (Callback W V)) : due k (a ++ b) = due k a ++ due k b := by
  unfold due; rw [List.filter_append]

/-- **C38**. With a terminator of `N` steps, well-behaved callbacks and no shutdown signal, a fresh run on any data
source does `N` batches, the last of which is ended by the terminator's `end_cycle`; then every callback gets
`end_training` once, and `train` returns. Or else the data is exhausted before that, after fewer than `N` batches. -/
theorem C38_steps (t : Trainer W V) (size : Dict String V → Int) (before after : List (Callback W V)) (i N : Nat)
    (hl : StepLimited t size before after i N) (fuel : Nat) (hf : N ≤ fuel) (w : W) (st : Dict String V) :
    (t.train fuel ⟨w, st⟩).2 = some .returned ∧
    (shapes (events t fuel w st) = opening t.callbacks ++ batches t.callbacks 1 (N - 1) ++
        untilEndCycle t.callbacks before N i ++ Spec.all (.endTraining .shutdown) t.callbacks ∨
      ∃ n < N, shapes (events t fuel w st) = opening t.callbacks ++ batches t.callbacks 1 n ++ [.exhausted]) := by
  obtain ⟨hr, _⟩ := events_run t fuel w st 1 (fresh_start hl.fresh w st)
  have hg := events_genuine t fuel w st
  generalize events t fuel w st = es at hr hg ⊢
  generalize (t.train fuel ⟨w, st⟩).2 = o at hr ⊢
  have hterm : terminator i (N : Int) ∈ t.callbacks := by rw [hl.callbacks]; simp
  -- who raises
  have hraise : ∀ cb ∈ t.callbacks, ∀ h st w ex, (cb.hook h st w).2 = .error ex →
      cb = terminator i (N : Int) ∧ h = .endCycle ∧ ex = .shutdown := by
    intro cb hcb h st w ex hx
    rw [hl.callbacks] at hcb
    have : cb ∈ before ++ after ∨ cb = terminator i (N : Int) := by
      simp only [List.mem_append, List.mem_cons] at hcb ⊢
      rcases hcb with h | h | h
      · exact Or.inl (Or.inl h)
      · exact Or.inr h
      · exact Or.inl (Or.inr h)
    rcases this with h1 | h1
    · exact absurd hx (hl.quiet cb h1 h st w ex)
    · subst h1
      refine ⟨rfl, ?_⟩
      cases h <;> simp [terminator] at hx
      exact ⟨rfl, hx.symm⟩
  have hquiet : EndsQuietly t := by
    intro cb hcb ex st w e hx
    have := (hraise cb hcb _ st w e hx).2.1
    simp at this
  have hbegin : ∀ cb ∈ t.callbacks, ∀ h st w e, (h = .restoreState ∨ h = .beginTraining) →
      (cb.hook h st w).2 ≠ .error e := by
    intro cb hcb h st w e hh hx
    have := (hraise cb hcb h st w e hx).2.1
    subst this
    simp at hh
  -- the terminator's end_cycle raises
  have hstop : ∀ es : List (Event V), (∀ e ∈ es, e.Genuine t) → NoRaise es → Shape.hook .endCycle i ∉ shapes es := by
    intro es hg hn hm
    obtain ⟨e, he, hs⟩ := mem_shapes hm
    have hge := hg e he
    cases e with
    | call h j seen r =>
      simp only [Event.shape, Shape.hook.injEq] at hs
      obtain ⟨rfl, rfl⟩ := hs
      obtain ⟨cb, hcb, hi, w', hr⟩ := hge
      have : cb = terminator j (N : Int) := List.inj_on_of_nodup_map hl.idents hcb hterm hi
      subst this
      simp only [terminator] at hr
      subst hr
      exact hn _ he .shutdown rfl
    | batch b => simp [Event.shape] at hs
    | exhausted => simp [Event.shape] at hs
    | goOn => simp [Event.shape] at hs
    | noData e => simp [Event.shape] at hs
    | stop e => simp [Event.shape] at hs
  have hcount : ∀ n, (batches t.callbacks 1 n).count (.hook .endCycle i) = n / N := fun n =>
    count_batches_end t.callbacks (terminator i (N : Int)) N hl.positive rfl hl.idents hterm n
  have hlt : ∀ n, Shape.hook .endCycle i ∉ batches t.callbacks 1 n → n < N := by
    intro n hn
    rw [← List.count_eq_zero, hcount] at hn
    rcases Nat.div_eq_zero_iff.1 hn with h | h
    · have := hl.positive; omega
    · exact h
  cases hr with
  | failedEarly ex h1 h2 _ => exact (not_failed_early hbegin hg h1 h2).elim
  | running h1 hn _ =>
    have := hlt fuel (fun hm => hstop es hg hn (by rw [h1]; exact List.mem_append_right _ hm))
    omega
  | exhausted n _ h1 hn ho =>
    refine ⟨ho, Or.inr ⟨n, hlt n fun hm => hstop es hg hn ?_, h1⟩⟩
    rw [h1]
    exact List.mem_append_left _ (List.mem_append_right _ hm)
  | stopped es₁ es₂ n ex o' heq _ hcause hcl ho =>
    subst heq ho
    have hg1 : ∀ e ∈ es₁, e.Genuine t := fun e he => hg e (by simp [he])
    obtain ⟨h1, _, h3⟩ := closing_done hquiet (fun e he => hg e (by simp [he])) hcl
    obtain ⟨a, x, hax, hna, hx⟩ := fresh_cause hl.fresh hg1 hcause
    have hga : ∀ e ∈ a, e.Genuine t := fun e he => hg1 e (by rw [hax]; simp [he])
    have hnoa := hstop a hga hna
    rcases raised_source (hg1 x (by rw [hax]; simp)) hx with
      ⟨h, seen, cb, hcb, hxe, w', hw'⟩ | ⟨_, w', hw'⟩ | ⟨_, w', hw'⟩
    · obtain ⟨g1, g2, g3⟩ := hraise cb hcb h seen w' ex hw'
      subst g1 g2 g3
      have hshape : shapes es₁ = shapes a ++ [.hook .endCycle i] := by
        rw [hax, hxe]; simp [shapes, Event.shape, terminator]
      cases hcause with
      | hook p1 p2 _ =>
        rw [hshape] at p1 p2
        have p3 : opening t.callbacks ++ batches t.callbacks 1 n ++ [.batch, .goOn] <+: shapes a := by
          rcases List.prefix_concat_iff.1 p1 with h | h
          · have := congrArg List.getLast? h
            simp at this
          · exact h
        have hn : n < N := hlt n fun hm =>
          hnoa (p3.subset (List.mem_append_left _ (List.mem_append_right _ hm)))
        have hnotin : Shape.hook .endCycle i ∉ opening t.callbacks ++ batches t.callbacks 1 n := fun hm =>
          hnoa (p3.subset (List.mem_append_left _ hm))
        have hin : Shape.hook .endCycle i ∈ oneBatch t.callbacks (1 + n) := by
          have : Shape.hook .endCycle i ∈ opening t.callbacks ++ batches t.callbacks 1 (n + 1) := p2.subset (by simp)
          rw [batches_snoc, ← List.append_assoc, List.mem_append] at this
          exact this.resolve_left hnotin
        have hdvd : N ∣ n + 1 := by
          have h5 := count_oneBatch_end t.callbacks (1 + n) (terminator i (N : Int)) hl.idents hterm
          have h6 : 0 < (oneBatch t.callbacks (1 + n)).count (.hook .endCycle (terminator (W := W) (V := V) i (N : Int)).ident) :=
            List.count_pos_iff.2 hin
          rw [h5] at h6
          split at h6
          · rename_i h7
            obtain ⟨m, h8, _, h10⟩ := h7
            injection h8 with h8
            subst h8
            rw [show (1 : Int) + (n : Int) = ((n + 1 : Nat) : Int) by push_cast; omega] at h10
            exact Int.natCast_dvd_natCast.1 h10
          · omega
        have hnN : n + 1 = N := by
          have := Nat.le_of_dvd (by omega) hdvd
          omega
        refine ⟨by rw [h3]; rfl, Or.inl ?_⟩
        obtain ⟨l, hl'⟩ : ∃ l, opening t.callbacks ++ batches t.callbacks 1 (n + 1)
            = (opening t.callbacks ++ batches t.callbacks 1 n ++ (.batch :: .goOn ::
              (Spec.all .beginCycle (due ((1 + n : Int) - 1) t.callbacks) ++ (Spec.all .beginBatch t.callbacks ++
                (Spec.all .backward t.callbacks ++ (Spec.all .endBatch t.callbacks ++
                  Spec.all .endCycle (due (1 + n) before))))))) ++ .hook .endCycle i :: l := by
          refine ⟨Spec.all .endCycle (due (1 + n) after), ?_⟩
          rw [batches_snoc]
          have hd : due (1 + (n : Int)) t.callbacks = due (1 + n) before ++ terminator i (N : Int) :: due (1 + n) after := by
            conv_lhs => rw [hl.callbacks]
            rw [due_append]
            congr 1
            unfold due
            rw [List.filter_cons_of_pos]
            simp only [terminator, decide_eq_true_eq]
            refine ⟨by omega, 1, by omega⟩
          unfold oneBatch
          rw [hd]
          unfold Spec.all
          simp [List.append_assoc, terminator]
        have hu := prefix_at p2 hnoa hl' ?_
        · rw [shapes, List.map_append]
          show shapes es₁ ++ shapes es₂ = _
          rw [h1, hshape, hu, show N - 1 = n by omega, ← hnN]
          unfold untilEndCycle
          rw [show (((n + 1 : Nat) : Int)) = 1 + (n : Int) by push_cast; omega]
          simp only [List.append_assoc, List.cons_append, List.nil_append]
        · rw [List.mem_append]
          rintro (hm | hm)
          · exact hnotin hm
          · simp only [Spec.all, List.mem_cons, reduceCtorEq, List.mem_append, List.mem_map, Shape.hook.injEq,
              false_and, and_false, exists_false, true_and, false_or] at hm
            obtain ⟨cb, hcb, hi⟩ := hm
            have hcb' : cb ∈ before := (List.mem_filter.1 hcb).1
            have hnd := hl.idents
            rw [hl.callbacks, List.map_append, List.nodup_append] at hnd
            exact hnd.2.2 cb.ident (List.mem_map_of_mem hcb') i (by simp [terminator]) hi
      | loader hs _ =>
        have := (shapes_last hax hs).2
        rw [hxe] at this; simp [Event.shape] at this
      | signal hs _ =>
        have := (shapes_last (l := opening t.callbacks ++ batches t.callbacks 1 n ++ [.batch]) hax
          (hs.trans (by rw [List.append_assoc _ [Shape.batch] [Shape.stop]]; rfl))).2
        rw [hxe] at this; simp [Event.shape] at this
      | noStep _ _ _ _ _ hnr _ _ => exact absurd hx (hnr x (by rw [hax]; simp) _)
      | noSize _ _ _ _ hnr _ _ => exact absurd hx (hnr x (by rw [hax]; simp) _)
    · rcases hw' with hw' | hw'
      · exact absurd hw' (hl.iter w' ex)
      · exact absurd hw' (hl.next w' ex)
    · rw [hl.signal w'] at hw'
      simp at hw'

omit [PyNum V] in
theorem count_untilEndCycle (cbs before : List (Callback W V)) (k : Int) (i : Nat) (cb : Callback W V)
    (hi : cb.ident ≠ i) : (untilEndCycle cbs before k i).count (.hook .endCycle cb.ident)
      = (Spec.all .endCycle (due k before)).count (.hook .endCycle cb.ident) := by
  unfold untilEndCycle
  rw [List.count_cons_of_ne (by simp), List.count_cons_of_ne (by simp)]
  simp only [List.count_append]
  rw [count_all_ne (h' := .beginCycle) _ _ (by decide), count_all_ne (h' := .beginBatch) _ _ (by decide),
    count_all_ne (h' := .backward) _ _ (by decide), count_all_ne (h' := .endBatch) _ _ (by decide),
    List.count_cons_of_ne (by simpa using Ne.symm hi)]
  simp

omit [PyNum V] in
theorem steps_count (cbs before after : List (Callback W V)) (i N n : Nat)
    (hcbs : cbs = before ++ terminator i N :: after) (hnd : (cbs.map Callback.ident).Nodup) (hn : 0 < n)
    (cb : Callback W V) (hcb : cb ∈ before ++ after) (hc : cb.cycle = some (n : Int)) :
    (opening cbs ++ batches cbs 1 (N - 1) ++ untilEndCycle cbs before N i
        ++ Spec.all (.endTraining .shutdown) cbs).count (.hook .endCycle cb.ident)
      = (N - 1) / n + (Spec.all .endCycle (due N before)).count (.hook .endCycle cb.ident) := by
  have hmem : cb ∈ cbs := by
    rw [hcbs]
    simp only [List.mem_append, List.mem_cons] at hcb ⊢
    tauto
  have hne : cb.ident ≠ i := by
    intro e
    rw [hcbs, List.map_append, List.map_cons, List.nodup_append] at hnd
    obtain ⟨_, h2, h3⟩ := hnd
    rcases List.mem_append.1 hcb with h | h
    · exact h3 _ (List.mem_map_of_mem h) i (by simp [terminator]) e
    · exact (List.nodup_cons.1 h2).1 (by simpa [terminator, ← e] using List.mem_map_of_mem (f := Callback.ident) h)
  simp only [List.count_append]
  rw [count_opening _ _ _ (by simp) (by simp), count_batches_end cbs cb n hn hc hnd hmem,
    count_untilEndCycle _ _ _ _ _ hne, count_all_ne (h' := .endTraining .shutdown) _ _ (by simp)]
  omega

/-- **C81** (what holds). In a step-limited run that is not cut short by the data, a callback that comes before the
terminator and has cycle `n` gets all `⌊N/n⌋` of its `end_cycle`s. Missing: the callbacks after the terminator. -/
theorem C81_partial (t : Trainer W V) (size : Dict String V → Int) (before after : List (Callback W V)) (i N : Nat)
    (hl : StepLimited t size before after i N) (fuel : Nat) (hf : N ≤ fuel) (w : W) (st : Dict String V)
    (hx : Shape.exhausted ∉ shapes (events t fuel w st)) (cb : Callback W V) (hcb : cb ∈ before) (n : Nat)
    (hn : 0 < n) (hc : cb.cycle = some (n : Int)) :
    (shapes (events t fuel w st)).count (.hook .endCycle cb.ident) = N / n := by
  rcases (C38_steps t size before after i N hl fuel hf w st).2 with h | ⟨m, _, h⟩
  · rw [h, steps_count _ _ _ _ _ n hl.callbacks hl.idents hn cb (by simp [hcb]) hc]
    have hnd : (before.map Callback.ident).Nodup := by
      have := hl.idents
      rw [hl.callbacks, List.map_append, List.nodup_append] at this
      exact this.1
    rw [count_all_due _ _ _ _ hnd hcb]
    obtain ⟨M, rfl⟩ : ∃ M, N = M + 1 := ⟨N - 1, by have := hl.positive; omega⟩
    rw [show M + 1 - 1 = M by omega, Nat.succ_div]
    congr 1
    refine if_congr ?_ rfl rfl
    constructor
    · rintro ⟨n', h1, _, h3⟩
      rw [hc] at h1; injection h1 with h1; subst h1
      exact Int.natCast_dvd_natCast.1 h3
    · intro h
      exact ⟨n, hc, by omega, Int.natCast_dvd_natCast.2 h⟩
  · exact absurd (by rw [h]; simp) hx

/-- **C81** is false: a callback that comes after the terminator, with a cycle that divides `N`, always misses its
last `end_cycle`. -/
theorem C81_false (t : Trainer W V) (size : Dict String V → Int) (before after : List (Callback W V)) (i N : Nat)
    (hl : StepLimited t size before after i N) (fuel : Nat) (hf : N ≤ fuel) (w : W) (st : Dict String V)
    (hx : Shape.exhausted ∉ shapes (events t fuel w st)) (cb : Callback W V) (hcb : cb ∈ after) (n : Nat)
    (hn : 0 < n) (hc : cb.cycle = some (n : Int)) (hd : n ∣ N) :
    (shapes (events t fuel w st)).count (.hook .endCycle cb.ident) + 1 = N / n := by
  rcases (C38_steps t size before after i N hl fuel hf w st).2 with h | ⟨m, _, h⟩
  · rw [h, steps_count _ _ _ _ _ n hl.callbacks hl.idents hn cb (by simp [hcb]) hc]
    have hz : (Spec.all .endCycle (due N before)).count (.hook .endCycle cb.ident) = 0 := by
      rw [List.count_eq_zero]
      unfold Spec.all
      simp only [List.mem_map, Shape.hook.injEq, true_and, not_exists, not_and]
      intro cb' h1 h2
      have := hl.idents
      rw [hl.callbacks, List.map_append, List.nodup_append] at this
      exact this.2.2 _ (List.mem_map_of_mem (List.mem_filter.1 h1).1) cb.ident
        (by simp only [List.map_cons, List.mem_cons]; exact Or.inr (List.mem_map_of_mem hcb)) h2
    rw [hz]
    obtain ⟨M, rfl⟩ : ∃ M, N = M + 1 := ⟨N - 1, by have := hl.positive; omega⟩
    rw [show M + 1 - 1 = M by omega, Nat.succ_div, if_pos hd]
  · exact absurd (by rw [h]; simp) hx

end

/-! ## Concrete runs -/

section Examples

/-- For the examples, values are integers. -/
instance : PyNum Int := ⟨id, some, fun _ => rfl⟩

/-- For the examples: a callback that does nothing. -/
def idle (ident : Nat) (cycle : Option Int) : Callback Nat Int := ⟨ident, 0, cycle, fun _ _ w => (w, .ok none)⟩

/-- For the examples: a callback that returns something from `begin_batch`. -/
def writer (ident : Nat) : Callback Nat Int := ⟨ident, 0, none, fun h st w => match h with
  | .beginBatch => (w, .ok (some [("x", (Dict.get? st "bp_step").getD 0 * 10)]))
  | _ => (w, .ok none)⟩

/-- For the examples: a callback that raises in `backward` of step `k`. -/
def raiser (ident : Nat) (k : Int) : Callback Nat Int := ⟨ident, 0, none, fun h st w => match h with
  | .backward => if Dict.get? st "bp_step" = some k then (w, .error (.error .valueError)) else (w, .ok none)
  | _ => (w, .ok none)⟩

/-- For the examples: a trainer with batches of sizes `w`, `w - 1`, …, 1, the world being `w`. -/
def toy (cbs : List (Callback Nat Int)) : Trainer Nat Int where
  callbacks := cbs
  sizeKey := "size"
  iter := fun w => (w, .ok ())
  next := fun w => if w = 0 then (w, .ok none) else (w - 1, .ok (some [("size", (w : Int))]))
  signal := fun w => (w, .ok false)

/-- Events and outcome of a toy run. -/
def toyShapes (cbs : List (Callback Nat Int)) (fuel w : Nat) : List Shape × Option Outcome :=
  (shapes (events (toy cbs) fuel w []), ((toy cbs).train fuel ⟨w, []⟩).2)

-- C35, C40: two callbacks, one batch, and the data is exhausted; nobody gets `end_training`.
example : toyShapes [idle 0 none, idle 1 (some 1)] 5 1 =
    ([.hook .restoreState 0, .hook .restoreState 1, .hook .beginTraining 0, .hook .beginTraining 1,
      .batch, .goOn, .hook .beginCycle 1, .hook .beginBatch 0, .hook .beginBatch 1, .hook .backward 0, .hook .backward 1,
      .hook .endBatch 0, .hook .endBatch 1, .hook .endCycle 1, .exhausted], some .returned) := by decide +kernel

/-- **C40** is false: one callback, no data. `begin_training` is done, `train` returns, and `end_training` was not
called. -/
theorem C40_false : ∃ (cbs : List (Callback Nat Int)) (fuel w : Nat), cbs ≠ [] ∧
    opening cbs <+: shapes (events (toy cbs) fuel w []) ∧ ((toy cbs).train fuel ⟨w, []⟩).2 = some .returned ∧
    ∀ ex i, Shape.hook (.endTraining ex) i ∉ shapes (events (toy cbs) fuel w []) := by
  refine ⟨[idle 0 none], 3, 2, by simp, by decide +kernel, by decide +kernel, ?_⟩
  exact (C40_exhausted _ _ _ _ (by decide +kernel)).2

-- C39: a callback raises in `backward` of the second batch; the others still get `end_training`, and `train` raises.
example : toyShapes [idle 0 none, raiser 1 2] 5 9 =
    ([.hook .restoreState 0, .hook .restoreState 1, .hook .beginTraining 0, .hook .beginTraining 1,
      .batch, .goOn, .hook .beginBatch 0, .hook .beginBatch 1, .hook .backward 0, .hook .backward 1,
      .hook .endBatch 0, .hook .endBatch 1,
      .batch, .goOn, .hook .beginBatch 0, .hook .beginBatch 1, .hook .backward 0, .hook .backward 1,
      .hook (.endTraining (.error .valueError)) 0, .hook (.endTraining (.error .valueError)) 1],
      some (.raised (.error .valueError))) := by decide +kernel

theorem toy_fresh (cbs : List (Callback Nat Int)) (h : ∀ cb ∈ cbs, ∀ h st w d, (cb.hook h st w).2 = .ok (some d) →
    "bp_step" ∉ d.keys ∧ "bp_samples" ∉ d.keys) : Fresh (toy cbs) (fun b => (Dict.get? b "size").getD 0) where
  hooks := h
  batches := by
    intro w b hb
    simp only [toy] at hb
    split at hb
    · simp at hb
    · simp only [Except.ok.injEq, Option.some.injEq] at hb
      subst hb
      refine ⟨by simp [Dict.keys], by simp [Dict.keys], by simp [Dict.keys], (w : Int), ?_, ?_⟩
      · simp [toy, Dict.get?]
      · simp [PyNum.toInt, Dict.get?]
  sizeKey := by simp [toy]

/-- For the examples: a step-limited run of three steps. -/
theorem toy_limited : StepLimited (toy [idle 0 (some 1), terminator 1 (3 : Nat), idle 2 (some 1)])
    (fun b => (Dict.get? b "size").getD 0) [idle 0 (some 1)] [idle 2 (some 1)] 1 3 where
  callbacks := rfl
  idents := by decide
  positive := by decide
  quiet := by
    intro cb hcb h st w e
    simp only [List.mem_append, List.mem_cons, List.not_mem_nil, or_false] at hcb
    rcases hcb with rfl | rfl <;> simp [idle]
  iter := by simp [toy]
  next := by intro w e; simp only [toy]; split <;> simp
  signal := by simp [toy]
  fresh := by
    apply toy_fresh
    intro cb hcb h st w d
    simp only [List.mem_cons, List.not_mem_nil, or_false] at hcb
    rcases hcb with rfl | rfl | rfl
    · simp [idle]
    · cases h <;> simp [terminator]
    · simp [idle]

-- C38, C81: the callback before the terminator has 3 `end_cycle`s, the one after it 2.
example : ((toy [idle 0 (some 1), terminator 1 (3 : Nat), idle 2 (some 1)]).train 10 ⟨100, []⟩).2 = some .returned :=
  (C38_steps _ _ _ _ _ _ toy_limited 10 (by decide) 100 []).1
example : let es := shapes (events (toy [idle 0 (some 1), terminator 1 (3 : Nat), idle 2 (some 1)]) 10 100 [])
    es.count .batch = 3 ∧ es.count (.hook .endCycle 0) = 3 ∧ es.count (.hook .endCycle 2) = 2 ∧
    es.count (.hook (.endTraining .shutdown) 2) = 1 ∧ Shape.exhausted ∉ es := by decide +kernel
-- the same with too few batches
example : (toyShapes [idle 0 (some 1), terminator 1 (3 : Nat), idle 2 (some 1)] 10 2).1.getLast? = some .exhausted := by
  decide +kernel

-- C36: at the `end_batch` of the third batch `bp_step` is 3 and `bp_samples` is 10 + 9 + 8.
example : ((toy [idle 0 none]).train 3 ⟨10, []⟩).1.state = [("bp_samples", 27), ("bp_step", 3), ("size", 8)] := by
  decide +kernel
-- C37: cycle 3, 7 batches: 2 `end_cycle`s and 3 `begin_cycle`s.
example : let es := shapes (events (toy [idle 0 (some 3)]) 7 100 [])
    es.count (.hook .endCycle 0) = 2 ∧ es.count (.hook .beginCycle 0) = 3 := by decide +kernel

/-- The value of `key` that the hook calls of a run saw. -/
def sawAt (h : Hook) (i : Nat) (key : String) (es : List (Event Int)) : List (Option Int) :=
  es.filterMap fun e => match e with
    | .call h' i' seen _ => if h' = h ∧ i' = i then some (seen.get? key) else none
    | _ => none

-- C41: what the second callback returns from `begin_batch` is seen by the third in the same phase, and by the first
-- only later.
example : let es := events (toy [idle 0 none, writer 1, idle 2 none]) 2 100 []
    sawAt .beginBatch 0 "x" es = [none, some 10] ∧ sawAt .beginBatch 2 "x" es = [some 10, some 20] ∧
      sawAt .endBatch 0 "x" es = [some 10, some 20] := by decide +kernel
-- C35: callbacks are sorted by order, ties as given.
example : ((Trainer.new (W := Nat) (V := Int) [⟨0, 1, none, fun _ _ w => (w, .ok none)⟩, idle 1 none, idle 2 none] "size"
    (fun w => (w, .ok ())) (fun w => (w, .ok none)) (fun w => (w, .ok false))).callbacks.map Callback.ident) = [1, 2, 0] := by
  simp [Trainer.new, Trainer.sortCallbacks, List.mergeSort, List.MergeSort.Internal.splitInTwo, idle, List.merge]

end Examples

end Verif
