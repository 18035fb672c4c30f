import Verif.Model.GymRun
import Mathlib.Tactic.Ring
import Verif.Props.EndToEnd
import Mathlib.Data.List.Nodup
import Mathlib.Algebra.Order.BigOperators.Group.List

/-!
# C137 - C141: from gym environments to the batch
-/

namespace Verif.GymRun

open Verif Verif.Props Verif.Spec

variable {V M : Type}

/-! ## Specification -/

/-- What the slots show after an entry of the log. -/
def Entry.shows : Entry V → List V
  | .reset obs => obs
  | .step _ out => out.next

/-- After entry `t` of the log slot `i` showed `v`; it was then given action `a`, and answered with reward `r` and
observation `v'`, which was the last one of its episode if `ended`. -/
def Made (log : List (Entry V)) (i t : Nat) (v a : V) (r : ℚ) (v' : V) (ended : Bool) : Prop :=
  ∃ before acts out te tr, log[t]? = some before ∧ before.shows[i]? = some v ∧
    log[t + 1]? = some (.step acts out) ∧ acts[i]? = some a ∧ out.rewards[i]? = some r ∧
    out.terminated[i]? = some te ∧ out.truncated[i]? = some tr ∧ ended = (te || tr) ∧
    (if ended then ∃ f, out.final = some f ∧ f[i]? = some v' else out.next[i]? = some v')

/-- In entry `e` the episode of slot `i` ended. -/
def Entry.EndedAt (i : Nat) (e : Entry V) : Prop :=
  ∃ acts out te tr, e = .step acts out ∧ out.terminated[i]? = some te ∧ out.truncated[i]? = some tr ∧ (te || tr) = true

/-- Slot `i` had an episode from entry `t` of the log, where it was reset or its episode before ended, to entry `u`. -/
structure EpisodeOf (log : List (Entry V)) (i t u : Nat) : Prop where
  lt : t < u
  start : ∃ e, log[t]? = some e ∧ ((∃ obs, e = .reset obs) ∨ e.EndedAt i)
  between : ∀ q, t < q → q < u → ∃ acts out, log[q]? = some (.step acts out) ∧ ¬ (Entry.step acts out).EndedAt i
  stop : ∃ e, log[u]? = some e ∧ e.EndedAt i

/-- Did the episode of slot `i` end? -/
def endedIn (i : Nat) (out : Out V) : Bool :=
  match out.terminated[i]?, out.truncated[i]? with
  | some te, some tr => te || tr
  | _, _ => false

/-- The reward of slot `i`. -/
def gained (i : Nat) (out : Out V) : ℚ :=
  match out.rewards[i]? with
  | some r => r
  | none => 0

/-- What one entry of the log does to the sum of the rewards of the episode that slot `i` is in. -/
def addReward (i : Nat) (total : ℚ) : Entry V → ℚ
  | .reset _ => 0
  | .step _ out => if endedIn i out then 0 else total + gained i out

/-- The sum of the rewards that slot `i` got so far in the episode that it is in. -/
def soFar (i : Nat) (log : List (Entry V)) : ℚ := log.foldl (addReward i) 0

/-- The sums of the rewards of the episodes that end when the environment, after `log`, answers `out`. -/
def totals (n : Nat) (log : List (Entry V)) (out : Out V) : List ℚ :=
  (List.range n).filterMap fun i => if endedIn i out then some (soFar i log + gained i out) else none

/-- Their mean is added to what was logged, if there are any. -/
def Reported (before after totals : List ℚ) : Prop :=
  (totals = [] → after = before) ∧ (totals ≠ [] → after = before ++ [totals.sum / totals.length])

/-- Since slot `i` was last reset by the user it has finished an episode, or it had not been stepped before. -/
def Clean (i : Nat) (log : List (Entry V)) : Prop :=
  (∃ pre acts out post, log = pre ++ .step acts out :: post ∧ endedIn i out = true ∧ ∀ obs, Entry.reset obs ∉ post) ∨
  (∃ pre obs post, log = pre ++ .reset obs :: post ∧ (∀ acts out, Entry.step acts out ∉ pre) ∧ ∀ obs, Entry.reset obs ∉ post)

/-- An environment with `n` slots. -/
structure VecEnv.WF (env : VecEnv V) (n : Nat) : Prop where
  reset : ∀ log obs, env.reset log = .ok obs → obs.length = n
  step : ∀ log acts out, env.step log acts = .ok out → out.next.length = n ∧ out.rewards.length = n ∧
    out.terminated.length = n ∧ out.truncated.length = n ∧
    (true ∈ out.terminated ∨ true ∈ out.truncated → ∃ f, out.final = some f ∧ f.length = n)

/-- The agents that go on are answered with actions. -/
structure Answers (obs : Dict Int (Obs V M)) (resp : Dict Int (Response V)) : Prop where
  actions : ∀ a o, (a, o) ∈ obs → o.state ≠ .terminal → o.state ≠ .interrupted →
    ∃ r v, resp.get? a = some r ∧ r.listData = [("actions", v)] ∧ r.scalarData = []
  nodup : ∀ a r, (a, r) ∈ resp → r.listData.keys.Nodup ∧ r.scalarData.keys.Nodup

/-! ## One step of the wrapper -/

/-- What slot `i` may report after entry `e`. -/
inductive Shown (k : Codec V) : Entry V → Nat → Obs V M → Prop where
  | first {obs i v} : obs[i]? = some v → Shown k (.reset obs) i (initialObs k v)
  | again {acts out i v te tr} : out.next[i]? = some v → out.terminated[i]? = some te → out.truncated[i]? = some tr →
      (te || tr) = true → Shown k (.step acts out) i (initialObs k v)
  | last {acts out i fs v r te tr} : out.final = some fs → fs[i]? = some v → out.rewards[i]? = some r →
      out.terminated[i]? = some te → out.truncated[i]? = some tr → (te || tr) = true →
      Shown k (.step acts out) i (terminalObs k r v)
  | next {acts out i v r} : out.next[i]? = some v → out.rewards[i]? = some r → out.terminated[i]? = some false →
      out.truncated[i]? = some false → Shown k (.step acts out) i (runningObs k r v)

theorem dones_get {out : Out V} {i : Nat} {d : Bool} (h : out.dones[i]? = some d) :
    ∃ te tr, out.terminated[i]? = some te ∧ out.truncated[i]? = some tr ∧ (te || tr) = d := by
  unfold Out.dones at h
  rw [List.getElem?_zipWith] at h
  split at h
  · rename_i a b h1 h2
    exact ⟨a, b, h1, h2, by simpa using h⟩
  · simp at h

theorem accrue_ok {es rs : List ℚ} (h : es.length = rs.length) :
    accrue es rs = .ok (List.zipWith (· + ·) es rs) := by
  induction es generalizing rs with
  | nil => cases rs with
    | nil => rfl
    | cons _ _ => simp at h
  | cons e es ih =>
    cases rs with
    | nil => simp at h
    | cons r rs => simp only [accrue, ih (by simpa using h), List.zipWith_cons_cons]

theorem gatherActions_ok {actions : Dict Int (Response V)} {ids : List Int} {batch : List V}
    (h : gatherActions actions ids = .ok batch) : batch.length = ids.length ∧
      ∀ (i : Nat) a, ids[i]? = some a → ∃ r v, actions.get? a = some r ∧ r.listData.get? "actions" = some v ∧
        batch[i]? = some v := by
  induction ids generalizing batch with
  | nil => simp only [gatherActions, Except.ok.injEq] at h; subst h; simp
  | cons a ids ih =>
    simp only [gatherActions] at h
    split at h
    · simp at h
    · rename_i r hr
      split at h
      · simp at h
      · rename_i v hv
        split at h
        · simp at h
        · rename_i vs hvs
          simp only [Except.ok.injEq] at h
          subst h
          obtain ⟨h1, h2⟩ := ih hvs
          refine ⟨by simp [h1], fun i b hb => ?_⟩
          cases i with
          | zero =>
            simp only [List.getElem?_cons_zero, Option.some.injEq] at hb
            subst hb
            exact ⟨r, v, hr, hv, rfl⟩
          | succ i => simpa using h2 i b (by simpa using hb)

/-- The loop over the slots up to slot `i`, from the wrapper `w0` with the total rewards `tot`. -/
structure Done (k : Codec V) (out : Out V) (w0 : Wrapper V) (i : Nat) (s : Acc V M) : Prop where
  log : s.w.log = w0.log
  next : w0.next ≤ s.w.next
  idsLen : s.w.ids.length = w0.ids.length
  rewLen : s.w.rewards.length = w0.rewards.length
  nodup : s.results.keys.Nodup
  keep : ∀ j, (i ≤ j ∨ out.dones[j]? ≠ some true) → s.w.ids[j]? = w0.ids[j]? ∧ s.w.rewards[j]? = w0.rewards[j]?
  renew : ∀ j, j < i → out.dones[j]? = some true → ∃ b, s.w.ids[j]? = some b ∧ b ∈ s.fresh ∧
    s.w.rewards[j]? = some 0 ∧ ∃ v, out.next[j]? = some v ∧ (b, (initialObs k v : Obs V M)) ∈ s.results
  fresh : ∀ b ∈ s.fresh, (w0.next : Int) ≤ b ∧ b < s.w.next
  entries : ∀ a o, (a, o) ∈ s.results → ∃ j, j < i ∧ out.dones[j]? = some true ∧
    ((∃ fs f r, out.final = some fs ∧ fs[j]? = some f ∧ out.rewards[j]? = some r ∧ w0.ids[j]? = some a ∧ o = terminalObs k r f) ∨
     (∃ v, out.next[j]? = some v ∧ s.w.ids[j]? = some a ∧ a ∈ s.fresh ∧ o = initialObs k v))
  ends : ∀ j, j < i → out.dones[j]? = some true → ∃ a fs f r, w0.ids[j]? = some a ∧ out.final = some fs ∧
    fs[j]? = some f ∧ out.rewards[j]? = some r ∧ (a, (terminalObs k r f : Obs V M)) ∈ s.results
  idsNodup : s.w.ids.Nodup
  completed : s.completed = (List.range i).filterMap fun j => if out.dones[j]? = some true then w0.rewards[j]? else none

theorem nodup_getElem? {α : Type} {l : List α} (h : l.Nodup) {i j : Nat} {a : α} (hi : l[i]? = some a)
    (hj : l[j]? = some a) : i = j :=
  (List.getElem?_inj (List.getElem?_eq_some_iff.1 hi).1 h).1 (hi.trans hj.symm)

theorem mem_set_fresh {α : Type} {d : Dict Int α} {a : Int} {o : α} (ha : a ∉ d.keys) (x : Int × α) :
    x ∈ d.set a o ↔ x ∈ d ∨ x = (a, o) := by
  rw [Dict.set_of_not_mem ha]; simp

theorem finishOne_done {k : Codec V} {out : Out V} {w0 : Wrapper V} {i : Nat} {s s' : Acc V M}
    (hlt : ∀ a ∈ w0.ids, a < w0.next) (hd0 : w0.ids.Nodup)
    (h : Done k out w0 i s) (hdone : out.dones[i]? = some true) (hs : finishOne k out i s = .ok s') :
    Done k out w0 (i + 1) s' := by
  unfold finishOne at hs
  split at hs
  · simp at hs
  rename_i fs hfs
  split at hs
  swap
  · simp at hs
  rename_i a f r v total ha hf hr hv htot
  simp only [Except.ok.injEq] at hs
  subst hs
  obtain ⟨hk1, hk2⟩ := h.keep i (Or.inl (Nat.le_refl _))
  have ha0 : w0.ids[i]? = some a := by rw [← hk1]; exact ha
  have ht0 : w0.rewards[i]? = some total := by rw [← hk2]; exact htot
  have haw : a < w0.next := hlt a (List.mem_of_getElem? ha0)
  have hnx := h.next
  have hkeys : ∀ b ∈ s.results.keys, (∃ j, j < i ∧ w0.ids[j]? = some b) ∨ ((w0.next : Int) ≤ b ∧ b < s.w.next) := by
    intro b hb
    obtain ⟨o, ho⟩ := Dict.get?_isSome_of_mem hb
    obtain ⟨j, hj, -, hx⟩ := h.entries b o (Dict.mem_of_get? ho)
    rcases hx with ⟨fs, f, r, -, -, -, h4, -⟩ | ⟨v, -, h4, h5, -⟩
    · exact Or.inl ⟨j, hj, h4⟩
    · exact Or.inr (h.fresh b h5)
  have hna : a ∉ s.results.keys := by
    intro hm
    rcases hkeys a hm with ⟨j, hj, h4⟩ | h4
    · have := nodup_getElem? hd0 ha0 h4; omega
    · omega
  have hnn : ((s.w.next : Nat) : Int) ∉ (s.results.set a (terminalObs k r f)).keys := by
    intro hm
    rw [Dict.mem_keys_set] at hm
    rcases hm with hm | hm
    · omega
    · rcases hkeys _ hm with ⟨j, hj, h4⟩ | h4
      · have := hlt _ (List.mem_of_getElem? h4); omega
      · omega
  have hmem : ∀ x : Int × Obs V M, x ∈ (s.results.set a (terminalObs k r f)).set (s.w.next : Int) (initialObs k v) ↔
      (x ∈ s.results ∨ x = (a, terminalObs k r f)) ∨ x = ((s.w.next : Int), initialObs k v) := by
    intro x
    rw [mem_set_fresh hnn, mem_set_fresh hna]
  have hilt : i < s.w.ids.length := (List.getElem?_eq_some_iff.1 ha).1
  have hilr : i < s.w.rewards.length := (List.getElem?_eq_some_iff.1 htot).1
  constructor
  · exact h.log
  · simp only; omega
  · simpa using h.idsLen
  · simpa using h.rewLen
  · exact Dict.nodup_set (Dict.nodup_set h.nodup)
  · intro j hj
    have hne : i ≠ j := by
      rintro rfl
      rcases hj with hj | hj
      · omega
      · exact hj hdone
    simp only [List.getElem?_set_ne hne]
    exact h.keep j (hj.imp (by omega) id)
  · intro j hj hdj
    by_cases hji : j = i
    · subst hji
      refine ⟨(s.w.next : Int), by simp [hilt], by simp, by simp [hilr], v, hv, (hmem _).2 (Or.inr rfl)⟩
    · obtain ⟨b, h1, h2, h3, v', h4, h5⟩ := h.renew j (by omega) hdj
      have hne : i ≠ j := fun e => hji e.symm
      exact ⟨b, by simpa only [List.getElem?_set_ne hne] using h1, by simp [h2],
        by simpa only [List.getElem?_set_ne hne] using h3, v', h4, (hmem _).2 (Or.inl (Or.inl h5))⟩
  · intro b hb
    simp only [List.mem_append, List.mem_singleton] at hb
    rcases hb with hb | rfl
    · have := h.fresh b hb
      simp only; omega
    · simp only; omega
  · intro b o hbo
    simp only at hbo
    rw [hmem] at hbo
    rcases hbo with (hbo | hbo) | hbo
    · obtain ⟨j, hj, h1, h2⟩ := h.entries b o hbo
      refine ⟨j, by omega, h1, ?_⟩
      rcases h2 with h2 | ⟨v', h2, h3, h4, h5⟩
      · exact Or.inl h2
      · refine Or.inr ⟨v', h2, ?_, by simp [h4], h5⟩
        simpa only [List.getElem?_set_ne (show i ≠ j by omega)] using h3
    · cases hbo
      exact ⟨i, by omega, hdone, Or.inl ⟨fs, f, r, hfs, hf, hr, ha0, rfl⟩⟩
    · cases hbo
      exact ⟨i, by omega, hdone, Or.inr ⟨v, hv, by simp [hilt], by simp, rfl⟩⟩
  · intro j hj hdj
    by_cases hji : j = i
    · subst hji
      exact ⟨a, fs, f, r, ha0, hfs, hf, hr, (hmem _).2 (Or.inl (Or.inr rfl))⟩
    · obtain ⟨a', fs', f', r', h1, h2, h3, h4, h5⟩ := h.ends j (by omega) hdj
      exact ⟨a', fs', f', r', h1, h2, h3, h4, (hmem _).2 (Or.inl (Or.inl h5))⟩
  · simp only
    have hbound : ∀ (j : Nat) b, s.w.ids[j]? = some b → b < s.w.next := by
      intro j b hb
      by_cases hc : j < i ∧ out.dones[j]? = some true
      · obtain ⟨b', h1, h2, -⟩ := h.renew j hc.1 hc.2
        rw [hb, Option.some.injEq] at h1
        subst h1
        exact (h.fresh b h2).2
      · have := (h.keep j (by
          by_cases hd : out.dones[j]? = some true
          · exact Or.inl (by
              by_contra hh
              exact hc ⟨by omega, hd⟩)
          · exact Or.inr hd)).1
        rw [this] at hb
        have := hlt b (List.mem_of_getElem? hb)
        omega
    exact List.Nodup.set h.idsNodup fun hm => by
      obtain ⟨j, hj⟩ := List.mem_iff_getElem?.1 hm
      have := hbound j _ hj
      omega
  · simp only [List.range_succ, List.filterMap_append, h.completed]
    congr 1
    simp [hdone, ht0]

theorem finishNone_done {k : Codec V} {out : Out V} {w0 : Wrapper V} {i : Nat} {s : Acc V M}
    (h : Done k out w0 i s) (hdone : out.dones[i]? ≠ some true) : Done k out w0 (i + 1) s where
  log := h.log
  next := h.next
  idsLen := h.idsLen
  rewLen := h.rewLen
  nodup := h.nodup
  keep j hj := h.keep j (hj.imp (by omega) id)
  renew j hj hd := h.renew j (by
    rcases Nat.lt_succ_iff_lt_or_eq.1 hj with hj | rfl
    · exact hj
    · exact absurd hd hdone) hd
  fresh := h.fresh
  entries a o ho := by
    obtain ⟨j, hj, hx⟩ := h.entries a o ho
    exact ⟨j, by omega, hx⟩
  ends j hj hd := h.ends j (by
    rcases Nat.lt_succ_iff_lt_or_eq.1 hj with hj | rfl
    · exact hj
    · exact absurd hd hdone) hd
  idsNodup := h.idsNodup
  completed := by
    simp only [List.range_succ, List.filterMap_append, ← h.completed]
    simp [hdone]

theorem finish_done {k : Codec V} {out : Out V} {w0 : Wrapper V} (hlt : ∀ a ∈ w0.ids, a < w0.next) (hd0 : w0.ids.Nodup)
    (ds : List Bool) {i : Nat} (hds : out.dones.drop i = ds) {s s' : Acc V M}
    (h : Done k out w0 i s) (hs : finish k out i ds s = .ok s') : Done k out w0 (i + ds.length) s' := by
  induction ds generalizing i s with
  | nil =>
    simp only [finish, Except.ok.injEq] at hs
    subst hs
    exact h
  | cons d ds ih =>
    have hget : out.dones[i]? = some d := by
      have := List.getElem?_drop (xs := out.dones) (i := i) (j := 0)
      rw [hds] at this
      simpa using this.symm
    have hdrop : out.dones.drop (i + 1) = ds := by
      rw [← List.drop_drop, hds, List.drop_one, List.tail_cons]
    rw [List.length_cons, show i + (ds.length + 1) = i + 1 + ds.length by omega]
    cases d with
    | false =>
      simp only [finish] at hs
      exact ih hdrop (finishNone_done h (by rw [hget]; simp)) hs
    | true =>
      simp only [finish] at hs
      split at hs
      · simp at hs
      · rename_i s1 hs1
        exact ih hdrop (finishOne_done hlt hd0 h hget hs1) hs

theorem stillRunning_ok {k : Codec V} {out : Out V} {fresh : List Int} {ids : List Int} {i : Nat}
    {l : List (Int × Obs V M)} (h : stillRunning k out fresh i ids = .ok l) :
    (l.map Prod.fst).Sublist ids ∧ (∀ a o, (a, o) ∈ l → ∃ j v r, ids[j]? = some a ∧ a ∉ fresh ∧
      out.next[i + j]? = some v ∧ out.rewards[i + j]? = some r ∧ o = runningObs k r v) ∧
    ∀ (j : Nat) a, ids[j]? = some a → a ∉ fresh → ∃ v r, (a, (runningObs k r v : Obs V M)) ∈ l := by
  induction ids generalizing i l with
  | nil => simp only [stillRunning, Except.ok.injEq] at h; subst h; simp
  | cons a ids ih =>
    simp only [stillRunning] at h
    split at h
    · rename_i hf
      obtain ⟨h1, h2, h3⟩ := ih h
      refine ⟨h1.cons a, fun b o hb => ?_, fun j b hb hnf => ?_⟩
      · obtain ⟨j, v, r, e1, e2, e3, e4, e5⟩ := h2 b o hb
        exact ⟨j + 1, v, r, by simpa using e1, e2, by rw [← e3]; congr 1; omega, by rw [← e4]; congr 1; omega, e5⟩
      · cases j with
        | zero =>
          simp only [List.getElem?_cons_zero, Option.some.injEq] at hb
          subst hb
          exact absurd hf hnf
        | succ j => exact h3 j b (by simpa using hb) hnf
    · rename_i hf
      split at h
      swap
      · simp at h
      rename_i v r hv hr
      split at h
      · simp at h
      rename_i l' hl'
      simp only [Except.ok.injEq] at h
      subst h
      obtain ⟨h1, h2, h3⟩ := ih hl'
      refine ⟨by simpa using h1, fun b o hb => ?_, fun j b hb hnf => ?_⟩
      · rcases List.mem_cons.1 hb with hb | hb
        · cases hb
          exact ⟨0, v, r, rfl, hf, hv, hr, rfl⟩
        · obtain ⟨j, v, r, e1, e2, e3, e4, e5⟩ := h2 b o hb
          exact ⟨j + 1, v, r, by simpa using e1, e2, by rw [← e3]; congr 1; omega, by rw [← e4]; congr 1; omega, e5⟩
      · cases j with
        | zero =>
          simp only [List.getElem?_cons_zero, Option.some.injEq] at hb
          subst hb
          exact ⟨v, r, by simp⟩
        | succ j =>
          obtain ⟨v, r, h⟩ := h3 j b (by simpa using hb) hnf
          exact ⟨v, r, by simp [h]⟩

theorem update_disjoint {α : Type} {d e : Dict Int α} (he : e.keys.Nodup) (hde : ∀ a ∈ e.keys, a ∉ d.keys) :
    Dict.update d e = d ++ e := by
  induction e generalizing d with
  | nil => simp [Dict.update]
  | cons x e ih =>
    rw [Dict.keys_cons, List.nodup_cons] at he
    have hx : x.1 ∉ d.keys := hde x.1 (by simp)
    have : Dict.update d (x :: e) = Dict.update (d.set x.1 x.2) e := rfl
    rw [this, ih he.2, Dict.set_of_not_mem hx]
    · simp
    · intro a ha hm
      rw [Dict.mem_keys_set] at hm
      rcases hm with rfl | hm
      · exact he.1 ha
      · exact hde a (by simp [ha]) hm

/-- What a successful `dict_step` does. -/
structure Stepped (k : Codec V) (w w' : Wrapper V) (batch : List V) (out : Out V) (results : Dict Int (Obs V M)) : Prop where
  log : w'.log = w.log ++ [.step batch out]
  next : w.next ≤ w'.next
  idsLen : w'.ids.length = w.ids.length
  rewLen : w'.rewards.length = w.rewards.length
  idsNodup : w'.ids.Nodup
  idsLt : ∀ a ∈ w'.ids, 0 ≤ a ∧ a < w'.next
  nodup : results.keys.Nodup
  entry : ∀ a o, (a, o) ∈ results → ∃ j, Shown k (.step batch out) j o ∧
    ((o.state = .initial ∧ (w.next : Int) ≤ a ∧ w'.ids[j]? = some a) ∨
     (o.state = .running ∧ w.ids[j]? = some a ∧ w'.ids[j]? = some a) ∨ (o.state = .terminal ∧ w.ids[j]? = some a))
  live : ∀ (j : Nat) a, w'.ids[j]? = some a → ∃ o, (a, o) ∈ results ∧ (o.state = .initial ∨ o.state = .running)
  ended : ∀ (j : Nat), out.dones[j]? = some true → ∃ a fs f r, w.ids[j]? = some a ∧ out.final = some fs ∧ fs[j]? = some f ∧
    out.rewards[j]? = some r ∧ (a, (terminalObs k r f : Obs V M)) ∈ results

theorem dictStep_ok {k : Codec V} {env : VecEnv V} {n : Nat} (hwf : env.WF n) {actions : Dict Int (Response V)} {w w' : Wrapper V}
    {results : Dict Int (Obs V M)} {info : Option ℚ} (hid : w.ids.length = n) (hre : w.rewards.length = n)
    (hnd : w.ids.Nodup) (hlt : ∀ a ∈ w.ids, 0 ≤ a ∧ a < w.next)
    (h : dictStep k env actions w = .ok (w', results, info)) :
    ∃ batch out, gatherActions actions w.ids = .ok batch ∧ env.step w.log batch = .ok out ∧
      Stepped k w w' batch out results ∧
      info = meanReward ((List.range n).filterMap fun j =>
        if out.dones[j]? = some true then (List.zipWith (· + ·) w.rewards out.rewards)[j]? else none) ∧
      ∀ j, j < n → w'.rewards[j]? = if out.dones[j]? = some true then some 0
        else (List.zipWith (· + ·) w.rewards out.rewards)[j]? := by
  unfold dictStep at h
  split at h
  · simp at h
  rename_i batch hb
  split at h
  · simp at h
  rename_i out hout
  obtain ⟨l1, l2, l3, l4, l5⟩ := hwf.step _ _ _ hout
  rw [accrue_ok (by omega)] at h
  simp only at h
  split at h
  · simp at h
  rename_i s hs
  split at h
  · simp at h
  rename_i l hl
  simp only [Except.ok.injEq, Prod.mk.injEq] at h
  obtain ⟨rfl, rfl, rfl⟩ := h
  have hdl : out.dones.length = n := by simp [Out.dones, l3, l4]
  have h0 : Done k out (⟨w.next, w.ids, List.zipWith (· + ·) w.rewards out.rewards, w.log ++ [.step batch out]⟩ : Wrapper V) 0
      (⟨⟨w.next, w.ids, List.zipWith (· + ·) w.rewards out.rewards, w.log ++ [.step batch out]⟩, [], [], []⟩ : Acc V M) :=
    ⟨rfl, Nat.le_refl _, rfl, rfl, by simp, fun _ _ => ⟨rfl, rfl⟩, fun j hj => by omega, by simp, by simp,
      fun j hj => by omega, hnd, by simp⟩
  have hD := finish_done (w0 := ⟨w.next, w.ids, List.zipWith (· + ·) w.rewards out.rewards, w.log ++ [.step batch out]⟩)
    (fun a ha => (hlt a ha).2) hnd out.dones (by simp) h0 hs
  rw [hdl, Nat.zero_add] at hD
  obtain ⟨r1, r2, r3⟩ := stillRunning_ok hl
  have hnf : ∀ (j : Nat) a, s.w.ids[j]? = some a → a ∉ s.fresh → w.ids[j]? = some a ∧ out.dones[j]? = some false := by
    intro j a hj hf
    have hjn : j < n := by
      have := (List.getElem?_eq_some_iff.1 hj).1
      have h2 := hD.idsLen
      simp only at h2
      omega
    have hdj : out.dones[j]? ≠ some true := by
      intro hd
      obtain ⟨b, e1, e2, -⟩ := hD.renew j hjn hd
      rw [hj, Option.some.injEq] at e1
      subst e1
      exact hf e2
    refine ⟨by rw [← (hD.keep j (Or.inr hdj)).1]; exact hj, ?_⟩
    have := List.getElem?_eq_getElem (show j < out.dones.length by omega)
    rw [this]
    rw [this] at hdj
    cases hx : out.dones[j] with
    | false => rfl
    | true => rw [hx] at hdj; exact absurd rfl hdj
  have hdisj : ∀ a ∈ Dict.keys l, a ∉ s.results.keys := by
    intro a ha hm
    obtain ⟨o, ho⟩ := Dict.get?_isSome_of_mem ha
    obtain ⟨j, v, r, e1, e2, -⟩ := r2 a o (Dict.mem_of_get? ho)
    obtain ⟨g1, g2⟩ := hnf j a e1 e2
    obtain ⟨o', ho'⟩ := Dict.get?_isSome_of_mem hm
    obtain ⟨j', -, e3, hx⟩ := hD.entries a o' (Dict.mem_of_get? ho')
    rcases hx with ⟨fs, f, r, -, -, -, h4, -⟩ | ⟨v, -, h4, h5, -⟩
    · have := nodup_getElem? hnd g1 h4
      subst this
      rw [g2] at e3; simp at e3
    · exact e2 h5
  have hup : Dict.update s.results l = s.results ++ l := update_disjoint (r1.nodup hD.idsNodup) hdisj
  refine ⟨batch, out, hb, hout, ?_, by rw [hD.completed], ?_⟩
  swap
  · intro j hj
    split
    · rename_i hd
      obtain ⟨b, -, -, e, -⟩ := hD.renew j hj hd
      exact e
    · rename_i hd
      exact (hD.keep j (Or.inr hd)).2
  constructor
  · exact hD.log
  · exact hD.next
  · exact hD.idsLen
  · rw [hD.rewLen]; simp; omega
  · exact hD.idsNodup
  · intro a ha
    obtain ⟨j, hj⟩ := List.mem_iff_getElem?.1 ha
    have hn := hD.next
    simp only at hn
    by_cases hf : a ∈ s.fresh
    · have := hD.fresh a hf
      simp only at this; omega
    · have := hlt a (List.mem_of_getElem? (hnf j a hj hf).1)
      omega
  · rw [hup, Dict.keys_append, List.nodup_append']
    exact ⟨hD.nodup, r1.nodup hD.idsNodup, fun a h1 h2 => hdisj a h2 h1⟩
  · intro a o ho
    rw [hup, List.mem_append] at ho
    rcases ho with ho | ho
    · obtain ⟨j, hj, hd, hx⟩ := hD.entries a o ho
      obtain ⟨te, tr, d1, d2, d3⟩ := dones_get hd
      rcases hx with ⟨fs, f, r, e1, e2, e3, e4, rfl⟩ | ⟨v, e1, e2, e3, rfl⟩
      · exact ⟨j, .last e1 e2 e3 d1 d2 d3, Or.inr (Or.inr ⟨rfl, e4⟩)⟩
      · exact ⟨j, .again e1 d1 d2 d3, Or.inl ⟨rfl, (hD.fresh a e3).1, e2⟩⟩
    · obtain ⟨j, v, r, e1, e2, e3, e4, rfl⟩ := r2 a o ho
      rw [Nat.zero_add] at e3 e4
      obtain ⟨g1, g2⟩ := hnf j a e1 e2
      obtain ⟨te, tr, d1, d2, d3⟩ := dones_get g2
      rw [Bool.or_eq_false_iff] at d3
      rw [d3.1] at d1; rw [d3.2] at d2
      exact ⟨j, .next e3 e4 d1 d2, Or.inr (Or.inl ⟨rfl, g1, e1⟩)⟩
  · intro j a hj
    rw [hup]
    by_cases hf : a ∈ s.fresh
    · have hdj : out.dones[j]? = some true := by
        by_contra hd
        have := (hD.keep j (Or.inr hd)).1
        rw [hj] at this
        have h1 := hlt a (List.mem_of_getElem? this.symm)
        have h2 := hD.fresh a hf
        simp only at h2; omega
      have hjn : j < n := by
        have := (List.getElem?_eq_some_iff.1 hdj).1
        omega
      obtain ⟨b, e1, -, -, v, -, e2⟩ := hD.renew j hjn hdj
      rw [hj, Option.some.injEq] at e1
      subst e1
      exact ⟨_, List.mem_append_left _ e2, Or.inl rfl⟩
    · obtain ⟨v, r, e⟩ := r3 j a hj hf
      exact ⟨_, List.mem_append_right _ e, Or.inr rfl⟩
  · intro j hd
    have hjn : j < n := by
      have := (List.getElem?_eq_some_iff.1 hd).1
      omega
    obtain ⟨a, fs, f, r, e1, e2, e3, e4, e5⟩ := hD.ends j hjn hd
    exact ⟨a, fs, f, r, e1, e2, e3, e4, by rw [hup]; exact List.mem_append_left _ e5⟩

theorem firstObs_ok {k : Codec V} {obs : List V} {ids : List Int} {i : Nat} {l : List (Int × Obs V M)}
    (h : firstObs k obs i ids = .ok l) : l.map Prod.fst = ids ∧
      ∀ a o, (a, o) ∈ l → ∃ j v, ids[j]? = some a ∧ obs[i + j]? = some v ∧ o = initialObs k v := by
  induction ids generalizing i l with
  | nil => simp only [firstObs, Except.ok.injEq] at h; subst h; simp
  | cons a ids ih =>
    simp only [firstObs] at h
    split at h
    · simp at h
    rename_i v hv
    split at h
    · simp at h
    rename_i l' hl'
    simp only [Except.ok.injEq] at h
    subst h
    obtain ⟨h1, h2⟩ := ih hl'
    refine ⟨by simp [h1], fun b o hb => ?_⟩
    rcases List.mem_cons.1 hb with hb | hb
    · cases hb
      exact ⟨0, v, rfl, hv, rfl⟩
    · obtain ⟨j, v, e1, e2, e3⟩ := h2 b o hb
      exact ⟨j + 1, v, by simpa using e1, by rw [← e2]; congr 1; omega, e3⟩

/-! ## What is known between two calls -/

/-- The slots have different agents with small numbers. -/
structure Slots (n : Nat) (w : Wrapper V) : Prop where
  idsLen : w.ids.length = n
  rewLen : w.rewards.length = n
  nodup : w.ids.Nodup
  lt : ∀ a ∈ w.ids, 0 ≤ a ∧ a < w.next

/-- The steps of agent `a`. -/
def mine (a : Int) (h : List (Step V M)) : List (Step V M) := h.filter fun s => s.agent = a

/-- The steps `l` of an agent are those of slot `i` from entry `t0` of the log on. -/
structure Track (k : Codec V) (log : List (Entry V)) (l : List (Step V M)) (i t0 : Nat) : Prop where
  shown : ∀ (j : Nat) s, l[j]? = some s → ∃ e, log[t0 + j]? = some e ∧ Shown k e i s.obs
  first : ∀ (j : Nat) s, l[j]? = some s → (s.obs.state = .initial ↔ j = 0)
  act : ∀ (j : Nat) s, l[j]? = some s → s.ends = false → ∃ acts out v r, log[t0 + j + 1]? = some (.step acts out) ∧
    acts[i]? = some v ∧ s.resp = some r ∧ r.listData = [("actions", v)] ∧ r.scalarData = []

/-- The steps that went to the memory. `T a` is the slot of agent `a` and the place in the log where its episode starts. -/
structure Hist (k : Codec V) (w : Wrapper V) (h : List (Step V M)) (T : Int → Nat × Nat) : Prop where
  known : ∀ s ∈ h, 0 ≤ s.agent ∧ s.agent < w.next
  tracks : ∀ a, Track k w.log (mine a h) (T a).1 (T a).2
  over : ∀ a (j : Nat) s, (mine a h)[j]? = some s → s.ends = true → j + 1 = (mine a h).length

/-- The observations that are to go to the memory next. -/
structure Pending (k : Codec V) (w : Wrapper V) (obs : Dict Int (Obs V M)) (h : List (Step V M)) (T : Int → Nat × Nat) :
    Prop where
  nodup : obs.keys.Nodup
  entry : ∀ a o, (a, o) ∈ obs → 0 ≤ a ∧ a < w.next ∧ (∀ s ∈ mine a h, s.ends = false) ∧
    (T a).2 + (mine a h).length + 1 = w.log.length ∧
    (∃ e, w.log.getLast? = some e ∧ Shown k e (T a).1 o) ∧ (o.state = .initial ↔ mine a h = []) ∧
    (o.state ≠ .terminal → w.ids[(T a).1]? = some a)
  live : ∀ (j : Nat) a, w.ids[j]? = some a → ∃ o, (a, o) ∈ obs ∧ o.state ≠ .terminal

theorem Track.mono {k : Codec V} {log : List (Entry V)} {l : List (Step V M)} {i t0 : Nat} (h : Track k log l i t0)
    (more : List (Entry V)) : Track k (log ++ more) l i t0 where
  shown j s hs := by
    obtain ⟨e, h1, h2⟩ := h.shown j s hs
    exact ⟨e, by rw [List.getElem?_append_left (List.getElem?_eq_some_iff.1 h1).1, h1], h2⟩
  first := h.first
  act j s hs he := by
    obtain ⟨acts, out, v, r, h1, h2⟩ := h.act j s hs he
    exact ⟨acts, out, v, r, by rw [List.getElem?_append_left (List.getElem?_eq_some_iff.1 h1).1, h1], h2⟩

theorem Track.nil (k : Codec V) (log : List (Entry V)) (i t0 : Nat) : Track k log ([] : List (Step V M)) i t0 :=
  ⟨by simp, by simp, by simp⟩

theorem Shown.state {k : Codec V} {e : Entry V} {i : Nat} {o : Obs V M} (h : Shown k e i o) :
    o.state = .initial ∨ o.state = .running ∨ o.state = .terminal := by
  cases h <;> simp [initialObs, runningObs, terminalObs]

theorem mine_append (a : Int) (h h' : List (Step V M)) : mine a (h ++ h') = mine a h ++ mine a h' := by
  simp [mine]

theorem mine_other {a : Int} {obs : Dict Int (Obs V M)} {resp : Dict Int (Response V)} (h : a ∉ obs.keys) :
    mine a (Call.steps ⟨obs, resp⟩) = [] := by
  unfold mine Call.steps
  rw [List.filter_eq_nil_iff]
  intro s hs
  obtain ⟨⟨b, o⟩, hb, rfl⟩ := List.mem_map.1 hs
  simp only [decide_eq_true_eq]
  rintro rfl
  exact h (Dict.mem_keys_of_mem hb)

theorem mine_call {a : Int} {o : Obs V M} {obs : Dict Int (Obs V M)} {resp : Dict Int (Response V)} (hn : obs.keys.Nodup)
    (h : (a, o) ∈ obs) : mine a (Call.steps ⟨obs, resp⟩) = [⟨a, o, resp.get? a⟩] := by
  unfold mine Call.steps
  simp only
  induction obs with
  | nil => simp at h
  | cons x obs ih =>
    rw [Dict.keys_cons, List.nodup_cons] at hn
    rcases List.mem_cons.1 h with rfl | h
    · rw [List.map_cons, List.filter_cons_of_pos (by simp)]
      congr 1
      have := mine_other (resp := resp) hn.1
      exact this
    · rw [List.map_cons, List.filter_cons_of_neg, ih hn.2 h]
      simp only [decide_eq_true_eq]
      intro e
      exact hn.1 (e ▸ Dict.mem_keys_of_mem h)

theorem getLast_index {α : Type} {l : List α} {x : α} {i : Nat} (h : l.getLast? = some x) (hi : i + 1 = l.length) : l[i]? = some x := by
  rw [List.getLast?_eq_getElem?] at h
  rwa [show l.length - 1 = i by omega] at h

/-- The places of the agents after a call that gave numbers from `next` on to the slots `ids`. -/
def moreTracks (T : Int → Nat × Nat) (next : Nat) (ids : List Int) (t : Nat) (a : Int) : Nat × Nat :=
  if a < next then T a else (ids.idxOf a, t)

theorem idxOf_nodup {ids : List Int} (h : ids.Nodup) {j : Nat} {a : Int} (hj : ids[j]? = some a) : ids.idxOf a = j := by
  obtain ⟨hlt, rfl⟩ := List.getElem?_eq_some_iff.1 hj
  exact h.idxOf_getElem j hlt

theorem unknown_nil {k : Codec V} {w : Wrapper V} {h : List (Step V M)} {T : Int → Nat × Nat} (hH : Hist k w h T) {a : Int}
    (ha : ¬ a < w.next) : mine a h = [] := by
  unfold mine
  rw [List.filter_eq_nil_iff]
  intro s hs
  have := hH.known s hs
  simp only [decide_eq_true_eq]
  omega

theorem call_mine {k : Codec V} {w : Wrapper V} {obs : Dict Int (Obs V M)} {h : List (Step V M)} {T : Int → Nat × Nat}
    {resp : Dict Int (Response V)} (hP : Pending k w obs h T) {a : Int} {o : Obs V M} (ho : (a, o) ∈ obs) :
    mine a (h ++ Call.steps ⟨obs, resp⟩) = mine a h ++ [⟨a, o, resp.get? a⟩] := by
  rw [mine_append, mine_call hP.nodup ho]

theorem step_hist {k : Codec V} {n : Nat} {w w' : Wrapper V} {obs results : Dict Int (Obs V M)}
    {h : List (Step V M)} {T : Int → Nat × Nat} {resp : Dict Int (Response V)} (hS : Slots n w) (hH : Hist k w h T)
    (hP : Pending k w obs h T) (hA : Answers obs resp) {batch : List V} {out : Out V}
    (hb : gatherActions resp w.ids = .ok batch) (hst : Stepped k w w' batch out results) :
    Slots n w' ∧ Hist k w' (h ++ Call.steps ⟨obs, resp⟩) (moreTracks T w.next w'.ids w.log.length) ∧
      Pending k w' results (h ++ Call.steps ⟨obs, resp⟩) (moreTracks T w.next w'.ids w.log.length) := by
  have hnx := hst.next
  have hlen : w'.log.length = w.log.length + 1 := by rw [hst.log]; simp
  obtain ⟨hbl, hba⟩ := gatherActions_ok hb
  have hT' : ∀ a : Int, a < w.next → moreTracks T w.next w'.ids w.log.length a = T a := fun a ha => by
    unfold moreTracks; rw [if_pos ha]
  -- the track of an agent that is in the observations
  have key : ∀ a o, (a, o) ∈ obs →
      Track k w'.log (mine a (h ++ Call.steps ⟨obs, resp⟩)) (T a).1 (T a).2 ∧
        (T a).2 + (mine a (h ++ Call.steps ⟨obs, resp⟩)).length + 1 = w'.log.length := by
    intro a o ho
    have hm := call_mine (resp := resp) hP ho
    obtain ⟨-, -, hne, h2, ⟨e, h3, h4⟩, h5, h6⟩ := hP.entry a o ho
    have h1 := hH.tracks a
    refine ⟨?_, ?_⟩
    · rw [hm]
      have h1' := h1.mono [.step batch out]
      rw [← hst.log] at h1'
      constructor
      · intro j s hs
        rcases Nat.lt_trichotomy j (mine a h).length with hj | hj | hj
        · rw [List.getElem?_append_left hj] at hs
          exact h1'.shown j s hs
        · subst hj
          simp only [List.getElem?_concat_length, Option.some.injEq] at hs
          subst hs
          refine ⟨e, ?_, h4⟩
          rw [hst.log, List.getElem?_append_left (by omega)]
          exact getLast_index h3 h2
        · rw [List.getElem?_eq_none (by simp; omega)] at hs
          simp at hs
      · intro j s hs
        rcases Nat.lt_trichotomy j (mine a h).length with hj | hj | hj
        · rw [List.getElem?_append_left hj] at hs
          exact h1'.first j s hs
        · subst hj
          simp only [List.getElem?_concat_length, Option.some.injEq] at hs
          subst hs
          rw [List.length_eq_zero_iff]
          exact h5
        · rw [List.getElem?_eq_none (by simp; omega)] at hs
          simp at hs
      · intro j s hs he
        rcases Nat.lt_trichotomy j (mine a h).length with hj | hj | hj
        · rw [List.getElem?_append_left hj] at hs
          exact h1'.act j s hs he
        · subst hj
          simp only [List.getElem?_concat_length, Option.some.injEq] at hs
          subst hs
          have ht : o.state ≠ .terminal := by
            intro ht; simp [Step.ends, ht] at he
          have hi : o.state ≠ .interrupted := by
            intro ht; simp [Step.ends, ht] at he
          obtain ⟨r, v, a1, a2, a3⟩ := hA.actions a o ho ht hi
          obtain ⟨r', v', b1, b2, b3⟩ := hba _ a (h6 ht)
          rw [a1, Option.some.injEq] at b1
          subst b1
          rw [a2] at b2
          simp only [Dict.get?, if_true, Option.some.injEq] at b2
          subst b2
          refine ⟨batch, out, v, r, ?_, b3, a1, a2, a3⟩
          rw [hst.log, List.getElem?_append_right (by omega)]
          rw [show (T a).2 + (mine a h).length + 1 - w.log.length = 0 by omega]
          rfl
        · rw [List.getElem?_eq_none (by simp; omega)] at hs
          simp at hs
    · rw [hm, hlen]
      simp only [List.length_append, List.length_singleton]
      omega
  have other : ∀ a, a ∉ obs.keys → mine a (h ++ Call.steps ⟨obs, resp⟩) = mine a h := by
    intro a ha
    rw [mine_append, mine_other ha, List.append_nil]
  have hknown : ∀ s ∈ h ++ Call.steps ⟨obs, resp⟩, 0 ≤ s.agent ∧ s.agent < w.next := by
    intro s hs
    rcases List.mem_append.1 hs with hs | hs
    · exact hH.known s hs
    · obtain ⟨⟨a, o⟩, ho, rfl⟩ := List.mem_map.1 hs
      obtain ⟨h1, h2, -⟩ := hP.entry a o ho
      exact ⟨h1, h2⟩
  have hnil : ∀ a, ¬ a < (w.next : Int) → mine a (h ++ Call.steps ⟨obs, resp⟩) = [] := by
    intro a ha
    unfold mine
    rw [List.filter_eq_nil_iff]
    intro s hs
    have := hknown s hs
    simp only [decide_eq_true_eq]
    omega
  refine ⟨⟨hst.idsLen.trans hS.idsLen, hst.rewLen.trans hS.rewLen, hst.idsNodup, hst.idsLt⟩, ?_, ?_⟩
  · constructor
    · intro s hs
      have := hknown s hs
      omega
    · intro a
      by_cases hlt : a < w.next
      · rw [hT' a hlt]
        by_cases ha : a ∈ obs.keys
        · obtain ⟨o, ho⟩ := Dict.get?_isSome_of_mem ha
          exact (key a o (Dict.mem_of_get? ho)).1
        · rw [other a ha, hst.log]
          exact (hH.tracks a).mono _
      · rw [hnil a hlt]
        exact Track.nil _ _ _ _
    · intro a j s hs he
      by_cases ha : a ∈ obs.keys
      · obtain ⟨o, ho⟩ := Dict.get?_isSome_of_mem ha
        have hm := call_mine (resp := resp) hP (Dict.mem_of_get? ho)
        rw [hm] at hs ⊢
        rcases Nat.lt_or_ge j (mine a h).length with hj | hj
        · rw [List.getElem?_append_left hj] at hs
          have := (hP.entry a o (Dict.mem_of_get? ho)).2.2.1 s (List.mem_of_getElem? hs)
          rw [this] at he; simp at he
        · have := (List.getElem?_eq_some_iff.1 hs).1
          simp at this ⊢
          omega
      · rw [other a ha] at hs ⊢
        exact hH.over a j s hs he
  · refine ⟨hst.nodup, fun a o ho => ?_, fun j a hj => ?_⟩
    · obtain ⟨j, hsh, hx⟩ := hst.entry a o ho
      have hlast : w'.log.getLast? = some (.step batch out) := by rw [hst.log]; simp
      rcases hx with ⟨e1, e2, e3⟩ | hx
      · -- a new agent
        have hn := hnil a (by omega)
        have := hst.idsLt a (List.mem_of_getElem? e3)
        have hTa : moreTracks T w.next w'.ids w.log.length a = (j, w.log.length) := by
          unfold moreTracks
          rw [if_neg (by omega), idxOf_nodup hst.idsNodup e3]
        rw [hTa]
        exact ⟨this.1, this.2, by rw [hn]; simp, by rw [hn, hlen]; rfl, ⟨_, hlast, hsh⟩, by simp [hn, e1], fun _ => e3⟩
      · have hid : w.ids[j]? = some a := by rcases hx with ⟨-, h1, -⟩ | ⟨-, h1⟩ <;> exact h1
        have hnini : o.state ≠ .initial := by rcases hx with ⟨h1, -⟩ | ⟨h1, -⟩ <;> rw [h1] <;> simp
        obtain ⟨o0, ho0, hact⟩ := hP.live j a hid
        obtain ⟨g1, g2, g3, -, ⟨e0, -, hs0⟩, -, g4⟩ := hP.entry a o0 ho0
        have hm := call_mine (resp := resp) hP ho0
        obtain ⟨k1, k2⟩ := key a o0 ho0
        have hij : (T a).1 = j := nodup_getElem? hS.nodup (g4 hact) hid
        rw [hT' a g2]
        refine ⟨g1, by omega, ?_, k2, ⟨_, hlast, by rw [hij]; exact hsh⟩, ?_, ?_⟩
        · intro s hs
          rw [hm, List.mem_append, List.mem_singleton] at hs
          rcases hs with hs | rfl
          · exact g3 s hs
          · rcases hs0.state with hs | hs | hs
            · simp [Step.ends, hs]
            · simp [Step.ends, hs]
            · exact absurd hs hact
        · rw [hm]; simp [hnini]
        · intro hnt
          rw [hij]
          rcases hx with ⟨-, -, h3⟩ | ⟨h1, -⟩
          · exact h3
          · exact absurd h1 hnt
    · obtain ⟨o, h1, h2⟩ := hst.live j a hj
      exact ⟨o, h1, by rcases h2 with h2 | h2 <;> rw [h2] <;> simp⟩

theorem reset_hist {k : Codec V} {env : VecEnv V} {n : Nat} {w w' : Wrapper V} {obs : Dict Int (Obs V M)}
    {h : List (Step V M)} {T : Int → Nat × Nat} (hre : w.rewards.length = n) (hH : Hist k w h T)
    (hr : dictReset k env n w = .ok (w', obs)) :
    Slots n w' ∧ Hist k w' h (moreTracks T w.next w'.ids w.log.length) ∧
      Pending k w' obs h (moreTracks T w.next w'.ids w.log.length) ∧ w'.rewards = w.rewards ∧
      (∃ rows, w'.log = w.log ++ [.reset rows]) ∧ ∀ a ∈ w'.ids, (w.next : Int) ≤ a := by
  unfold dictReset at hr
  simp only at hr
  split at hr
  · simp at hr
  rename_i rows hrows
  split at hr
  · simp at hr
  rename_i l hl
  simp only [Except.ok.injEq, Prod.mk.injEq] at hr
  obtain ⟨rfl, rfl⟩ := hr
  obtain ⟨hk, he⟩ := firstObs_ok hl
  have hnd : ((List.range n).map fun i => ((w.next + i : Nat) : Int)).Nodup := by
    refine List.Nodup.map (fun i j hij => ?_) List.nodup_range
    omega
  have hl' : Dict.ofPairs l = l := by
    unfold Dict.ofPairs
    rw [update_disjoint (by unfold Dict.keys; rw [hk]; exact hnd) (by simp)]
    rfl
  rw [hl']
  have hids : ∀ (j : Nat) (a : Int), ((List.range n).map fun i => ((w.next + i : Nat) : Int))[j]? = some a →
      (w.next : Int) ≤ a ∧ a < (w.next + n : Nat) := by
    intro j a ha
    obtain ⟨i, hi, rfl⟩ := List.mem_map.1 (List.mem_of_getElem? ha)
    rw [List.mem_range] at hi
    omega
  refine ⟨⟨by simp, hre, hnd, ?_⟩, ⟨?_, ?_, hH.over⟩, ⟨?_, ?_, ?_⟩, rfl, ⟨rows, rfl⟩, ?_⟩
  · intro a ha
    obtain ⟨j, hj⟩ := List.mem_iff_getElem?.1 ha
    have := hids j a hj
    exact ⟨by omega, this.2⟩
  · intro s hs
    have := hH.known s hs
    simp only; omega
  · intro a
    by_cases hlt : a < w.next
    · unfold moreTracks
      rw [if_pos hlt]
      exact (hH.tracks a).mono _
    · rw [unknown_nil hH hlt]
      exact Track.nil _ _ _ _
  · show (l.map Prod.fst).Nodup
    rw [hk]; exact hnd
  · intro a o ho
    obtain ⟨j, v, h1, h2, rfl⟩ := he a o ho
    have hb := hids j a h1
    have hnil := unknown_nil hH (a := a) (by omega)
    rw [Nat.zero_add] at h2
    have hTa : moreTracks T w.next ((List.range n).map fun i => ((w.next + i : Nat) : Int)) w.log.length a =
        (j, w.log.length) := by
      unfold moreTracks
      rw [if_neg (by omega), idxOf_nodup hnd h1]
    rw [hTa]
    exact ⟨by omega, hb.2, by simp [hnil], by simp [hnil], ⟨.reset rows, by simp, .first h2⟩,
      by simp [hnil, initialObs], fun _ => h1⟩
  · intro j a hj
    have hm : a ∈ l.map Prod.fst := by rw [hk]; exact List.mem_of_getElem? hj
    obtain ⟨⟨b, o⟩, ho, rfl⟩ := List.mem_map.1 hm
    obtain ⟨j, v, -, -, rfl⟩ := he _ o ho
    exact ⟨_, ho, by simp [initialObs]⟩
  · intro a ha
    obtain ⟨j, hj⟩ := List.mem_iff_getElem?.1 ha
    exact (hids j a hj).1

theorem Hist.step_only {k : Codec V} {w w' : Wrapper V} {h : List (Step V M)} {T : Int → Nat × Nat} (hH : Hist k w h T)
    {batch : List V} {out : Out V} {results : Dict Int (Obs V M)} (hst : Stepped k w w' batch out results) : Hist k w' h T := by
  refine ⟨fun s hs => ?_, fun a => ?_, hH.over⟩
  · have := hH.known s hs
    have := hst.next
    omega
  · rw [hst.log]
    exact (hH.tracks a).mono _

/-! ## A life of the collector -/

/-- What happens to a collector, its memory proxy and its table: `begin_training` with its check of the environment,
rounds of `collect_data`, and samples and resizes of the table by others. The policy may change from call to call. -/
inductive World (cfg : ProxyCfg V) (k : Codec V) (env : VecEnv V) (n : Nat) (t0 : Table V) :
    List (Event V M) → Collector V M (Table V) → Prop where
  | new : World cfg k env n t0 [] ⟨Wrapper.new n, none, Proxy.new t0, []⟩
  | tryOut {es c c' agent} : World cfg k env n t0 es c → tryOut k env n agent c = .ok c' → World cfg k env n t0 es c'
  | collect {es c c' agent obs resp} (draws : Int → List Nat) : World cfg k env n t0 es c → c.obs = some obs →
      agent obs = .ok resp → Answers obs resp →
      collectData cfg k env agent (fun a ep t => Table.addSequence (draws a) a ep t) c = .ok c' →
      World cfg k env n t0 (es ++ [.add ⟨obs, resp⟩ draws]) c'
  | resize {es c t' m} : World cfg k env n t0 es c → Table.resize c.proxy.table m = (t', .ok ()) →
      World cfg k env n t0 (es ++ [.resize m]) { c with proxy := { c.proxy with table := t' } }
  | sample {es c t' count m x r junk y} : World cfg k env n t0 es c →
      Table.sample count m x r junk c.proxy.table = (t', y) → y ≠ .error .overflowError →
      World cfg k env n t0 (es ++ [.sample count m x r junk]) { c with proxy := { c.proxy with table := t' } }

section

variable {cfg : ProxyCfg V} {k : Codec V} {env : VecEnv V} {n : Nat} {t0 : Table V}

theorem new_slots : Slots n (Wrapper.new n : Wrapper V) := by
  refine ⟨by simp [Wrapper.new], by simp [Wrapper.new], List.Nodup.map (fun i j h => by simpa using h) List.nodup_range, ?_⟩
  intro a ha
  simp only [Wrapper.new, List.mem_map, List.mem_range] at ha
  obtain ⟨i, hi, rfl⟩ := ha
  simp [Wrapper.new, hi]

theorem call_wf {obs : Dict Int (Obs V M)} {resp : Dict Int (Response V)} {w : Wrapper V} {h : List (Step V M)}
    {T : Int → Nat × Nat} (hP : Pending k w obs h T) (hA : Answers obs resp) : Call.WF ⟨obs, resp⟩ := by
  refine Call.wf_of hP.nodup ?_ (fun x hx => hA.nodup x.1 x.2 hx)
  rintro ⟨a, o⟩ hx
  obtain ⟨-, -, -, -, ⟨e, -, hs⟩, -⟩ := hP.entry a o hx
  cases hs <;> simp [initialObs, runningObs, terminalObs]

theorem tryOut_ok {T : Type} {c c' : Collector V M T} {agent : Dict Int (Obs V M) → Except Err (Dict Int (Response V))}
    (h : tryOut k env n agent c = .ok c') : ∃ w1 obs1 actions w2 res info w3 obs3,
      dictReset (M := M) k env n c.wrapper = .ok (w1, obs1) ∧ agent obs1 = .ok actions ∧
      dictStep (M := M) k env actions w1 = .ok (w2, res, info) ∧ dictReset (M := M) k env n w2 = .ok (w3, obs3) ∧
      c' = { c with wrapper := w3, obs := some obs3 } := by
  unfold GymRun.tryOut at h
  split at h
  · simp at h
  rename_i w1 obs1 hr1
  split at h
  · simp at h
  rename_i actions hact
  split at h
  · simp at h
  rename_i w2 res info hst
  split at h
  · simp at h
  rename_i w3 obs3 hr3
  simp only [Except.ok.injEq] at h
  exact ⟨w1, obs1, actions, w2, res, info, w3, obs3, hr1, hact, hst, hr3, h.symm⟩

theorem collectData_ok {T : Type} {c c' : Collector V M T} {agent : Dict Int (Obs V M) → Except Err (Dict Int (Response V))}
    {mem : Int → Episode V → T → Res T Unit} {obs : Dict Int (Obs V M)} {resp : Dict Int (Response V)}
    (ho : c.obs = some obs) (ha : agent obs = .ok resp)
    (h : collectData cfg k env agent mem c = .ok c') : ∃ w2 res info p2,
      dictStep (M := M) k env resp c.wrapper = .ok (w2, res, info) ∧ Proxy.add cfg mem obs resp c.proxy = (p2, .ok ()) ∧
      c' = ⟨w2, some res, p2, addLogged c.logged info⟩ := by
  unfold collectData at h
  rw [ho] at h
  simp only [ha] at h
  split at h
  · simp at h
  rename_i w2 res info hst
  split at h
  · simp at h
  rename_i p2 hadd
  simp only [Except.ok.injEq] at h
  exact ⟨w2, res, info, p2, hst, hadd, h.symm⟩

theorem flatMap_add (es : List (Event V M)) (obs : Dict Int (Obs V M)) (resp : Dict Int (Response V)) (draws : Int → List Nat) :
    (es ++ [Event.add ⟨obs, resp⟩ draws]).flatMap Event.steps = es.flatMap Event.steps ++ Call.steps ⟨obs, resp⟩ := by
  simp [Event.steps]

theorem world_inv (hwf : env.WF n) {es : List (Event V M)} {c : Collector V M (Table V)}
    (hw : World cfg k env n t0 es c) :
    Life cfg (Proxy.new t0) es c.proxy ∧ Slots n c.wrapper ∧ ∃ T, Hist k c.wrapper (es.flatMap Event.steps) T ∧
      ∀ obs, c.obs = some obs → Pending k c.wrapper obs (es.flatMap Event.steps) T := by
  induction hw with
  | new =>
    exact ⟨Life.nil, new_slots, fun _ => (0, 0), ⟨by simp, fun a => Track.nil _ _ _ _, by simp [mine]⟩, by simp⟩
  | @tryOut es c c' agent _ ht ih =>
    obtain ⟨h1, h2, T, h3, -⟩ := ih
    obtain ⟨w1, obs1, actions, w2, res, info, w3, obs3, hr1, hact, hst, hr3, rfl⟩ := tryOut_ok ht
    obtain ⟨s1, q1, p1, -⟩ := reset_hist h2.rewLen h3 hr1
    obtain ⟨batch, out, b1, b2, b3, -⟩ := dictStep_ok hwf s1.idsLen s1.rewLen s1.nodup s1.lt hst
    have q2 := Hist.step_only q1 b3
    obtain ⟨s3, q3, p3, -⟩ := reset_hist (b3.rewLen.trans s1.rewLen) q2 hr3
    refine ⟨h1, s3, _, q3, ?_⟩
    intro obs ho
    simp only [Option.some.injEq] at ho
    subst ho
    exact p3
  | @collect es c c' agent obs resp draws _ ho ha hA hc ih =>
    obtain ⟨h1, h2, T, h3, h4⟩ := ih
    obtain ⟨w2, res, info, p2, hst, hadd, rfl⟩ := collectData_ok ho ha hc
    have hP := h4 obs ho
    obtain ⟨batch, out, b1, b2, b3, -⟩ := dictStep_ok hwf h2.idsLen h2.rewLen h2.nodup h2.lt hst
    obtain ⟨g1, g2, g3⟩ := step_hist h2 h3 hP hA b1 b3
    rw [flatMap_add]
    refine ⟨Life.add h1 (call_wf hP hA) hadd, g1, _, g2, ?_⟩
    intro obs' ho'
    simp only [Option.some.injEq] at ho'
    subst ho'
    exact g3
  | @resize es c t' m _ hr ih =>
    obtain ⟨h1, h2, h3⟩ := ih
    have hes : (es ++ [Event.resize m]).flatMap Event.steps = es.flatMap (Event.steps (V := V) (M := M)) := by
      simp [Event.steps]
    rw [hes]
    exact ⟨Life.resize h1 hr, h2, h3⟩
  | @sample es c t' count m x r junk y _ hs hy ih =>
    obtain ⟨h1, h2, h3⟩ := ih
    have hes : (es ++ [Event.sample count m x r junk]).flatMap Event.steps = es.flatMap (Event.steps (V := V) (M := M)) := by
      simp [Event.steps]
    rw [hes]
    exact ⟨Life.sample h1 hs hy, h2, h3⟩

theorem mine_split {pre post : List (Step V M)} {s : Step V M} : mine s.agent (pre ++ s :: post) =
    mine s.agent pre ++ s :: mine s.agent post := by
  simp [mine]

/-- Until an agent's last step nothing ends, so its steps are one episode. -/
theorem ongoing_mine {w : Wrapper V} {pre post : List (Step V M)} {s : Step V M} {T : Int → Nat × Nat} (hH : Hist k w (pre ++ s :: post) T) :
    ongoing s.agent pre = mine s.agent pre := by
  have hne : ∀ x ∈ mine s.agent pre, x.ends = false := by
    intro x hx
    obtain ⟨j, hj⟩ := List.mem_iff_getElem?.1 hx
    cases he : x.ends with
    | false => rfl
    | true =>
      have hlt := (List.getElem?_eq_some_iff.1 hj).1
      have := hH.over s.agent j x (by rw [mine_split, List.getElem?_append_left hlt]; exact hj) he
      rw [mine_split] at this
      simp at this
      omega
  unfold ongoing
  show ((mine s.agent pre).reverse.takeWhile _).reverse = _
  rw [List.takeWhile_eq_self_iff.2, List.reverse_reverse]
  intro x hx
  simp [hne x (List.mem_reverse.1 hx)]

theorem hist_environment {w : Wrapper V} {h : List (Step V M)} {T : Int → Nat × Nat} (hH : Hist k w h T) : Environment ["obs"] h := by
  constructor
  · intro s hs
    obtain ⟨pre, post, rfl⟩ := List.append_of_mem hs
    have hT := hH.tracks s.agent
    rw [mine_split] at hT
    have hget : (mine s.agent pre ++ s :: mine s.agent post)[(mine s.agent pre).length]? = some s := by simp
    obtain ⟨e, -, hsh⟩ := hT.shown _ _ hget
    refine ⟨?_, ?_, ?_⟩
    · generalize s.obs = o at hsh
      cases hsh <;> simp [initialObs, runningObs, terminalObs]
    · generalize s.obs = o at hsh
      cases hsh <;> simp [initialObs, runningObs, terminalObs]
    · intro he
      obtain ⟨acts, out, v, r, -, -, h1, h2, h3⟩ := hT.act _ _ hget he
      exact ⟨r, v, h1, h2, h3⟩
  · rintro pre s post rfl
    have hT := hH.tracks s.agent
    rw [mine_split] at hT
    have hget : (mine s.agent pre ++ s :: mine s.agent post)[(mine s.agent pre).length]? = some s := by simp
    rw [ongoing_mine hH, hT.first _ _ hget, List.length_eq_zero_iff]
    refine ⟨fun h => ⟨h, ?_⟩, fun h => h.1⟩
    have := (hT.first _ _ hget).2 (by rw [h]; rfl)
    simp [Step.ends, this]

theorem delivered_sublist (past h : List (Step V M)) :
    ((delivered cfg past h).map Prod.fst).Sublist ((h.filter Step.ends).map Step.agent) := by
  induction h generalizing past with
  | nil => simp [delivered]
  | cons s h ih =>
    rw [delivered, List.map_append, List.filter_cons]
    cases he : s.ends with
    | false => simpa [he] using ih (past ++ [s])
    | true =>
      simp only [if_true, List.map_cons, Bool.true_and]
      split
      · exact (ih _).cons_cons _
      · exact (ih _).cons _

theorem hist_ids {w : Wrapper V} {h : List (Step V M)} {T : Int → Nat × Nat} (hH : Hist k w h T) :
    ((delivered cfg [] h).map fun x => Table.wrapId x.1).Nodup := by
  have h1 : ((h.filter Step.ends).map Step.agent).Nodup := by
    rw [List.nodup_iff_count_le_one]
    intro a
    rw [List.count, List.countP_map, List.countP_eq_length_filter, List.filter_filter]
    have : (h.filter fun s => ((fun x => x == a) ∘ Step.agent) s && s.ends) = (mine a h).filter Step.ends := by
      unfold mine
      rw [List.filter_filter]
      apply List.filter_congr
      intro s _
      simp [Bool.and_comm, beq_eq_decide]
    rw [this]
    by_contra hgt
    have h2 := hH.over a
    generalize mine a h = l at h2 hgt
    obtain ⟨x, y, hxy⟩ : ∃ x y, [x, y].Sublist (l.filter Step.ends) := by
      match hm : l.filter Step.ends with
      | [] => rw [hm] at hgt; simp at hgt
      | [_] => rw [hm] at hgt; simp at hgt
      | x :: y :: _ => exact ⟨x, y, by simp⟩
    have hx : x.ends = true := (List.mem_filter.1 (hxy.subset (by simp))).2
    obtain ⟨l1, l2, rfl, hx1, hy1⟩ := List.cons_sublist_iff.1 (hxy.trans List.filter_sublist)
    obtain ⟨j, hj⟩ := List.mem_iff_getElem?.1 hx1
    have hlt := (List.getElem?_eq_some_iff.1 hj).1
    have := h2 j x (by rw [List.getElem?_append_left hlt]; exact hj) hx
    have hl2 : 0 < l2.length := List.length_pos_of_mem (a := y) (hy1.subset (by simp))
    simp at this
    omega
  have h2 : ((delivered cfg [] h).map Prod.fst).Nodup := (delivered_sublist [] h).nodup h1
  have h3 : (delivered cfg [] h).map (fun x => Table.wrapId x.1) = (delivered cfg [] h).map Prod.fst := by
    apply List.map_congr_left
    rintro ⟨a, ss⟩ hm
    obtain ⟨pre, s, post, e, rfl, -⟩ := delivered_own_steps cfg h hm
    have := (hH.known s (by rw [e]; simp)).1
    simp only [Table.wrapId]
    rw [if_neg (by omega)]
  rw [h3]
  exact h2

theorem delivered_mine {w : Wrapper V} {h : List (Step V M)} {T : Int → Nat × Nat} (hH : Hist k w h T) {a : Int} {ss : List (Step V M)}
    (hm : (a, ss) ∈ delivered cfg [] h) : ss = mine a h := by
  obtain ⟨pre, s, post, rfl, rfl, he, h2, -⟩ := delivered_own_steps cfg h hm
  rw [h2, ongoing_mine hH, mine_split]
  have := hH.over s.agent (mine s.agent pre).length s (by rw [mine_split]; simp) he
  rw [mine_split] at this
  simp only [List.length_append, List.length_cons] at this
  rw [List.eq_nil_of_length_eq_zero (show (mine s.agent post).length = 0 by omega)]

theorem Shown.made {log : List (Entry V)} {i t : Nat} {s s' : Step V M} {acts : List V} {out : Out V} {before : Entry V}
    {va : V} (h1 : log[t]? = some before) (h2 : Shown k before i s.obs) (he : s.ends = false)
    (h3 : log[t + 1]? = some (.step acts out)) (ha : acts[i]? = some va) (h4 : Shown k (.step acts out) i s'.obs)
    (hni : s'.obs.state ≠ .initial) : ∃ v r v', Made log i t v va r v' s'.ends ∧ s.obs.arrays = [("obs", v)] ∧
      s'.obs.arrays = [("obs", v')] ∧ s'.obs.rewards = [("reward", k.reward r)] := by
  obtain ⟨v, hv, hv'⟩ : ∃ v, before.shows[i]? = some v ∧ s.obs.arrays = [("obs", v)] := by
    unfold Step.ends at he
    generalize s.obs = o at h2 he
    cases h2 with
    | first h => exact ⟨_, h, rfl⟩
    | again h _ _ _ => exact ⟨_, h, rfl⟩
    | last _ _ _ _ _ _ => simp [terminalObs] at he
    | next h _ _ _ => exact ⟨_, h, rfl⟩
  unfold Step.ends
  generalize s'.obs = o at h4 hni
  cases h4 with
  | again _ _ _ _ => simp [initialObs] at hni
  | @last _ _ _ fs v' r te tr f1 f2 f3 f4 f5 f6 =>
    refine ⟨v, r, v', ⟨before, acts, out, te, tr, h1, hv, h3, ha, f3, f4, f5, ?_, ?_⟩, hv', rfl, rfl⟩
    · rw [f6]; rfl
    · exact ⟨fs, f1, f2⟩
  | @next _ _ _ v' r f1 f2 f3 f4 =>
    exact ⟨v, r, v', ⟨before, acts, out, false, false, h1, hv, h3, ha, f2, f3, f4, rfl, f1⟩, hv', rfl, rfl⟩

theorem names_ok (ut : Bool) {nstep : Bool} : ((Builder.columns nstep ut ["obs"]).map Column.name).Nodup := by
  cases ut <;> cases nstep <;> decide +kernel

theorem keys_single {α : Type} {d : Dict String α} (h : d.keys = ["obs"]) : ∃ x, d = [("obs", x)] := by
  match d, h with
  | [(a, x)], h =>
    simp only [Dict.keys, List.map_cons, List.map_nil, List.cons.injEq, and_true] at h
    exact ⟨x, by rw [h]⟩

/-- The transitions of a table to which some of the delivered episodes were added. -/
theorem hist_transitions (hlk : cfg.lengthKey = "actions") {maxlen : Int}
    (hc : Created (Builder.columns false cfg.useTerminal ["obs"]) maxlen "actions" t0)
    {ops : List (Op V)} {t : Table V} (hr : Run t0 ops t) {w : Wrapper V} {h : List (Step V M)} {T : Int → Nat × Nat}
    (hH : Hist k w h T)
    (hadd : ∀ e ∈ added (acts "actions" ops), ∃ a ss, (a, ss) ∈ delivered cfg [] h ∧ e = asEntry cfg (a, ss)) {count m : Nat} (hm : 0 < m)
    (hmin : m = 1 ∨ ∃ l, cfg.minLength = some l ∧ (m : Int) ≤ l) {x r : Nat → Nat} {junk : String → Nat → Cell V}
    {one : V → Bool} {t' : Table V} {b : Batch V}
    (hs : Table.sampleAdapted (Builder.adaptors one cfg.useTerminal ["obs"]) count m x r junk t = (t', .ok b)) :
    ∃ oc xc act rew dn mk : List (Cell V), b.get? "observation" = some (.obs [("obs", oc)]) ∧
      b.get? "next_observation" = some (.obs [("obs", xc)]) ∧ b.get? "actions" = some (.col act) ∧
      b.get? "rewards" = some (.col rew) ∧ b.get? "dones" = some (.col dn) ∧ b.get? "masks" = some (.col mk) ∧
      act.length = count * m ∧ rew.length = count * m ∧ dn.length = count * m ∧ mk.length = count * m ∧
      ∀ q, q < count → ∃ i t, ∀ j, j < m → ∃ v a r v' ended, Made w.log i (t + j) v a r v' ended ∧
        oc[q * m + j]? = some (.row v) ∧ act[q * m + j]? = some (.row a) ∧ rew[q * m + j]? = some (.row (k.reward r)) ∧
        xc[q * m + j]? = some (.row v') ∧ dn[q * m + j]? = some (.bit ended) ∧ mk[q * m + j]? = some (.bit !ended) := by
  obtain ⟨o, y, act, rew, dn, mk, e1, e2, e3, e4, e5, e6, e7, e8, l1, l2, l3, l4, hrows⟩ :=
    run_transitions (names_ok cfg.useTerminal) rfl hlk hc hr (hist_environment hH) hadd hm hmin hs
  obtain ⟨oc, rfl⟩ := keys_single e7
  obtain ⟨xc, rfl⟩ := keys_single e8
  refine ⟨oc, xc, act, rew, dn, mk, e1, e2, e3, e4, e5, e6, l1, l2, l3, l4, fun w hwc => ?_⟩
  obtain ⟨run, hlen, ⟨a, ss, hdel, hinf⟩, hrun⟩ := hrows w hwc
  rw [delivered_mine hH hdel] at hinf
  have hT := hH.tracks a
  generalize (T a).1 = i, (T a).2 = t at hT
  obtain ⟨pre, post, hpp⟩ := hinf
  have hidx : ∀ (j : Nat) s, run[j]? = some s → (mine a h)[pre.length + j]? = some s := by
    intro j s hj
    have hlt := (List.getElem?_eq_some_iff.1 hj).1
    rw [← hpp, List.append_assoc, List.getElem?_append_right (by omega), List.getElem?_append_left (by omega)]
    rw [← hj]; congr 1; omega
  refine ⟨i, t + pre.length, fun j hj => ?_⟩
  have g1 := List.getElem?_eq_getElem (show j < run.length by omega)
  have g2 := List.getElem?_eq_getElem (show j + 1 < run.length by omega)
  obtain ⟨hcon, hf, ⟨va, ha1, ha2⟩, ⟨vr, hr1, hr2⟩, hd, hk⟩ := hrun j _ _ g1 g2
  have m1 := hidx j _ g1
  have m2 := hidx (j + 1) _ g2
  generalize run[j] = s at *
  generalize run[j + 1] = s' at *
  obtain ⟨before, b1, b2⟩ := hT.shown _ _ m1
  have hends : s.ends = false := by
    obtain ⟨_, _, _, _, h, _⟩ := hcon
    exact h
  obtain ⟨acts, out, v, rr, c1, c2, c3, c4, c5⟩ := hT.act _ _ m1 hends
  obtain ⟨after, d1, d2⟩ := hT.shown _ _ m2
  rw [show t + (pre.length + (j + 1)) = t + (pre.length + j) + 1 by omega, c1, Option.some.injEq] at d1
  subst d1
  have hni : s'.obs.state ≠ .initial := fun h => by have := (hT.first _ _ m2).1 h; omega
  obtain ⟨v0, r0, v1, q1, q2, q3, q4⟩ := Shown.made b1 b2 hends c1 c2 d2 hni
  have hva : va = v := by
    simp only [Step.action, c3, c4, Option.bind_some, Dict.get?, if_true, Option.some.injEq] at ha1
    exact ha1.symm
  subst hva
  rw [q4] at hr1
  simp only [Dict.get?, if_true, Option.some.injEq] at hr1
  subst hr1
  obtain ⟨col, col', u, u', f1, f2, -, -, f3, f4, f5, f6⟩ := hf "obs" (by simp)
  simp only [Dict.get?, if_true, Option.some.injEq, q2, q3] at f1 f2 f3 f4
  subst f1 f2 f3 f4
  rw [show t + pre.length + j = t + (pre.length + j) by omega]
  exact ⟨v0, va, r0, v1, s'.ends, q1, f5, ha2, hr2, f6, hd, hk⟩

/-! ### Nothing is refused -/

/-- **C137** A gym collector in front of a one-step table of the builder, with any vector environment, any policy, any
number of slots, episodes ending at any times, and any samples and resizes in between: in every batch, window `w` is what
one slot of the environment went through in `m` consecutive steps of one episode. Row by row: the observation is what
the slot showed, the action is what it was given, the reward is what it returned, the next observation is what it then
showed (the final observation if the episode ended, not the first one of the next episode), and `dones` and `masks` tell
whether it ended. -/
theorem C137 (hwf : env.WF n) (hlk : cfg.lengthKey = "actions") {maxlen : Int}
    (hc : Created (Builder.columns false cfg.useTerminal ["obs"]) maxlen "actions" t0)
    {es : List (Event V M)} {c : Collector V M (Table V)} (hw : World cfg k env n t0 es c) {count m : Nat} (hm : 0 < m)
    (hmin : m = 1 ∨ ∃ l, cfg.minLength = some l ∧ (m : Int) ≤ l) {x r : Nat → Nat} {junk : String → Nat → Cell V}
    {one : V → Bool} {t' : Table V} {b : Batch V}
    (hs : Table.sampleAdapted (Builder.adaptors one cfg.useTerminal ["obs"]) count m x r junk c.proxy.table = (t', .ok b)) :
    ∃ oc xc act rew dn mk : List (Cell V), b.get? "observation" = some (.obs [("obs", oc)]) ∧
      b.get? "next_observation" = some (.obs [("obs", xc)]) ∧ b.get? "actions" = some (.col act) ∧
      b.get? "rewards" = some (.col rew) ∧ b.get? "dones" = some (.col dn) ∧ b.get? "masks" = some (.col mk) ∧
      act.length = count * m ∧ rew.length = count * m ∧ dn.length = count * m ∧ mk.length = count * m ∧
      ∀ w, w < count → ∃ i t, ∀ j, j < m → ∃ v a r v' ended, Made c.wrapper.log i (t + j) v a r v' ended ∧
        oc[w * m + j]? = some (.row v) ∧ act[w * m + j]? = some (.row a) ∧ rew[w * m + j]? = some (.row (k.reward r)) ∧
        xc[w * m + j]? = some (.row v') ∧ dn[w * m + j]? = some (.bit ended) ∧ mk[w * m + j]? = some (.bit !ended) := by
  obtain ⟨hl, hS, T, hH, -⟩ := world_inv hwf hw
  obtain ⟨-, ops, hr, hacts⟩ := life_run (names_ok cfg.useTerminal) rfl hlk hc hl (hist_environment hH) (hist_ids hH)
  refine hist_transitions hlk hc hr hH (fun e he => ?_) hm hmin hs
  rw [hacts, added_eventActs] at he
  obtain ⟨⟨a, ss⟩, h1, h2⟩ := List.mem_map.1 he
  exact ⟨a, ss, h1, h2.symm⟩

theorem gatherActions_total {actions : Dict Int (Response V)} (ids : List Int)
    (h : ∀ a ∈ ids, ∃ r v, actions.get? a = some r ∧ r.listData = [("actions", v)]) :
    ∃ batch, gatherActions actions ids = .ok batch := by
  induction ids with
  | nil => exact ⟨[], rfl⟩
  | cons a ids ih =>
    obtain ⟨r, v, h1, h2⟩ := h a (by simp)
    obtain ⟨batch, hb⟩ := ih fun a ha => h a (by simp [ha])
    exact ⟨v :: batch, by simp [gatherActions, h1, h2, Dict.get?, hb]⟩

theorem finish_total {out : Out V} (ds : List Bool) {i : Nat} {s : Acc V M} (h1 : s.w.ids.length = n)
    (h2 : s.w.rewards.length = n) (h3 : out.next.length = n) (h4 : out.rewards.length = n)
    (h5 : true ∈ ds → ∃ f, out.final = some f ∧ f.length = n) (h6 : i + ds.length = n) :
    ∃ s', finish k out i ds s = .ok s' := by
  induction ds generalizing i s with
  | nil => exact ⟨s, rfl⟩
  | cons d ds ih =>
    rw [List.length_cons] at h6
    cases d with
    | false => exact ih h1 h2 (fun h => h5 (by simp [h])) (by omega)
    | true =>
      obtain ⟨f, hf, hfl⟩ := h5 (by simp)
      simp only [finish, finishOne, hf]
      rw [List.getElem?_eq_getElem (show i < s.w.ids.length by omega), List.getElem?_eq_getElem (show i < f.length by omega),
        List.getElem?_eq_getElem (show i < out.rewards.length by omega),
        List.getElem?_eq_getElem (show i < out.next.length by omega),
        List.getElem?_eq_getElem (show i < s.w.rewards.length by omega)]
      exact ih (by simpa using h1) (by simpa using h2) (fun h => h5 (by simp [h])) (by omega)

theorem finish_idsLen {out : Out V} (ds : List Bool) {i : Nat} {s s' : Acc V M} (h : finish k out i ds s = .ok s') :
    s'.w.ids.length = s.w.ids.length := by
  induction ds generalizing i s with
  | nil => simp only [finish, Except.ok.injEq] at h; rw [h]
  | cons d ds ih =>
    cases d with
    | false => exact ih h
    | true =>
      simp only [finish] at h
      split at h
      · simp at h
      · rename_i s1 hs1
        rw [ih h]
        unfold finishOne at hs1
        split at hs1
        · simp at hs1
        split at hs1
        · simp only [Except.ok.injEq] at hs1
          rw [← hs1]; simp
        · simp at hs1

theorem stillRunning_total {out : Out V} (fresh ids : List Int) {i : Nat} (h1 : i + ids.length ≤ out.next.length)
    (h2 : i + ids.length ≤ out.rewards.length) :
    ∃ l : List (Int × Obs V M), stillRunning k out fresh i ids = .ok l := by
  induction ids generalizing i with
  | nil => exact ⟨[], rfl⟩
  | cons a ids ih =>
    rw [List.length_cons] at h1 h2
    obtain ⟨l, hl⟩ := ih (i := i + 1) (by omega) (by omega)
    simp only [stillRunning]
    split
    · exact ⟨l, hl⟩
    · rw [List.getElem?_eq_getElem (show i < out.next.length by omega),
        List.getElem?_eq_getElem (show i < out.rewards.length by omega)]
      simp only [hl]
      exact ⟨_, rfl⟩

theorem dictStep_total (hwf : env.WF n) {actions : Dict Int (Response V)} {w : Wrapper V} (hS : Slots n w)
    (ha : ∀ a ∈ w.ids, ∃ r v, actions.get? a = some r ∧ r.listData = [("actions", v)])
    (henv : ∀ batch, ∃ out, env.step w.log batch = .ok out) :
    ∃ x, dictStep (M := M) k env actions w = .ok x := by
  obtain ⟨batch, hb⟩ := gatherActions_total w.ids ha
  obtain ⟨out, hout⟩ := henv batch
  obtain ⟨l1, l2, l3, l4, l5⟩ := hwf.step _ _ _ hout
  have hre := hS.rewLen
  have hid := hS.idsLen
  unfold dictStep
  simp only [hb, hout, accrue_ok (hre.trans l2.symm)]
  obtain ⟨s, hs⟩ := finish_total (k := k) (n := n) (M := M) (out := out) out.dones (i := 0)
    (s := ⟨⟨w.next, w.ids, List.zipWith (· + ·) w.rewards out.rewards, w.log ++ [.step batch out]⟩, [], [], []⟩)
    hid (by simp; omega) l1 l2 (fun h => l5 (by
      obtain ⟨j, hj⟩ := List.mem_iff_getElem?.1 h
      obtain ⟨te, tr, h1, h2, h3⟩ := dones_get hj
      rw [Bool.or_eq_true] at h3
      rcases h3 with rfl | rfl
      · exact Or.inl (List.mem_of_getElem? h1)
      · exact Or.inr (List.mem_of_getElem? h2))) (by simp [Out.dones, l3, l4])
  have hsl := finish_idsLen _ hs
  simp only at hsl
  obtain ⟨l, hl⟩ := stillRunning_total (k := k) (M := M) (out := out) s.fresh s.w.ids (i := 0) (by omega) (by omega)
  simp only [hs, hl]
  exact ⟨_, rfl⟩

/-- **C137** (nothing is refused). With FIFO ejection, a round of `collect_data` whose policy answers and whose environment
steps goes through, if the episodes that end in it fit into the memory. -/
theorem C137_accepts (hwf : env.WF n) (hlk : cfg.lengthKey = "actions") {nstep : Bool} {maxlen : Int}
    (hc : Created (Builder.columns nstep cfg.useTerminal ["obs"]) maxlen "actions" t0) {f : Fifo} (hf : t0.ejector = .fifo f)
    {es : List (Event V M)} {c : Collector V M (Table V)} (hw : World cfg k env n t0 es c) {obs : Dict Int (Obs V M)}
    (ho : c.obs = some obs) {agent : Dict Int (Obs V M) → Except Err (Dict Int (Response V))} {resp : Dict Int (Response V)}
    (ha : agent obs = .ok resp) (hA : Answers obs resp) (henv : ∀ batch, ∃ out, env.step c.wrapper.log batch = .ok out)
    (draws : Int → List Nat)
    (hfit : ∀ a ss, (a, ss) ∈ delivered cfg (es.flatMap Event.steps) (Call.steps ⟨obs, resp⟩) →
      ((ss.length : Int) - 1) ≤ c.proxy.table.maxlen) :
    ∃ c', collectData cfg k env agent (fun a ep t => Table.addSequence (draws a) a ep t) c = .ok c' ∧
      World cfg k env n t0 (es ++ [.add ⟨obs, resp⟩ draws]) c' := by
  obtain ⟨hl, hS, T, hH, hP⟩ := world_inv hwf hw
  have hP := hP obs ho
  obtain ⟨⟨w', next, info⟩, hst⟩ := dictStep_total (M := M) (k := k) hwf (actions := resp) hS (fun a hm => by
    obtain ⟨j, hj⟩ := List.mem_iff_getElem?.1 hm
    obtain ⟨o, h1, h2⟩ := hP.live j a hj
    obtain ⟨-, -, -, -, ⟨e, -, hsh⟩, -⟩ := hP.entry a o h1
    obtain ⟨r, v, g1, g2, -⟩ := hA.actions a o h1 h2 (by rcases hsh.state with h | h | h <;> rw [h] <;> simp)
    exact ⟨r, v, g1, g2⟩) henv
  obtain ⟨batch, out, b1, b2, b3, -⟩ := dictStep_ok hwf hS.idsLen hS.rewLen hS.nodup hS.lt hst
  obtain ⟨-, g2, -⟩ := step_hist hS hH hP hA b1 b3
  rw [← flatMap_add es obs resp draws] at g2
  obtain ⟨p', hadd, -⟩ := C77_accepts (names_ok cfg.useTerminal) rfl hlk hc hf hl (call_wf hP hA) draws
    (hist_environment g2) (hist_ids g2) (fun x hx => hfit x.1 x.2 hx)
  have hcol : collectData cfg k env agent (fun a ep t => Table.addSequence (draws a) a ep t) c =
      .ok ⟨w', some next, p', addLogged c.logged info⟩ := by
    unfold collectData
    simp only [ho, ha, hst]
    simp only at hadd
    rw [hadd]
  exact ⟨_, hcol, World.collect draws hw ho ha hA hcol⟩

/-! ### Nothing is lost -/

/-- From the last reset, at place `b` of the log, on, every step of every slot has gone to the memory, except for the
latest observations. -/
structure Full (n : Nat) (w : Wrapper V) (obs : Dict Int (Obs V M)) (h : List (Step V M)) (T : Int → Nat × Nat) (b : Nat) :
    Prop where
  reset : ∃ rows, w.log[b]? = some (.reset rows)
  steps : ∀ t, b < t → t < w.log.length → ∃ acts out, w.log[t]? = some (.step acts out)
  full : ∀ i, i < n → ∀ t, b ≤ t → t + 1 < w.log.length → ∃ a j s, (T a).1 = i ∧ (T a).2 + j = t ∧ b ≤ (T a).2 ∧
    (mine a h)[j]? = some s ∧ s.ends = false ∧
    ∀ acts (out : Out V), w.log[t + 1]? = some (.step acts out) → out.dones[i]? = some true → t + 2 < w.log.length →
      ∃ s', (mine a h)[j + 1]? = some s' ∧ s'.ends = true
  now : ∀ (i : Nat) a, w.ids[i]? = some a → b ≤ (T a).2
  pendingEnd : ∀ (i : Nat) acts (out : Out V), w.log.getLast? = some (.step acts out) → out.dones[i]? = some true →
    ∃ a o, (a, o) ∈ obs ∧ o.state = .terminal ∧ (T a).1 = i ∧ b ≤ (T a).2 ∧ mine a h ≠ []

theorem moreTracks_lt {T : Int → Nat × Nat} {next t : Nat} {ids : List Int} {a : Int} (h : a < next) :
    moreTracks T next ids t a = T a := by
  unfold moreTracks; rw [if_pos h]

theorem reset_full {w w' : Wrapper V} {obs : Dict Int (Obs V M)} {h : List (Step V M)} {T : Int → Nat × Nat} {rows : List V}
    (hlog : w'.log = w.log ++ [.reset rows]) (hids : ∀ a ∈ w'.ids, (w.next : Int) ≤ a) :
    Full n w' obs h (moreTracks T w.next w'.ids w.log.length) w.log.length := by
  have hlen : w'.log.length = w.log.length + 1 := by rw [hlog]; simp
  refine ⟨⟨rows, by rw [hlog]; simp⟩, fun t h1 h2 => by omega, fun i _ t h1 h2 => by omega, fun i a ha => ?_, ?_⟩
  · unfold moreTracks
    have := hids a (List.mem_of_getElem? ha)
    rw [if_neg (by omega)]
  · intro i acts out hl
    rw [hlog] at hl
    simp at hl

theorem step_full {w w' : Wrapper V} {obs results : Dict Int (Obs V M)} {h : List (Step V M)} {T : Int → Nat × Nat} {b : Nat}
    {resp : Dict Int (Response V)} (hS : Slots n w) (hH : Hist k w h T) (hP : Pending k w obs h T)
    (hF : Full n w obs h T b) {batch : List V} {out : Out V} (hst : Stepped k w w' batch out results) :
    Full n w' results (h ++ Call.steps ⟨obs, resp⟩) (moreTracks T w.next w'.ids w.log.length) b := by
  have hlen : w'.log.length = w.log.length + 1 := by rw [hst.log]; simp
  have hold : ∀ t, t < w.log.length → w'.log[t]? = w.log[t]? := fun t ht => by
    rw [hst.log, List.getElem?_append_left ht]
  obtain ⟨rows, hrows⟩ := hF.reset
  have hb := (List.getElem?_eq_some_iff.1 hrows).1
  have hkeep : ∀ a (j : Nat) s, (mine a h)[j]? = some s → (mine a (h ++ Call.steps ⟨obs, resp⟩))[j]? = some s := by
    intro a j s hs
    rw [mine_append, List.getElem?_append_left (List.getElem?_eq_some_iff.1 hs).1, hs]
  have hcur : ∀ (i : Nat) a, w.ids[i]? = some a → a < w.next ∧ (T a).1 = i ∧
      ∃ o, (a, o) ∈ obs ∧ o.state ≠ .terminal ∧ o.state ≠ .interrupted ∧ (T a).2 + (mine a h).length + 1 = w.log.length := by
    intro i a hi
    obtain ⟨o, h1, h2⟩ := hP.live i a hi
    obtain ⟨-, g2, -, g3, ⟨e, -, hsh⟩, -, g4⟩ := hP.entry a o h1
    exact ⟨g2, nodup_getElem? hS.nodup (g4 h2) hi, o, h1, h2,
      by rcases hsh.state with h | h | h <;> rw [h] <;> simp, g3⟩
  refine ⟨⟨rows, by rw [hold b hb, hrows]⟩, ?_, ?_, ?_, ?_⟩
  · intro t h1 h2
    rcases Nat.lt_or_ge t w.log.length with ht | ht
    · rw [hold t ht]; exact hF.steps t h1 ht
    · exact ⟨batch, out, by rw [hst.log, show t = w.log.length by omega]; simp⟩
  · intro i hi t h1 h2
    rcases Nat.lt_or_ge (t + 1) w.log.length with ht | ht
    · -- the step was already there
      by_cases hlast : t + 2 = w.log.length ∧ ∃ acts o', w.log[t + 1]? = some (.step acts o') ∧ o'.dones[i]? = some true
      · obtain ⟨ht2, acts, o', e1, e2⟩ := hlast
        have hgl : w.log.getLast? = some (.step acts o') := by
          rw [List.getLast?_eq_getElem?, show w.log.length - 1 = t + 1 by omega, e1]
        obtain ⟨a, o, p1, p2, p3, p4, p5⟩ := hF.pendingEnd i acts o' hgl e2
        obtain ⟨-, g2, g3, g4, -⟩ := hP.entry a o p1
        obtain ⟨l, hl⟩ : ∃ l, (mine a h).length = l + 1 := ⟨(mine a h).length - 1, by
          have := List.length_pos_iff.2 p5; omega⟩
        have hg := List.getElem?_eq_getElem (show l < (mine a h).length by omega)
        refine ⟨a, l, (mine a h)[l], by rw [moreTracks_lt g2]; exact p3, by rw [moreTracks_lt g2]; omega,
          by rw [moreTracks_lt g2]; exact p4, hkeep _ _ _ hg, g3 _ (List.mem_of_getElem? hg), ?_⟩
        intro _ _ _ _ _
        refine ⟨⟨a, o, resp.get? a⟩, ?_, by simp [Step.ends, p2]⟩
        rw [call_mine hP p1, ← hl]
        simp
      · obtain ⟨a, j, s, f1, f2, f3, f4, f5, f6⟩ := hF.full i hi t h1 ht
        have hj : j < (mine a h).length := (List.getElem?_eq_some_iff.1 f4).1
        have hknown : a < (w.next : Int) := by
          by_contra hcon
          rw [unknown_nil hH hcon] at f4
          simp at f4
        refine ⟨a, j, s, by rw [moreTracks_lt hknown]; exact f1, by rw [moreTracks_lt hknown]; exact f2,
          by rw [moreTracks_lt hknown]; exact f3, hkeep _ _ _ f4, f5, ?_⟩
        intro acts o' e1 e2 e3
        rw [hold (t + 1) ht] at e1
        have : t + 2 < w.log.length := by
          by_contra hcon
          exact hlast ⟨by omega, acts, o', e1, e2⟩
        obtain ⟨s', q1, q2⟩ := f6 acts o' e1 e2 this
        exact ⟨s', hkeep _ _ _ q1, q2⟩
    · -- the step that was made now
      have hilt : i < w.ids.length := by rw [hS.idsLen]; exact hi
      have hid := List.getElem?_eq_getElem hilt
      obtain ⟨c1, c2, o, c3, c4, c5, c6⟩ := hcur i _ hid
      refine ⟨w.ids[i], (mine w.ids[i] h).length, ⟨w.ids[i], o, resp.get? w.ids[i]⟩, by rw [moreTracks_lt c1]; exact c2,
        by rw [moreTracks_lt c1]; omega, by rw [moreTracks_lt c1]; exact hF.now i _ hid, ?_, ?_, ?_⟩
      · rw [call_mine hP c3]; simp
      · simp [Step.ends, c4, c5]
      · intro _ _ _ _ h3; omega
  · intro i a hi
    unfold moreTracks
    split
    · rename_i hlt
      obtain ⟨o, g1, g2⟩ := hst.live i a hi
      obtain ⟨j, -, hx⟩ := hst.entry a o g1
      rcases hx with ⟨e1, e2, -⟩ | ⟨-, e2, -⟩ | ⟨-, e2⟩
      · omega
      · exact hF.now j a e2
      · exact hF.now j a e2
    · simp only; omega
  · intro i acts o' hl hd
    rw [hst.log] at hl
    simp only [List.getLast?_append, List.getLast?_singleton, Option.some_or, Option.some.injEq, Entry.step.injEq] at hl
    obtain ⟨rfl, rfl⟩ := hl
    obtain ⟨a, fs, f, r, e1, -, -, -, e2⟩ := hst.ended i hd
    obtain ⟨c1, c2, o, c3, c4, c5, c6⟩ := hcur i a e1
    refine ⟨a, _, e2, rfl, by rw [moreTracks_lt c1]; exact c2, by rw [moreTracks_lt c1]; exact hF.now i a e1, ?_⟩
    rw [call_mine hP c3]
    simp

theorem world_full (hwf : env.WF n) {es : List (Event V M)} {c : Collector V M (Table V)}
    (hw : World cfg k env n t0 es c) :
    Slots n c.wrapper ∧ ∃ T, Hist k c.wrapper (es.flatMap Event.steps) T ∧
      ((c.obs = none ∧ c.wrapper.log = []) ∨ ∃ obs b, c.obs = some obs ∧ Pending k c.wrapper obs (es.flatMap Event.steps) T ∧
        Full n c.wrapper obs (es.flatMap Event.steps) T b) := by
  induction hw with
  | new =>
    exact ⟨new_slots, fun _ => (0, 0), ⟨by simp, fun a => Track.nil _ _ _ _, by simp [mine]⟩, Or.inl ⟨rfl, rfl⟩⟩
  | @tryOut es c c' agent _ ht ih =>
    obtain ⟨h2, T, h3, -⟩ := ih
    obtain ⟨w1, obs1, actions, w2, res, info, w3, obs3, hr1, hact, hst, hr3, rfl⟩ := tryOut_ok ht
    obtain ⟨s1, q1, p1, -⟩ := reset_hist h2.rewLen h3 hr1
    obtain ⟨batch, out, b1, b2, b3, -⟩ := dictStep_ok hwf s1.idsLen s1.rewLen s1.nodup s1.lt hst
    obtain ⟨s3, q3, p3, -, ⟨rows, r1⟩, r2⟩ := reset_hist (b3.rewLen.trans s1.rewLen) (Hist.step_only q1 b3) hr3
    exact ⟨s3, _, q3, Or.inr ⟨obs3, _, rfl, p3, reset_full r1 r2⟩⟩
  | @collect es c c' agent obs resp draws _ ho ha hA hc ih =>
    obtain ⟨h2, T, h3, h4⟩ := ih
    obtain ⟨w2, res, info, p2, hst, hadd, rfl⟩ := collectData_ok ho ha hc
    rcases h4 with ⟨h4, -⟩ | ⟨obs', b, h4, hP, hF⟩
    · rw [ho] at h4; simp at h4
    rw [ho, Option.some.injEq] at h4
    subst h4
    obtain ⟨batch, out, b1, b2, b3, -⟩ := dictStep_ok hwf h2.idsLen h2.rewLen h2.nodup h2.lt hst
    obtain ⟨g1, g2, g3⟩ := step_hist h2 h3 hP hA b1 b3
    rw [flatMap_add]
    exact ⟨g1, _, g2, Or.inr ⟨res, b, rfl, g3, step_full h2 h3 hP hF b3⟩⟩
  | @resize es c t' m _ hr ih =>
    have hes : (es ++ [Event.resize m]).flatMap Event.steps = es.flatMap (Event.steps (V := V) (M := M)) := by
      simp [Event.steps]
    rw [hes]
    exact ih
  | @sample es c t' count m x r junk y _ hs hy ih =>
    have hes : (es ++ [Event.sample count m x r junk]).flatMap Event.steps = es.flatMap (Event.steps (V := V) (M := M)) := by
      simp [Event.steps]
    rw [hes]
    exact ih

theorem mem_delivered {pre post : List (Step V M)} {s : Step V M} (he : s.ends = true) (hne : ongoing s.agent pre ≠ [])
    (hl : longEnough cfg (ongoing s.agent pre ++ [s]) = true) :
    (s.agent, ongoing s.agent pre ++ [s]) ∈ delivered cfg [] (pre ++ s :: post) := by
  rw [delivered_append, List.nil_append, List.mem_append]
  right
  rw [delivered, List.mem_append]
  left
  rw [if_pos]
  · simp
  · have : (ongoing s.agent pre).isEmpty = false := by
      cases h : ongoing s.agent pre with
      | nil => exact absurd h hne
      | cons _ _ => rfl
    simp [he, hl, this]

theorem shown_running {acts : List V} {out : Out V} {i : Nat} {o : Obs V M}
    (h : Shown k (.step acts out) i o) (hi : o.state ≠ .initial) (ht : o.state ≠ .terminal) :
    ¬ (Entry.step acts out).EndedAt i := by
  rintro ⟨a', o', te, tr, e, h1, h2, h3⟩
  cases e
  cases h with
  | again _ _ _ _ => exact hi rfl
  | last _ _ _ _ _ _ => exact ht rfl
  | next _ _ f3 f4 =>
    rw [f3, Option.some.injEq] at h1
    rw [f4, Option.some.injEq] at h2
    subst h1 h2
    simp at h3

/-- An episode that ended after the last reset is among those delivered. -/
theorem hist_episodes {w : Wrapper V} {past : List (Step V M)} {T : Int → Nat × Nat} (hH : Hist k w past T)
    {obs : Dict Int (Obs V M)} {b' : Nat} (hF : Full n w obs past T b')
    {b i u : Nat} (hi : i < n) {rows : List V} (hb : w.log[b]? = some (.reset rows))
    (hlast : ∀ t rows', b < t → w.log[t]? ≠ some (.reset rows')) (hbu : b < u)
    (hu : u + 1 < w.log.length) {e : Entry V} (hue : w.log[u]? = some e) (hend : e.EndedAt i) :
    ∃ t a ss, b ≤ t ∧ EpisodeOf w.log i t u ∧ ss.length = u - t + 1 ∧
      (longEnough cfg ss = true → (a, ss) ∈ delivered cfg [] past) ∧
      ∀ q, q < u - t → ∃ s s' v act r v' ended, ss[q]? = some s ∧ ss[q + 1]? = some s' ∧
        Made w.log i (t + q) v act r v' ended ∧ s.obs.arrays = [("obs", v)] ∧ s.action = some act ∧
        s'.obs.arrays = [("obs", v')] ∧ s'.obs.rewards = [("reward", k.reward r)] ∧ s'.ends = ended := by
  have hbb : b' = b := by
    obtain ⟨rows', hr'⟩ := hF.reset
    have l1 := (List.getElem?_eq_some_iff.1 hb).1
    rcases Nat.lt_trichotomy b b' with h | h | h
    · exact absurd hr' (hlast b' rows' h)
    · exact h.symm
    · obtain ⟨acts, out, h2⟩ := hF.steps b h l1
      rw [hb] at h2; simp at h2
  subst hbb
  obtain ⟨acts, out, te, tr, rfl, d1, d2, d3⟩ := hend
  have hd : out.dones[i]? = some true := by
    unfold Out.dones
    rw [List.getElem?_zipWith, d1, d2]
    simpa using d3
  obtain ⟨a, j, s, f1, f2, f3, f4, f5, f6⟩ := hF.full i hi (u - 1) (by omega) (by omega)
  obtain ⟨s', g1, g2⟩ := f6 acts out (by rw [show u - 1 + 1 = u by omega]; exact hue) hd (by omega)
  have hlen := hH.over a (j + 1) s' g1 g2
  have hT := hH.tracks a
  rw [f1] at hT
  obtain ⟨t, ht⟩ : ∃ t, (T a).2 = t := ⟨_, rfl⟩
  rw [ht] at hT f2 f3
  have hu1 : u = t + j + 1 := by omega
  subst hu1
  have hsa : s'.agent = a := by
    have := List.mem_of_getElem? g1
    unfold mine at this
    simpa using (List.mem_filter.1 this).2
  have hends : ∀ (q : Nat) x, (mine a past)[q]? = some x → q ≤ j → x.ends = false := by
    intro q x hq hqj
    cases h : x.ends with
    | false => rfl
    | true => have := hH.over a q x hq h; omega
  have htrans : ∀ q, q < j + 1 → ∃ s s' v act r v' ended, (mine a past)[q]? = some s ∧
      (mine a past)[q + 1]? = some s' ∧
        Made w.log i (t + q) v act r v' ended ∧ s.obs.arrays = [("obs", v)] ∧ s.action = some act ∧
        s'.obs.arrays = [("obs", v')] ∧ s'.obs.rewards = [("reward", k.reward r)] ∧ s'.ends = ended := by
    intro q hq
    have m1 := List.getElem?_eq_getElem (l := mine a past) (show q < _ by omega)
    have m2 := List.getElem?_eq_getElem (l := mine a past) (show q + 1 < _ by omega)
    generalize (mine a past)[q] = x at m1
    generalize (mine a past)[q + 1] = x' at m2
    have hne := hends q x m1 (by omega)
    obtain ⟨before, b1, b2⟩ := hT.shown _ _ m1
    obtain ⟨acts, out, v, rr, c1, c2, c3, c4, c5⟩ := hT.act _ _ m1 hne
    obtain ⟨after, d1, d2⟩ := hT.shown _ _ m2
    rw [show t + (q + 1) = t + q + 1 by omega, c1, Option.some.injEq] at d1
    subst d1
    have hni : x'.obs.state ≠ .initial := fun h => by have := (hT.first _ _ m2).1 h; omega
    obtain ⟨v0, r0, v1, q1, q2, q3, q4⟩ := Shown.made b1 b2 hne c1 c2 d2 hni
    exact ⟨x, x', v0, v, r0, v1, x'.ends, m1, m2, q1, q2, by simp [Step.action, c3, c4, Dict.get?], q3, q4, rfl⟩
  refine ⟨t, a, mine a past, f3, ⟨by omega, ?_, ?_, ⟨_, hue, acts, out, te, tr, rfl, d1, d2, d3⟩⟩,
    by omega, ?_, ?_⟩
  · -- the first observation is the one after a reset or an end
    have m0 := List.getElem?_eq_getElem (l := mine a past) (show 0 < _ by omega)
    obtain ⟨e0, e1, e2⟩ := hT.shown _ _ m0
    have hin := (hT.first _ _ m0).2 rfl
    refine ⟨e0, e1, ?_⟩
    generalize (mine a past)[0].obs = o at e2 hin
    cases e2 with
    | first _ => exact Or.inl ⟨_, rfl⟩
    | again _ x1 x2 x3 => exact Or.inr ⟨_, _, _, _, rfl, x1, x2, x3⟩
    | last _ _ _ _ _ _ => simp [terminalObs] at hin
    | next _ _ _ _ => simp [runningObs] at hin
  · intro q hq1 hq2
    have m0 := List.getElem?_eq_getElem (l := mine a past) (show q - t < _ by omega)
    obtain ⟨e0, e1, e2⟩ := hT.shown _ _ m0
    have hni : (mine a past)[q - t].obs.state ≠ .initial := fun h => by
      have := (hT.first _ _ m0).1 h; omega
    have hnt : (mine a past)[q - t].obs.state ≠ .terminal := fun h => by
      have := hends _ _ m0 (by omega)
      simp [Step.ends, h] at this
    rw [show t + (q - t) = q by omega] at e1
    obtain ⟨acts, out, hq⟩ := hF.steps q (by omega) (by omega)
    rw [hq, Option.some.injEq] at e1
    subst e1
    exact ⟨acts, out, hq, shown_running e2 hni hnt⟩
  · intro hlong
    have hmem : s' ∈ past := by
      have := List.mem_of_getElem? g1
      unfold mine at this
      exact (List.mem_filter.1 this).1
    obtain ⟨pre, post, hpp⟩ := List.append_of_mem hmem
    subst hsa
    rw [hpp] at hH hlong hlen ⊢
    have h1 := hH.over s'.agent (mine s'.agent pre).length s' (by rw [mine_split]; simp) g2
    rw [mine_split] at h1 hlong hlen ⊢
    simp only [List.length_append, List.length_cons] at h1 hlen
    have hpost : mine s'.agent post = [] := List.eq_nil_of_length_eq_zero (by omega)
    rw [hpost] at hlong ⊢
    rw [← ongoing_mine hH] at hlong ⊢
    refine mem_delivered g2 ?_ hlong
    rw [ongoing_mine hH]
    intro h
    rw [h] at hlen
    simp [hpost] at hlen
  · intro q hq
    exact htrans q (by omega)

/-- **C138** Nothing is lost: whenever an episode of a slot ends after the last reset of the environment, it goes to the
memory with the next round of `collect_data`: from its first observation to its final one, every transition that the slot
made in it, in order and once, as one sequence. -/
theorem C138 (hwf : env.WF n) {es : List (Event V M)} {c : Collector V M (Table V)} (hw : World cfg k env n t0 es c)
    {b i u : Nat} (hi : i < n) {rows : List V} (hb : c.wrapper.log[b]? = some (.reset rows))
    (hlast : ∀ t rows', b < t → c.wrapper.log[t]? ≠ some (.reset rows')) (hbu : b < u)
    (hu : u + 1 < c.wrapper.log.length) {e : Entry V} (hue : c.wrapper.log[u]? = some e) (hend : e.EndedAt i) :
    ∃ t a ss, b ≤ t ∧ EpisodeOf c.wrapper.log i t u ∧ ss.length = u - t + 1 ∧
      (longEnough cfg ss = true → (a, ss) ∈ delivered cfg [] (es.flatMap Event.steps)) ∧
      ∀ q, q < u - t → ∃ s s' v act r v' ended, ss[q]? = some s ∧ ss[q + 1]? = some s' ∧
        Made c.wrapper.log i (t + q) v act r v' ended ∧ s.obs.arrays = [("obs", v)] ∧ s.action = some act ∧
        s'.obs.arrays = [("obs", v')] ∧ s'.obs.rewards = [("reward", k.reward r)] ∧ s'.ends = ended := by
  obtain ⟨hS, T, hH, hx⟩ := world_full hwf hw
  rcases hx with ⟨-, hx⟩ | ⟨obs, b', -, hP, hF⟩
  · rw [hx] at hb; simp at hb
  exact hist_episodes hH hF hi hb hlast hbu hu hue hend

/-! ### The reward that is logged -/

theorem endedIn_iff {i : Nat} {out : Out V} : out.dones[i]? = some true ↔ endedIn i out = true := by
  unfold Out.dones endedIn
  rw [List.getElem?_zipWith]
  cases out.terminated[i]? <;> cases out.truncated[i]? <;> simp

/-- What is carried from step to step: resets are not noticed. -/
def carryReward (i : Nat) (total : ℚ) : Entry V → ℚ
  | .reset _ => total
  | .step _ out => if endedIn i out then 0 else total + gained i out

def carried (i : Nat) (log : List (Entry V)) : ℚ := log.foldl (carryReward i) 0

theorem zip_get {w : Wrapper V} {out : Out V} (ho : out.rewards.length = n) {i : Nat} {x : ℚ}
    (hx : w.rewards[i]? = some x) (hi : i < n) : (List.zipWith (· + ·) w.rewards out.rewards)[i]? = some (x + gained i out) := by
  rw [List.getElem?_zipWith, hx]
  unfold gained
  rw [List.getElem?_eq_getElem (show i < out.rewards.length by omega)]

theorem step_carried (hwf : env.WF n) {w w' : Wrapper V} (hS : Slots n w) {actions : Dict Int (Response V)}
    {results : Dict Int (Obs V M)} {info : Option ℚ} (h : dictStep k env actions w = .ok (w', results, info))
    (hcar : ∀ i, i < n → w.rewards[i]? = some (carried i w.log)) :
    (∀ i, i < n → w'.rewards[i]? = some (carried i w'.log)) ∧ ∃ acts out, w'.log = w.log ++ [.step acts out] ∧
      info = meanReward ((List.range n).filterMap fun i =>
        if endedIn i out then some (carried i w.log + gained i out) else none) := by
  obtain ⟨batch, out, b1, b2, b3, b4, b5⟩ := dictStep_ok hwf hS.idsLen hS.rewLen hS.nodup hS.lt h
  obtain ⟨-, l2, -⟩ := hwf.step _ _ _ b2
  refine ⟨fun i hi => ?_, batch, out, b3.log, ?_⟩
  · rw [b5 i hi, b3.log]
    unfold carried
    rw [List.foldl_append, List.foldl_cons, List.foldl_nil, carryReward]
    by_cases hd : out.dones[i]? = some true
    · rw [if_pos hd, if_pos (endedIn_iff.1 hd)]
    · rw [if_neg hd, if_neg (fun h => hd (endedIn_iff.2 h)), zip_get l2 (hcar i hi) hi]
      rfl
  · rw [b4]
    congr 1
    apply List.filterMap_congr
    intro i hi
    rw [List.mem_range] at hi
    by_cases hd : out.dones[i]? = some true
    · rw [if_pos hd, if_pos (endedIn_iff.1 hd), zip_get l2 (hcar i hi) hi]
    · rw [if_neg hd, if_neg (fun h => hd (endedIn_iff.2 h))]

theorem reset_carried {w w' : Wrapper V} {rows : List V} (h1 : w'.rewards = w.rewards) (h2 : w'.log = w.log ++ [.reset rows])
    (hcar : ∀ i, i < n → w.rewards[i]? = some (carried i w.log)) :
    ∀ i, i < n → w'.rewards[i]? = some (carried i w'.log) := by
  intro i hi
  rw [h1, h2, hcar i hi]
  simp [carried, carryReward]

theorem world_carried (hwf : env.WF n) {es : List (Event V M)} {c : Collector V M (Table V)}
    (hw : World cfg k env n t0 es c) : ∀ i, i < n → c.wrapper.rewards[i]? = some (carried i c.wrapper.log) := by
  induction hw with
  | new =>
    intro i hi
    simp [Wrapper.new, carried, hi]
  | @tryOut es c c' agent hw ht ih =>
    obtain ⟨-, h2, T, h3, -⟩ := world_inv hwf hw
    obtain ⟨w1, obs1, actions, w2, res, info, w3, obs3, hr1, hact, hst, hr3, rfl⟩ := tryOut_ok ht
    obtain ⟨s1, q1, p1, e1, ⟨r1, e2⟩, -⟩ := reset_hist h2.rewLen h3 hr1
    obtain ⟨batch, out, b1, b2, b3, -⟩ := dictStep_ok hwf s1.idsLen s1.rewLen s1.nodup s1.lt hst
    obtain ⟨s3, q3, p3, e3, ⟨r3, e4⟩, -⟩ := reset_hist (b3.rewLen.trans s1.rewLen) (Hist.step_only q1 b3) hr3
    exact reset_carried e3 e4 (step_carried hwf s1 hst (reset_carried e1 e2 ih)).1
  | @collect es c c' agent obs resp draws hw ho ha hA hc ih =>
    obtain ⟨-, h2, -⟩ := world_inv hwf hw
    obtain ⟨w2, res, info, p2, hst, hadd, rfl⟩ := collectData_ok ho ha hc
    exact (step_carried hwf h2 hst ih).1
  | resize _ _ ih => exact ih
  | sample _ _ _ ih => exact ih

theorem carry_eq_add {i : Nat} {post : List (Entry V)} (hp : ∀ obs, Entry.reset obs ∉ post) (x : ℚ) :
    post.foldl (carryReward i) x = post.foldl (addReward i) x := by
  induction post generalizing x with
  | nil => rfl
  | cons e post ih =>
    have hp' : ∀ obs, Entry.reset obs ∉ post := fun obs h => hp obs (by simp [h])
    rw [List.foldl_cons, List.foldl_cons, ih hp']
    cases e with
    | reset obs => exact absurd (by simp) (hp obs)
    | step acts out => rfl

theorem carried_clean {i : Nat} {log : List (Entry V)} (h : Clean i log) : carried i log = soFar i log := by
  unfold carried soFar
  rcases h with ⟨pre, acts, out, post, rfl, h1, h2⟩ | ⟨pre, obs, post, rfl, h1, h2⟩
  · rw [List.foldl_append, List.foldl_append, List.foldl_cons, List.foldl_cons, carry_eq_add h2]
    simp only [carryReward, addReward, if_pos h1]
  · rw [List.foldl_append, List.foldl_append, List.foldl_cons, List.foldl_cons, carry_eq_add h2]
    have : pre.foldl (carryReward i) 0 = 0 := by
      clear h2
      induction pre with
      | nil => rfl
      | cons e pre ih =>
        cases e with
        | reset obs => exact ih fun acts out h => h1 acts out (by simp [h])
        | step acts out => exact absurd (by simp) (h1 acts out)
    simp only [this, carryReward, addReward]

theorem reported_mean {before l : List ℚ} : Reported before (addLogged before (meanReward l)) l := by
  constructor
  · rintro rfl; rfl
  · intro h
    unfold meanReward
    rw [if_pos (List.length_pos_iff.2 h)]
    rfl

/-- **C139** for the slots that finished an episode since the last reset, or were not stepped before it: "episode/reward" is
the mean, over the episodes that end in this round, of the sum of their rewards. -/
theorem C139_partial (hwf : env.WF n) {es : List (Event V M)} {c c' : Collector V M (Table V)}
    (hw : World cfg k env n t0 es c) {agent : Dict Int (Obs V M) → Except Err (Dict Int (Response V))}
    {mem : Int → Episode V → Table V → Res (Table V) Unit} (hc : collectData cfg k env agent mem c = .ok c') :
    ∃ acts out, c'.wrapper.log = c.wrapper.log ++ [.step acts out] ∧
      ((∀ i, i < n → endedIn i out = true → Clean i c.wrapper.log) →
        Reported c.logged c'.logged (totals n c.wrapper.log out)) := by
  obtain ⟨-, h2, -⟩ := world_inv hwf hw
  obtain ⟨obs, ho⟩ : ∃ obs, c.obs = some obs := by
    cases h : c.obs with
    | none => simp [collectData, h] at hc
    | some obs => exact ⟨obs, rfl⟩
  obtain ⟨resp, ha⟩ : ∃ resp, agent obs = .ok resp := by
    cases h : agent obs with
    | error e => simp [collectData, ho, h] at hc
    | ok resp => exact ⟨resp, rfl⟩
  obtain ⟨w2, res, info, p2, hst, hadd, rfl⟩ := collectData_ok ho ha hc
  obtain ⟨-, acts, out, h3, rfl⟩ := step_carried hwf h2 hst (world_carried hwf hw)
  refine ⟨acts, out, h3, fun hcl => ?_⟩
  have : totals n c.wrapper.log out = (List.range n).filterMap fun i =>
      if endedIn i out then some (carried i c.wrapper.log + gained i out) else none := by
    unfold totals
    apply List.filterMap_congr
    intro i hi
    split
    · rename_i he
      rw [carried_clean (hcl i (List.mem_range.1 hi) he)]
    · rfl
  rw [this]
  exact reported_mean

/-! ### Truncated episodes -/

theorem world_states (hwf : env.WF n) {es : List (Event V M)} {c : Collector V M (Table V)}
    (hw : World cfg k env n t0 es c) {s : Step V M} (hs : s ∈ es.flatMap Event.steps) : s.obs.state ≠ .interrupted := by
  obtain ⟨-, -, T, hH, -⟩ := world_inv hwf hw
  obtain ⟨pre, post, e⟩ := List.append_of_mem hs
  rw [e] at hH
  have hT := hH.tracks s.agent
  rw [mine_split] at hT
  obtain ⟨e, -, h⟩ := hT.shown _ _ (show (mine s.agent pre ++ s :: mine s.agent post)[(mine s.agent pre).length]? = some s by simp)
  rcases h.state with h | h | h <;> rw [h] <;> simp

/-- The episode of slot `i` that ended at entry `u` went to the memory, and its last observation has state `st`. -/
def EndsWith (cfg : ProxyCfg V) (es : List (Event V M)) (log : List (Entry V)) (i u : Nat) (st : EpState) : Prop :=
  ∃ t a ss s, EpisodeOf log i t u ∧ ss.length = u - t + 1 ∧ (a, ss) ∈ delivered cfg [] (es.flatMap Event.steps) ∧
    ss.getLast? = some s ∧ s.obs.state = st

/-- **C140** for episodes that the environment terminated: their last observation in the memory is marked as terminal. -/
theorem C140_partial (hwf : env.WF n) (hmin : cfg.minLength = none) {es : List (Event V M)} {c : Collector V M (Table V)}
    (hw : World cfg k env n t0 es c) {b i u : Nat} (hi : i < n) {rows : List V}
    (hb : c.wrapper.log[b]? = some (.reset rows)) (hlast : ∀ t rows', b < t → c.wrapper.log[t]? ≠ some (.reset rows'))
    (hbu : b < u) (hu : u + 1 < c.wrapper.log.length) {acts : List V} {out : Out V} {tr : Bool}
    (hue : c.wrapper.log[u]? = some (.step acts out)) (hte : out.terminated[i]? = some true)
    (htr : out.truncated[i]? = some tr) : EndsWith cfg es c.wrapper.log i u .terminal := by
  obtain ⟨t, a, ss, h1, h2, h3, h4, h5⟩ := C138 hwf hw hi hb hlast hbu hu hue ⟨acts, out, true, tr, rfl, hte, htr, rfl⟩
  have hdel := h4 (by simp [longEnough, hmin])
  obtain ⟨pre, s, post, e, -, g1, g2, -⟩ := delivered_own_steps cfg _ hdel
  refine ⟨t, a, ss, s, h2, h3, hdel, by rw [g2]; simp, ?_⟩
  have := world_states hwf hw (s := s) (by rw [e]; simp)
  unfold Step.ends at g1
  simpa [this] using g1

end

/-! ### Counting -/

/-- The steps that each slot took since the last reset. -/
def collected (log : List (Entry V)) : Nat :=
  log.foldl (fun m e => match e with | .reset _ => 0 | .step _ _ => m + 1) 0

/-- What the agent proxy answers and what the memory does in one round. -/
structure RoundOf (V M T : Type) where
  agent : Dict Int (Obs V M) → Except Err (Dict Int (Response V))
  mem : Int → Episode V → T → Res T Unit

/-- The batches of a training with `SimpleGymCollector`: the `bp_step` of each of them. -/
def runBatches {T : Type} (cfg : ProxyCfg V) (k : Codec V) (env : VecEnv V) (every numEnvs : Nat) :
    List (Nat × RoundOf V M T) → Collector V M T × Nat → Except Err (Collector V M T × Nat)
  | [], s => .ok s
  | (bp, x) :: bps, s =>
    match beginBatch (collectData cfg k env x.agent x.mem) every numEnvs s.2 bp s.1 with
    | .error e => .error e
    | .ok s => runBatches cfg k env every numEnvs bps s

section

variable {T : Type} {cfg : ProxyCfg V} {k : Codec V} {env : VecEnv V} {n : Nat}

theorem finish_log {out : Out V} (ds : List Bool) {i : Nat} {s s' : Acc V M} (h : finish k out i ds s = .ok s') :
    s'.w.log = s.w.log := by
  induction ds generalizing i s with
  | nil => simp only [finish, Except.ok.injEq] at h; rw [h]
  | cons d ds ih =>
    cases d with
    | false => exact ih h
    | true =>
      simp only [finish] at h
      split at h
      · simp at h
      rename_i s1 hs1
      rw [ih h]
      unfold finishOne at hs1
      split at hs1
      · simp at hs1
      split at hs1
      · simp only [Except.ok.injEq] at hs1
        rw [← hs1]
      · simp at hs1

theorem dictStep_log {actions : Dict Int (Response V)} {w w' : Wrapper V} {res : Dict Int (Obs V M)} {info : Option ℚ}
    (h : dictStep k env actions w = .ok (w', res, info)) : ∃ acts out, w'.log = w.log ++ [.step acts out] := by
  unfold dictStep at h
  split at h
  · simp at h
  rename_i batch _
  split at h
  · simp at h
  rename_i out _
  split at h
  · simp at h
  split at h
  · simp at h
  rename_i s hs
  split at h
  · simp at h
  simp only [Except.ok.injEq, Prod.mk.injEq] at h
  rw [← h.1, finish_log _ hs]
  exact ⟨batch, out, rfl⟩

theorem collectData_count {agent : Dict Int (Obs V M) → Except Err (Dict Int (Response V))}
    {mem : Int → Episode V → T → Res T Unit} {c c' : Collector V M T} (h : collectData cfg k env agent mem c = .ok c') :
    collected c'.wrapper.log = collected c.wrapper.log + 1 := by
  unfold collectData at h
  split at h
  · simp at h
  split at h
  · simp at h
  split at h
  · simp at h
  rename_i w next info hst
  split at h
  · simp at h
  simp only [Except.ok.injEq] at h
  obtain ⟨acts, out, hl⟩ := dictStep_log hst
  rw [← h]
  simp only [hl]
  simp [collected]

theorem tryOut_count {agent : Dict Int (Obs V M) → Except Err (Dict Int (Response V))} {c c' : Collector V M T}
    (h : tryOut k env n agent c = .ok c') : collected c'.wrapper.log = 0 := by
  obtain ⟨w1, obs1, actions, w2, res, info, w3, obs3, -, -, -, hr, rfl⟩ := tryOut_ok h
  unfold dictReset at hr
  simp only [] at hr
  split at hr
  · simp at hr
  split at hr
  · simp at hr
  simp only [Except.ok.injEq, Prod.mk.injEq] at hr
  rw [← hr.1]
  simp [collected]

theorem collectMultiple_count {agent : Nat → Dict Int (Obs V M) → Except Err (Dict Int (Response V))}
    {mem : Nat → Int → Episode V → T → Res T Unit} (m : Nat) {j : Nat} {c c' : Collector V M T}
    (h : collectMultiple cfg k env agent mem j m c = .ok c') :
    collected c'.wrapper.log = collected c.wrapper.log + m := by
  induction m generalizing j c with
  | zero => simp only [collectMultiple, Except.ok.injEq] at h; rw [h]; rfl
  | succ m ih =>
    simp only [collectMultiple] at h
    split at h
    · simp at h
    rename_i c1 hc
    rw [ih h, collectData_count hc]; omega

theorem runBatches_count {every numEnvs : Nat} (bps : List (Nat × RoundOf V M T)) {s s' : Collector V M T × Nat}
    (h : runBatches cfg k env every numEnvs bps s = .ok s') :
    s'.2 = s.2 + numEnvs * bps.length ∧
    collected s'.1.wrapper.log = collected s.1.wrapper.log + (bps.filter fun b => b.1 % every = 0).length := by
  induction bps generalizing s with
  | nil => simp only [runBatches, Except.ok.injEq] at h; subst h; simp
  | cons b bps ih =>
    obtain ⟨bp, x⟩ := b
    simp only [runBatches] at h
    split at h
    · simp at h
    rename_i s1 hs1
    obtain ⟨h1, h2⟩ := ih h
    unfold beginBatch at hs1
    split at hs1
    · simp at hs1
    split at hs1
    · rename_i hm
      split at hs1
      · simp at hs1
      rename_i c hc
      simp only [Except.ok.injEq] at hs1
      subst hs1
      rw [List.filter_cons_of_pos (by simpa using hm), h1, h2, collectData_count hc]
      simp only [List.length_cons]
      exact ⟨by ring, by omega⟩
    · rename_i hm
      simp only [Except.ok.injEq] at hs1
      subst hs1
      rw [List.filter_cons_of_neg (by simpa using hm), h1, h2]
      exact ⟨by rw [List.length_cons]; ring, rfl⟩

theorem simpleBegin_count {warmup : Nat} {agent : Nat → Dict Int (Obs V M) → Except Err (Dict Int (Response V))}
    {mem : Nat → Int → Episode V → T → Res T Unit} {c : Collector V M T} {s : Collector V M T × Nat}
    (h : simpleBegin cfg k env n warmup agent mem c = .ok s) : s.2 = warmup ∧ collected s.1.wrapper.log = warmup := by
  unfold simpleBegin at h
  split at h
  · simp at h
  rename_i c2 h2
  simp only [Except.ok.injEq] at h
  subst h
  unfold beginTraining at h2
  split at h2
  · simp at h2
  rename_i c1 h1
  rw [collectMultiple_count _ h2, tryOut_count h1]
  simp

end

/-- **C141**, the claim: after the start of training and any number of batches, `inf_step` is the number of environment
steps that were collected: those of all slots since the reset at the start. -/
def C141_claim : Prop :=
  ∀ (cfg : ProxyCfg ℚ) (k : Codec ℚ) (env : VecEnv ℚ) (n warmup every : Nat)
    (agent : Nat → Dict Int (Obs ℚ Unit) → Except Err (Dict Int (Response ℚ)))
    (mem : Nat → Int → Episode ℚ → Table ℚ → Res (Table ℚ) Unit) (bps : List (Nat × RoundOf ℚ Unit (Table ℚ)))
    (c : Collector ℚ Unit (Table ℚ)) (s s' : Collector ℚ Unit (Table ℚ) × Nat),
    simpleBegin cfg k env n warmup agent mem c = .ok s → runBatches cfg k env every n bps s = .ok s' →
      s'.2 = n * collected s'.1.wrapper.log

/-- **C141** if data is collected in every batch, and there is no warm-up or only one slot. -/
theorem C141_partial {T : Type} {cfg : ProxyCfg V} {k : Codec V} {env : VecEnv V} {n warmup : Nat}
    {agent : Nat → Dict Int (Obs V M) → Except Err (Dict Int (Response V))}
    {mem : Nat → Int → Episode V → T → Res T Unit} {bps : List (Nat × RoundOf V M T)} {c : Collector V M T}
    {s s' : Collector V M T × Nat} (h0 : simpleBegin cfg k env n warmup agent mem c = .ok s) (hw : warmup = 0 ∨ n = 1)
    (h : runBatches cfg k env 1 n bps s = .ok s') : s'.2 = n * collected s'.1.wrapper.log := by
  obtain ⟨h1, h2⟩ := runBatches_count bps h
  obtain ⟨h3, h4⟩ := simpleBegin_count h0
  simp only [Nat.mod_one, decide_true, List.filter_true] at h1 h2
  rw [h1, h2, h3, h4]
  rcases hw with rfl | rfl <;> ring

/-! ### A concrete world -/

/-- **C139**, the claim: "episode/reward" is the mean, over the episodes that end in this round, of the sum of their rewards. -/
def C139_claim : Prop :=
  ∀ (cfg : ProxyCfg ℚ) (k : Codec ℚ) (env : VecEnv ℚ) (n : Nat) (t0 : Table ℚ) (es : List (Event ℚ Unit))
    (c c' : Collector ℚ Unit (Table ℚ)) (agent : Dict Int (Obs ℚ Unit) → Except Err (Dict Int (Response ℚ)))
    (mem : Int → Episode ℚ → Table ℚ → Res (Table ℚ) Unit), env.WF n → World cfg k env n t0 es c →
    collectData cfg k env agent mem c = .ok c' →
    ∀ acts out, c'.wrapper.log = c.wrapper.log ++ [.step acts out] →
      Reported c.logged c'.logged (totals n c.wrapper.log out)

/-- **C140**, the claim: an episode that was cut off but not terminated goes to the memory with its last observation marked
as interrupted. -/
def C140_claim : Prop :=
  ∀ (cfg : ProxyCfg ℚ) (k : Codec ℚ) (env : VecEnv ℚ) (n : Nat) (t0 : Table ℚ) (es : List (Event ℚ Unit))
    (c : Collector ℚ Unit (Table ℚ)), env.WF n → cfg.minLength = none → World cfg k env n t0 es c →
    ∀ (b i u : Nat) (rows : List ℚ), i < n → c.wrapper.log[b]? = some (.reset rows) →
      (∀ t rows', b < t → c.wrapper.log[t]? ≠ some (.reset rows')) → b < u → u + 1 < c.wrapper.log.length →
      ∀ (acts : List ℚ) (out : Out ℚ), c.wrapper.log[u]? = some (.step acts out) → out.terminated[i]? = some false →
        out.truncated[i]? = some true → EndsWith cfg es c.wrapper.log i u .interrupted

namespace ExG

/-- Two slots; the first terminates at the fourth entry of the log, the second is cut off at the third and fifth. -/
def answer (t : Nat) : Out ℚ :=
  ⟨[(t : ℚ), 100 + t], [(t : ℚ), 10 * t], [t == 4, false], [false, t == 3 || t == 5], some [1000 + t, 2000 + t]⟩

def env : VecEnv ℚ where
  reset log := .ok [(log.length : ℚ), 100 + log.length]
  step log _ := .ok (answer log.length)

theorem env_wf : env.WF 2 := by
  constructor
  · intro log obs h
    simp only [env, Except.ok.injEq] at h
    subst h; rfl
  · intro log acts out h
    simp only [env, Except.ok.injEq] at h
    subst h
    exact ⟨rfl, rfl, rfl, rfl, fun _ => ⟨_, rfl, rfl⟩⟩

def k : Codec ℚ := ⟨id, 0⟩
def cfg : ProxyCfg ℚ := ⟨none, "actions", false, fun b => if b then 1 else 0⟩
def t0 : Table ℚ := (Table.new (Builder.columns false false ["obs"]) 100 (.uniform {}) (.fifo {}) "actions").1

theorem created : Created (Builder.columns false false ["obs"]) 100 "actions" t0 :=
  ⟨by decide, _, _, .uniform, .fifo true true, Prod.ext rfl (by decide +kernel)⟩

/-- An agent that answers every agent that goes on with the negated number of that agent. -/
def replies (obs : Dict Int (Obs ℚ Unit)) : Dict Int (Response ℚ) :=
  (obs.filter fun x => decide (x.2.state ≠ .terminal)).map fun x => (x.1, ⟨[("actions", (-x.1 : ℤ))], []⟩)

theorem answers {obs : Dict Int (Obs ℚ Unit)} (hn : obs.keys.Nodup) : Answers obs (replies obs) := by
  have hsub : (replies obs).keys.Nodup := by
    have : (replies obs).keys = (obs.filter fun x => decide (x.2.state ≠ .terminal)).map Prod.fst := by
      unfold replies Dict.keys
      rw [List.map_map]; rfl
    rw [this]
    exact hn.sublist (List.filter_sublist.map _)
  constructor
  · intro a o h h1 h2
    refine ⟨⟨[("actions", (-a : ℤ))], []⟩, (-a : ℤ), Dict.get?_of_mem hsub ?_, rfl, rfl⟩
    exact List.mem_map.2 ⟨(a, o), List.mem_filter.2 ⟨h, by simpa using h1⟩, rfl⟩
  · intro a r h
    obtain ⟨x, -, hx⟩ := List.mem_map.1 h
    simp only [Prod.mk.injEq] at hx
    rw [← hx.2]
    simp [Dict.keys]

def agent (obs : Dict Int (Obs ℚ Unit)) : Except Err (Dict Int (Response ℚ)) := .ok (replies obs)

def okOr {α : Type} (x : Except Err α) (d : α) : α := match x with | .ok a => a | .error _ => d

def isOk {α : Type} : Except Err α → Bool | .ok _ => true | .error _ => false

theorem eq_ok {α : Type} {x : Except Err α} (d : α) (h : isOk x = true) : x = .ok (okOr x d) := by
  cases x with
  | ok a => rfl
  | error e => simp [isOk] at h

def c0 : Collector ℚ Unit (Table ℚ) := ⟨Wrapper.new 2, none, Proxy.new t0, []⟩
def c1 : Collector ℚ Unit (Table ℚ) := okOr (tryOut k env 2 agent c0) c0
def round (c : Collector ℚ Unit (Table ℚ)) : Except Err (Collector ℚ Unit (Table ℚ)) :=
  collectData cfg k env agent (fun a ep t => Table.addSequence [] a ep t) c
def c2 : Collector ℚ Unit (Table ℚ) := okOr (round c1) c0
def c3 : Collector ℚ Unit (Table ℚ) := okOr (round c2) c0
def c4 : Collector ℚ Unit (Table ℚ) := okOr (round c3) c0
def c5 : Collector ℚ Unit (Table ℚ) := okOr (round c4) c0

def seen (c : Collector ℚ Unit (Table ℚ)) : Dict Int (Obs ℚ Unit) := c.obs.getD []

theorem world1 : World cfg k env 2 t0 [] c1 := .tryOut .new (eq_ok c0 (by decide +kernel))

theorem next {es : List (Event ℚ Unit)} {c c' : Collector ℚ Unit (Table ℚ)} (hw : World cfg k env 2 t0 es c)
    (hc : c' = okOr (round c) c0) (h1 : c.obs.isSome = true) (h2 : (seen c).keys.Nodup) (h3 : isOk (round c) = true) :
    World cfg k env 2 t0 (es ++ [.add ⟨seen c, replies (seen c)⟩ fun _ => []]) c' := by
  subst hc
  refine World.collect (agent := agent) (fun _ => []) hw ?_ rfl (answers h2) (eq_ok c0 h3)
  unfold seen
  cases h : c.obs with
  | none => simp [h] at h1
  | some o => rfl

def ev (c : Collector ℚ Unit (Table ℚ)) : Event ℚ Unit := .add ⟨seen c, replies (seen c)⟩ fun _ => []

theorem world2 : World cfg k env 2 t0 [ev c1] c2 := next world1 rfl (by decide +kernel) (by decide +kernel) (by decide +kernel)
theorem world3 : World cfg k env 2 t0 [ev c1, ev c2] c3 :=
  next (es := [_]) world2 rfl (by decide +kernel) (by decide +kernel) (by decide +kernel)
theorem world4 : World cfg k env 2 t0 [ev c1, ev c2, ev c3] c4 :=
  next (es := [_, _]) world3 rfl (by decide +kernel) (by decide +kernel) (by decide +kernel)
theorem world5 : World cfg k env 2 t0 [ev c1, ev c2, ev c3, ev c4] c5 :=
  next (es := [_, _, _]) world4 rfl (by decide +kernel) (by decide +kernel) (by decide +kernel)

/-- What happened: a reset, the check, another reset, and four rounds. -/
example : c5.wrapper.log.map (fun e => e.shows) =
    [[0, 100], [1, 101], [2, 102], [3, 103], [4, 104], [5, 105], [6, 106]] := by decide +kernel

/-- Every round has a new agent for the slot whose episode ended. -/
example : (seen c1).keys = [4, 5] ∧ (seen c2).keys = [5, 6, 4] ∧ (seen c3).keys = [4, 7, 6] ∧ (seen c4).keys = [6, 8, 7] := by
  decide +kernel

/-- The transitions of the three episodes that were delivered: with the final observations, not those after the reset. -/
example : (Table.sampleAdapted (Builder.adaptors (· == 1) false ["obs"]) 5 1 id (fun i => i) (fun _ _ => .bit false)
      c5.proxy.table).2.map (fun b => (b.get? "observation", b.get? "next_observation", b.get? "rewards", b.get? "dones"))
    = .ok (some (.obs [("obs", [.row 102, .row 3, .row 103, .row 102, .row 2])]),
      some (.obs [("obs", [.row 2003, .row 1004, .row 104, .row 2003, .row 3])]),
      some (.col [.row 30, .row 4, .row 40, .row 30, .row 3]),
      some (.col [.bit true, .bit true, .bit false, .bit true, .bit false])) := by decide +kernel

/-- `C137` applies to it. -/
example {t' : Table ℚ} {b : Batch ℚ}
    (hs : Table.sampleAdapted (Builder.adaptors (· == 1) false ["obs"]) 5 1 id (fun i => i) (fun _ _ => .bit false)
      c5.proxy.table = (t', .ok b)) :
    ∃ rew, b.get? "rewards" = some (.col rew) ∧ rew.length = 5 := by
  obtain ⟨_, _, _, rew, _, _, -, -, -, h, -, -, -, hl, -⟩ := C137 env_wf rfl created world5 (by decide) (.inl rfl) hs
  exact ⟨rew, h, hl⟩

/-- There is no reset after entry 2. -/
theorem last_reset (t : Nat) (rows : List ℚ) (h : 2 < t) : c5.wrapper.log[t]? ≠ some (.reset rows) := by
  intro he
  have hk : (c5.wrapper.log.drop 3).all (fun e => match e with | .reset _ => false | .step _ _ => true) = true := by
    decide +kernel
  have : (c5.wrapper.log.drop 3)[t - 3]? = some (.reset rows) := by
    rw [List.getElem?_drop, show 3 + (t - 3) = t by omega, he]
  simpa using List.all_eq_true.1 hk _ (List.mem_of_getElem? this)

/-- The answer of the environment at entry `u`. -/
theorem at_entry {u : Nat} (h : c5.wrapper.log[u]? = some (.step ((c5.wrapper.log[u]?.bind fun e =>
      match e with | .reset _ => none | .step acts _ => some acts).getD []) (answer u))) :
    ∃ acts, c5.wrapper.log[u]? = some (.step acts (answer u)) := ⟨_, h⟩

/-- `C138` and `C140_partial` for the episode of slot 0, which terminated at entry 4. -/
example : EndsWith cfg [ev c1, ev c2, ev c3, ev c4] c5.wrapper.log 0 4 .terminal := by
  obtain ⟨acts, h⟩ := at_entry (u := 4) (by decide +kernel)
  exact C140_partial env_wf rfl world5 (by decide) (rows := [2, 102]) (b := 2) (by decide +kernel) last_reset (by decide)
    (by decide +kernel) h (by decide +kernel) (tr := false) (by decide +kernel)

/-- After the first episodes the reward is right: the second episode of slot 1 got 40 and 50. -/
example : c3.logged = [40, 8] ∧ c4.logged = [40, 8, 90] ∧ totals 2 c3.wrapper.log (answer 5) = [90] := by decide +kernel

example : Reported c3.logged c4.logged [90] := by
  obtain ⟨acts, out, h1, h2⟩ := C139_partial env_wf world3 (eq_ok c0 (show isOk (round c3) = true by decide +kernel))
  have hl : c4.wrapper.log = c3.wrapper.log ++ [.step acts out] := h1
  rw [show c4.wrapper.log = c3.wrapper.log ++ [.step [-7, -6] (answer 5)] by decide +kernel] at hl
  simp only [List.append_cancel_left_eq, List.cons.injEq, Entry.step.injEq, and_true] at hl
  obtain ⟨-, rfl⟩ := hl
  have h3 := h2 fun i hi he => by
    have : i = 1 := by
      rcases (show i = 0 ∨ i = 1 by omega) with rfl | rfl
      · revert he; decide +kernel
      · rfl
    subst this
    refine .inl ⟨c3.wrapper.log.take 3, [-4, -5], answer 3, c3.wrapper.log.drop 4, by decide +kernel, by decide +kernel, ?_⟩
    intro obs ho
    have hk : (c3.wrapper.log.drop 4).all (fun e => match e with | .reset _ => false | .step _ _ => true) = true := by
      decide +kernel
    simpa using List.all_eq_true.1 hk _ ho
  rwa [show totals 2 c3.wrapper.log (answer 5) = [90] by decide +kernel] at h3

end ExG

/-- The reward of the check at the start of training is counted to the first episode of each slot. -/
theorem C139_false : ¬ C139_claim := by
  intro h
  have h1 := h ExG.cfg ExG.k ExG.env 2 ExG.t0 [] ExG.c1 ExG.c2 ExG.agent _ ExG.env_wf ExG.world1
    (ExG.eq_ok ExG.c0 (show ExG.isOk (ExG.round ExG.c1) = true by decide +kernel)) [-4, -5] (ExG.answer 3) (by decide +kernel)
  have h2 := h1.2 (by decide +kernel)
  revert h2
  decide +kernel

/-- An episode that was cut off is marked as terminal. -/
theorem C140_false : ¬ C140_claim := by
  intro h
  obtain ⟨acts, he⟩ := ExG.at_entry (u := 3) (by decide +kernel)
  obtain ⟨t, a, ss, s, -, -, hd, hl, hs⟩ := h ExG.cfg ExG.k ExG.env 2 ExG.t0 _ ExG.c5 ExG.env_wf rfl ExG.world5 2 1 3 [2, 102]
    (by decide) (by decide +kernel) ExG.last_reset (by decide) (by decide +kernel) acts _ he (by decide +kernel)
    (by decide +kernel)
  obtain ⟨-, -, T, hH, -⟩ := world_inv ExG.env_wf ExG.world5
  have hm : s ∈ ss := List.mem_of_getLast? hl
  rw [delivered_mine hH hd] at hm
  exact world_states ExG.env_wf ExG.world5 (List.mem_filter.1 hm).1 hs

/-- A training with `warmup` rounds of warm-up. -/
def ExG.train (warmup every : Nat) (bps : List Nat) : Except Err (Collector ℚ Unit (Table ℚ) × Nat) :=
  match simpleBegin ExG.cfg ExG.k ExG.env 2 warmup (fun _ => ExG.agent) (fun _ a ep t => Table.addSequence [] a ep t) ExG.c0 with
  | .error e => .error e
  | .ok s => runBatches ExG.cfg ExG.k ExG.env every 2
      (bps.map fun b => (b, ⟨ExG.agent, fun a ep t => Table.addSequence [] a ep t⟩)) s

/-- One round of warm-up with two slots is counted as one step. -/
theorem C141_false : ¬ C141_claim := by
  intro h
  have h1 := h ExG.cfg ExG.k ExG.env 2 1 1 (fun _ => ExG.agent) (fun _ a ep t => Table.addSequence [] a ep t) [] ExG.c0 _ _
    (ExG.eq_ok (ExG.c0, 0) (by decide +kernel)) rfl
  revert h1
  decide +kernel

/-- With data collected only in every other batch, all batches count. -/
example : (ExG.train 0 2 [0, 1, 2, 3]).map (fun s => (s.2, collected s.1.wrapper.log)) = .ok (8, 2) := by decide +kernel

example : (ExG.train 0 1 [0, 1, 2]).map (fun s => (s.2, collected s.1.wrapper.log)) = .ok (6, 3) := by decide +kernel

example {s s' : Collector ℚ Unit (Table ℚ) × Nat}
    (h0 : simpleBegin ExG.cfg ExG.k ExG.env 2 0 (fun _ => ExG.agent) (fun _ a ep t => Table.addSequence [] a ep t) ExG.c0 = .ok s)
    (h : runBatches ExG.cfg ExG.k ExG.env 1 2
      ([0, 1, 2].map fun b => (b, ⟨ExG.agent, fun a ep t => Table.addSequence [] a ep t⟩)) s = .ok s') :
    s'.2 = 2 * collected s'.1.wrapper.log := C141_partial h0 (.inl rfl) h

end Verif.GymRun
