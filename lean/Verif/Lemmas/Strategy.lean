import Verif.Model.Strategy
import Verif.Lemmas.Dict

set_option linter.unusedSimpArgs false

namespace Verif

open Dict

/-- The total length of the given identities. -/
def lenSum (l : Dict Int Nat) (ids : List Int) : Nat :=
  (ids.map fun id => match l.get? id with | some n => n | none => 0).sum

@[simp] theorem lenSum_nil (l : Dict Int Nat) : lenSum l [] = 0 := rfl
@[simp] theorem lenSum_cons (l : Dict Int Nat) (id : Int) (ids : List Int) :
    lenSum l (id :: ids) = (match l.get? id with | some n => n | none => 0) + lenSum l ids := by
  simp [lenSum]
@[simp] theorem lenSum_append (l : Dict Int Nat) (a b : List Int) :
    lenSum l (a ++ b) = lenSum l a + lenSum l b := by
  simp [lenSum]

/-- A consistent strategy that tracks exactly the sequences `l` (in this order). -/
def Strategy.Tracks (s : Strategy) (l : Dict Int Nat) : Prop :=
  match s with
  | .fifo s => s.ids = l.keys ∧ s.lens = l ∧ s.inImport = false
  | .uniform s => s.idents = l ∧ (s.dirty = false → s.ids = l.keys ∧ s.prios = l.values)
  | .coverage s => s.idents = l ∧ s.counts.keys = l.keys ∧
      (s.dirty = false → s.ids = l.keys ∧ s.prios = l.values)

namespace Strategy

/-- Which class the strategy is. -/
def kind : Strategy → Nat
  | fifo _ => 0
  | uniform _ => 1
  | coverage _ => 2

theorem kind_track {s s' : Strategy} {id : Int} {len : Nat} {x : Except Err Unit}
    (h : s.track id len = (s', x)) : s'.kind = s.kind := by
  cases s <;> simp only [track, Res.lift, Prod.mk.injEq] at h <;> rw [← h.1] <;> rfl

theorem kind_forget {s s' : Strategy} {id : Int} {x : Except Err Unit}
    (h : s.forget id = (s', x)) : s'.kind = s.kind := by
  cases s <;> simp only [forget, Res.lift, Prod.mk.injEq] at h <;> rw [← h.1] <;> rfl

theorem kind_eject {s s' : Strategy} {count : Int} {draws : List Nat} {x : Except Err (List Int)}
    (h : s.eject count draws = (s', x)) : s'.kind = s.kind := by
  cases s <;> simp only [eject, Res.lift, Prod.mk.injEq] at h <;> rw [← h.1] <;> rfl

theorem kind_sample {s s' : Strategy} {count : Nat} {tc : Int} {c r : Nat → Nat}
    {x : Except Err (List SamplePoint)}
    (h : s.sample count tc c r = (s', x)) : s'.kind = s.kind := by
  cases s <;> simp only [sample, Res.lift, Prod.mk.injEq] at h <;> rw [← h.1] <;> rfl

theorem Fresh.tracks {s : Strategy} (h : s.Fresh) : s.Tracks [] := by
  cases h <;> simp [Tracks, keys, values]

theorem tracks_track {s : Strategy} {l : Dict Int Nat} {id : Int} {len : Nat} (h : s.Tracks l)
    (hid : id ∉ l.keys) :
    ∃ s', s.track id len = (s', .ok ()) ∧ s'.Tracks (l ++ [(id, len)]) := by
  cases s with
  | fifo s =>
    obtain ⟨h1, h2, h3⟩ := h
    have hc : s.lens.contains id = false := by rw [h2]; exact contains_false_iff.2 hid
    refine ⟨_, by simp [track, Fifo.track, h3, hc, Res.lift]; rfl, ?_⟩
    refine ⟨?_, ?_, rfl⟩
    · simp [h1]
    · simp [h2, set_of_not_mem hid]
  | uniform s =>
    obtain ⟨h1, h2⟩ := h
    refine ⟨_, by simp [track, Uniform.track, Res.lift]; rfl, ?_⟩
    refine ⟨?_, by simp⟩
    simp [h1, set_of_not_mem hid]
  | coverage s =>
    obtain ⟨h1, h2, h3⟩ := h
    refine ⟨_, by simp [track, Coverage.track, Res.lift]; rfl, ?_⟩
    refine ⟨?_, ?_, by simp⟩
    · simp [h1, set_of_not_mem hid]
    · have : id ∉ s.counts.keys := h2 ▸ hid
      simp [set_of_not_mem this, h2]

theorem tracks_forget {s : Strategy} {l : Dict Int Nat} {id : Int} (h : s.Tracks l)
    (hid : id ∈ l.keys) :
    ∃ s', s.forget id = (s', .ok ()) ∧ s'.Tracks (l.erase id) := by
  cases s with
  | fifo s =>
    obtain ⟨h1, h2, h3⟩ := h
    have : s.lens.del? id = some (l.erase id) := by rw [h2]; exact del?_of_mem hid
    refine ⟨_, by simp [forget, Fifo.forget, h1, hid, this, Res.lift]; rfl, ?_⟩
    exact ⟨by simp [keys_erase], rfl, h3⟩
  | uniform s =>
    obtain ⟨h1, h2⟩ := h
    have : s.idents.del? id = some (l.erase id) := by rw [h1]; exact del?_of_mem hid
    refine ⟨_, by simp [forget, Uniform.forget, this, Res.lift]; rfl, ?_⟩
    exact ⟨rfl, by simp⟩
  | coverage s =>
    obtain ⟨h1, h2, h3⟩ := h
    have h4 : s.idents.del? id = some (l.erase id) := by rw [h1]; exact del?_of_mem hid
    have h5 : s.counts.del? id = some (s.counts.erase id) := del?_of_mem (h2 ▸ hid)
    refine ⟨_, by simp [forget, Coverage.forget, h4, h5, Res.lift]; rfl, ?_⟩
    exact ⟨rfl, by simp [keys_erase, h2], by simp⟩

end Strategy

/-! ## Ejection loops -/

/-- What an ejection request returns: distinct tracked identities, enough of them, and the last one
was needed. -/
structure EjectOk (l : Dict Int Nat) (count : Int) (ids : List Int) : Prop where
  nodup : ids.Nodup
  subset : ∀ id ∈ ids, id ∈ l.keys
  enough : count ≤ lenSum l ids
  minimal : ∀ pre last, ids = pre ++ [last] → (lenSum l pre : Int) < count

theorem Fifo.ejectLoop_ok {lens : Dict Int Nat} {ids : List Int} {count : Int} {out : List Int}
    (h : Fifo.ejectLoop lens ids count = .ok out) :
    ∃ rest, ids = out ++ rest ∧ (∀ id ∈ out, id ∈ lens.keys) ∧ count ≤ lenSum lens out ∧
      ∀ pre last, out = pre ++ [last] → (lenSum lens pre : Int) < count := by
  induction ids generalizing count out with
  | nil =>
    unfold Fifo.ejectLoop at h
    split at h
    · rename_i hc
      injection h with h; subst h
      refine ⟨[], by simp, by simp, by simpa using hc, ?_⟩
      intro pre last h; simp at h
    · simp at h
  | cons id rest ih =>
    unfold Fifo.ejectLoop at h
    split at h
    · rename_i hc
      injection h with h; subst h
      refine ⟨id :: rest, by simp, by simp, by simpa using hc, ?_⟩
      intro pre last h; simp at h
    · rename_i hc
      simp only at h
      split at h
      · simp at h
      · rename_i len hlen
        cases hr : Fifo.ejectLoop lens rest (count - len) with
        | error e => rw [hr] at h; simp [Except.map] at h
        | ok out' =>
          rw [hr] at h
          simp only [Except.map, Except.ok.injEq] at h
          subst h
          obtain ⟨rest', h1, h2, h3, h4⟩ := ih hr
          refine ⟨rest', by simp [h1], ?_, ?_, ?_⟩
          · intro j hj
            rcases List.mem_cons.1 hj with rfl | hj
            · exact mem_keys_of_get? hlen
            · exact h2 j hj
          · simp only [lenSum_cons, hlen]; push_cast; omega
          · intro pre last hpl
            cases pre with
            | nil => simp; omega
            | cons p pre =>
              simp only [List.cons_append, List.cons.injEq] at hpl
              obtain ⟨rfl, hpl⟩ := hpl
              have := h4 pre last hpl
              simp only [lenSum_cons, hlen]; push_cast; omega

theorem choice_mem {ids : List Int} {prios : List Nat} {d : Nat} {id : Int}
    (h : choice ids prios d = .ok id) : ∃ w, (id, w) ∈ ids.zip prios ∧ 0 < w := by
  unfold choice at h
  simp only at h
  split at h
  · simp at h
  · split at h
    · simp at h
    · rename_i j hj
      injection h with h; subst h
      have := List.mem_of_getElem? hj
      simp only [List.mem_map, List.mem_filter, decide_eq_true_eq] at this
      obtain ⟨⟨a, w⟩, ⟨h1, h2⟩, rfl⟩ := this
      exact ⟨w, h1, h2⟩

theorem zip_keys_values (l : Dict Int Nat) : l.keys.zip l.values = l := by
  induction l with
  | nil => rfl
  | cons p l ih => simp [ih]

/-- A draw from a fresh snapshot is a tracked identity with positive length. -/
theorem choice_tracked {l : Dict Int Nat} {d : Nat} {id : Int} (hn : l.keys.Nodup)
    (h : choice l.keys l.values d = .ok id) : ∃ w, l.get? id = some w ∧ 0 < w := by
  obtain ⟨w, h1, h2⟩ := choice_mem h
  rw [zip_keys_values] at h1
  exact ⟨w, get?_of_mem hn h1, h2⟩

theorem Uniform.ejectLoop_ok {l : Dict Int Nat} {draws : List Nat} {count c0 : Int}
    {acc out : List Int}
    (hacc : acc.Nodup) (hsub : ∀ id ∈ acc, id ∈ l.keys) (hcount : count = c0 - lenSum l acc)
    (hmin : ∀ pre last, acc = pre ++ [last] → (lenSum l pre : Int) < c0)
    (h : Uniform.ejectLoop l.keys l.values l draws count acc = .ok out) :
    EjectOk l c0 out := by
  induction draws generalizing count acc with
  | nil =>
    unfold Uniform.ejectLoop at h
    split at h
    · injection h with h; subst h
      exact ⟨hacc, hsub, by omega, hmin⟩
    · simp at h
  | cons d ds ih =>
    unfold Uniform.ejectLoop at h
    split at h
    · injection h with h; subst h
      exact ⟨hacc, hsub, by omega, hmin⟩
    · simp only at h
      split at h
      · simp at h
      · rename_i id hid
        split at h
        · exact ih hacc hsub hcount hmin h
        · rename_i hnew
          split at h
          · simp at h
          · rename_i len hlen
            refine ih ?_ ?_ ?_ ?_ h
            · rw [List.nodup_append]
              refine ⟨hacc, by simp, ?_⟩
              intro a ha b hb; simp at hb; subst hb; exact fun e => hnew (e ▸ ha)
            · intro j hj
              rcases List.mem_append.1 hj with hj | hj
              · exact hsub j hj
              · simp at hj; subst hj; exact mem_keys_of_get? hlen
            · simp only [lenSum_append, lenSum_cons, hlen, lenSum_nil]; push_cast; omega
            · intro pre last hpl
              have := List.append_inj' hpl (by simp)
              obtain ⟨rfl, _⟩ := this
              omega

namespace Strategy

theorem refresh_uniform {s s' : Uniform} {l : Dict Int Nat} (h : (uniform s).Tracks l)
    (hr : s.refresh = (s', .ok ())) :
    (uniform s').Tracks l ∧ s'.ids = l.keys ∧ s'.prios = l.values ∧ s'.idents = l := by
  obtain ⟨h1, h2⟩ := h
  unfold Uniform.refresh at hr
  split at hr
  · unfold Uniform.rebalance at hr
    simp only at hr
    split at hr
    · injection hr with hr _; subst hr
      simp [Tracks, h1]
    · simp at hr
  · rename_i hd
    injection hr with hr _; subst hr
    have := h2 (by simpa using hd)
    exact ⟨⟨h1, h2⟩, this.1, this.2, h1⟩

theorem refresh_coverage {s s' : Coverage} {l : Dict Int Nat} (h : (coverage s).Tracks l)
    (hr : s.refresh = (s', .ok ())) :
    (coverage s').Tracks l ∧ s'.ids = l.keys ∧ s'.prios = l.values ∧ s'.idents = l ∧
      s'.counts = s.counts := by
  obtain ⟨h1, h2, h3⟩ := h
  unfold Coverage.refresh at hr
  split at hr
  · unfold Coverage.rebalance at hr
    simp only at hr
    split at hr
    · split at hr
      · injection hr with hr _; subst hr
        simp [Tracks, h1, h2]
      · simp at hr
    · simp at hr
  · rename_i hd
    injection hr with hr _; subst hr
    have := h3 (by simpa using hd)
    exact ⟨⟨h1, h2, h3⟩, this.1, this.2, h1, rfl⟩

/-- Ejection by any strategy. -/
theorem tracks_eject {s s' : Strategy} {l : Dict Int Nat} {count : Int} {draws : List Nat}
    {ids : List Int} (hn : l.keys.Nodup) (h : s.Tracks l)
    (he : s.eject count draws = (s', .ok ids)) :
    s'.Tracks l ∧ EjectOk l count ids := by
  cases s with
  | fifo s =>
    simp only [eject, Fifo.eject, Prod.mk.injEq] at he
    obtain ⟨rfl, he⟩ := he
    refine ⟨h, ?_⟩
    obtain ⟨h1, h2, h3⟩ := h
    rw [h1, h2] at he
    obtain ⟨rest, e1, e2, e3, e4⟩ := Fifo.ejectLoop_ok he
    exact ⟨by rw [e1] at hn; exact (List.nodup_append.1 hn).1, e2, e3, e4⟩
  | uniform s =>
    simp only [eject, Uniform.eject] at he
    cases hr : s.refresh with
    | mk s1 r =>
      cases r with
      | error e => rw [hr] at he; simp [Res.lift] at he
      | ok u =>
        obtain ⟨h1, h2, h3, h4⟩ := refresh_uniform h hr
        rw [hr] at he
        simp only [Res.andThen_ok, Res.lift, Prod.mk.injEq, h2, h3, h4] at he
        obtain ⟨rfl, he⟩ := he
        refine ⟨h1, ?_⟩
        exact Uniform.ejectLoop_ok (acc := []) (count := count) (by simp) (by simp) (by simp)
          (by simp) he
  | coverage s =>
    simp only [eject, Coverage.eject] at he
    cases hr : s.refresh with
    | mk s1 r =>
      cases r with
      | error e => rw [hr] at he; simp [Res.lift] at he
      | ok u =>
        obtain ⟨h1, h2, h3, h4, _⟩ := refresh_coverage h hr
        rw [hr] at he
        simp only [Res.andThen_ok, Res.lift, Prod.mk.injEq, h2, h3, h4] at he
        obtain ⟨rfl, he⟩ := he
        refine ⟨h1, ?_⟩
        exact Uniform.ejectLoop_ok (acc := []) (count := count) (by simp) (by simp) (by simp)
          (by simp) he

end Strategy

end Verif
