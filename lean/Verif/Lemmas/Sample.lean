import Verif.Lemmas.Table

set_option linter.unusedSimpArgs false

namespace Verif

open Dict Spec

variable {V : Type u}

namespace Coverage

theorem points_keys {idents : Dict Int Nat} {tc : Int} {r : Nat → Nat} (ids : List Int) (k : Nat)
    (counts : Dict Int Nat) : (points idents tc r ids k counts).1.keys = counts.keys := by
  induction ids generalizing k counts with
  | nil => rfl
  | cons id ids ih =>
    unfold points
    split
    · rfl
    · rename_i n hn
      have hm := mem_keys_of_get? hn
      simp only
      split
      · exact keys_set_of_mem hm
      · rename_i len _
        have := ih (k + 1) (counts.set id (n + 1))
        rw [keys_set_of_mem hm] at this
        rw [← this]
        cases points idents tc r ids (k + 1) (counts.set id (n + 1)) with
        | mk c x => cases x <;> rfl

end Coverage

namespace Strategy

theorem tracks_sample {s s' : Strategy} {l : Dict Int Nat} {count : Nat} {tc : Int} {c r : Nat → Nat}
    {x : Except Err (List SamplePoint)} (h : s.Tracks l) (hs : s.sample count tc c r = (s', x))
    (hx : x ≠ .error .overflowError) : s'.Tracks l := by
  cases s with
  | fifo s => simp only [sample, Prod.mk.injEq] at hs; exact hs.1 ▸ h
  | uniform s =>
    simp only [sample, Uniform.sample, Res.lift, Prod.mk.injEq] at hs
    cases hr : s.refresh with
    | mk s1 y =>
      rw [hr] at hs
      cases y with
      | error e =>
        simp only [Res.andThen_error] at hs
        unfold Uniform.refresh at hr
        split at hr
        · unfold Uniform.rebalance at hr
          simp only at hr
          split at hr
          · simp at hr
          · injection hr with _ hr; injection hr with hr; subst hr
            exact absurd hs.2.symm hx
        · simp at hr
      | ok u =>
        simp only [Res.andThen_ok] at hs
        exact hs.1 ▸ (refresh_uniform h hr).1
  | coverage s =>
    simp only [sample, Coverage.sample, Res.lift, Prod.mk.injEq] at hs
    cases hr : s.refresh with
    | mk s1 y =>
      rw [hr] at hs
      cases y with
      | error e =>
        simp only [Res.andThen_error] at hs
        unfold Coverage.refresh at hr
        split at hr
        · unfold Coverage.rebalance at hr
          simp only at hr
          split at hr
          · split at hr
            · simp at hr
            · rename_i hall
              exfalso; apply hall
              rw [List.all_eq_true]
              intro k hk
              rw [contains_iff]
              obtain ⟨h1, h2, _⟩ := h
              rw [h2, ← h1]; exact hk
          · injection hr with _ hr; injection hr with hr; subst hr
            exact absurd hs.2.symm hx
        · simp at hr
      | ok u =>
        obtain ⟨⟨h1, h2, h3⟩, _⟩ := refresh_coverage h hr
        simp only [Res.andThen_ok] at hs
        split at hs
        · exact hs.1 ▸ ⟨h1, h2, h3⟩
        · rw [← hs.1]
          exact ⟨h1, by simp only [Coverage.points_keys]; exact h2, h3⟩

end Strategy

namespace Table

theorem gather_state (count n : Nat) (pts : List SamplePoint) (junk : String → Nat → Cell V)
    (stores : Dict String (Store V)) (t : Table V) :
    ∃ temp, (gather count n pts junk stores t).1 = { t with temp := temp } := by
  induction stores generalizing t with
  | nil => exact ⟨t.temp, rfl⟩
  | cons p stores ih =>
    obtain ⟨name, s⟩ := p
    unfold gather
    simp only
    split
    · exact ⟨_, rfl⟩
    · obtain ⟨temp, ht⟩ := ih { t with temp := t.temp.set name ((gatherStore t.data s (localLen s n) pts 0
        ((workspace (t.temp.get? name) (count * localLen s n) (junk name)).take
          (count * localLen s n))).1 ++ (workspace (t.temp.get? name) (count * localLen s n)
            (junk name)).drop (count * localLen s n)) }
      refine ⟨temp, ?_⟩
      revert ht
      generalize gather count n pts junk stores _ = x
      intro ht
      obtain ⟨t1, y⟩ := x
      cases y with
      | error e => simp only [Res.andThen_error]; simpa using ht
      | ok out => simp only [Res.andThen_ok]; simpa using ht

/-- Sampling keeps the table consistent and does not change what it holds (unless the identities do
not fit int64). -/
theorem sample_inv {t t' : Table V} {q : List (Entry V)} {count n : Nat} {c r : Nat → Nat}
    {junk : String → Nat → Cell V} {x : Except Err (Dict String (List (Cell V)))} (h : Inv t q)
    (hs : sample count n c r junk t = (t', x)) (hx : x ≠ .error .overflowError) :
    Inv t' q ∧ SameConfig t t' ∧ t'.filled = t.filled ∧ t'.data = t.data := by
  unfold sample at hs
  cases hr : t.sampler.sample count n c r with
  | mk s y =>
    rw [hr] at hs
    have ht : y ≠ .error .overflowError → s.Tracks (lensOf q) := Strategy.tracks_sample h.sampler hr
    cases y with
    | error e =>
      simp only [Res.lift, Res.andThen_error, Prod.mk.injEq] at hs
      obtain ⟨rfl, rfl⟩ := hs
      have ht := ht (by intro he; exact hx (by injection he with he; rw [he]))
      exact ⟨⟨h.nodup, h.lengths, h.total, h.shape, h.names, h.stores, ht, h.ejector⟩,
        ⟨rfl, rfl, rfl, Strategy.kind_sample hr, rfl⟩, rfl, rfl⟩
    | ok pts =>
      have ht := ht (by simp)
      simp only [Res.lift, Res.andThen_ok] at hs
      obtain ⟨temp, hg⟩ := gather_state count n pts junk t.data { t with sampler := s }
      rw [hs] at hg
      simp only at hg
      subst hg
      exact ⟨⟨h.nodup, h.lengths, h.total, h.shape, h.names, h.stores, ht, h.ejector⟩,
        ⟨rfl, rfl, rfl, Strategy.kind_sample hr, rfl⟩, rfl, rfl⟩

end Table

end Verif
