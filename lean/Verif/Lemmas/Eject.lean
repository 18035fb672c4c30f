import Verif.Lemmas.Sample
import Verif.Model.Tracked
import Verif.Spec.Strategy

set_option linter.unusedSimpArgs false

namespace Verif

open Dict Spec

/-! ## Totals -/

theorem sum_filter_mem_cons (l : Dict Int Nat) (hn : l.keys.Nodup) (id : Int) (ids : List Int)
    (hid : id ∉ ids) :
    ((l.filter fun p => p.1 ∈ id :: ids).map Prod.snd).sum
      = (match l.get? id with | some n => n | none => 0)
        + ((l.filter fun p => p.1 ∈ ids).map Prod.snd).sum := by
  induction l with
  | nil => simp [get?]
  | cons p l ih =>
    obtain ⟨k, v⟩ := p
    rw [keys_cons, List.nodup_cons] at hn
    have ih := ih hn.2
    by_cases hk : k = id
    · subst hk
      have hg : Dict.get? l k = none := get?_none_iff.2 hn.1
      rw [hg] at ih
      simp only [List.filter_cons, get?, List.mem_cons, true_or, decide_true, if_true, hid,
        decide_false, Bool.false_eq_true, if_false, List.map_cons, List.sum_cons]
      rw [Nat.zero_add] at ih
      simp only [List.mem_cons] at ih
      rw [ih]
    · simp only [get?, if_neg hk]
      simp only [List.filter_cons, List.mem_cons, hk, false_or]
      simp only [List.mem_cons] at ih
      by_cases hm : k ∈ ids
      · simp only [hm, decide_true, if_true, List.map_cons, List.sum_cons, ih]; omega
      · simp only [hm, decide_false, Bool.false_eq_true, if_false, ih]

theorem pickedTotal_eq {l : Dict Int Nat} {ids : List Int} (hn : l.keys.Nodup) (hi : ids.Nodup) :
    pickedTotal l ids = lenSum l ids := by
  induction ids with
  | nil =>
    have : l.filter (fun p => decide (p.1 ∈ ([] : List Int))) = [] := by
      apply List.filter_eq_nil_iff.2; simp
    unfold pickedTotal
    rw [this]; rfl
  | cons id ids ih =>
    rw [List.nodup_cons] at hi
    unfold pickedTotal
    rw [sum_filter_mem_cons l hn id ids hi.1, lenSum_cons, ← ih hi.2]
    rfl

theorem pickedTotal_le (l : Dict Int Nat) (ids : List Int) : pickedTotal l ids ≤ trackedTotal l := by
  unfold pickedTotal trackedTotal
  induction l with
  | nil => simp
  | cons p l ih =>
    rw [List.filter_cons]
    split
    · simp only [List.map_cons, List.sum_cons]; omega
    · simp only [List.map_cons, List.sum_cons]; omega

theorem EjectOk.frees {l : Dict Int Nat} {count : Int} {ids : List Int} (hn : l.keys.Nodup)
    (h : EjectOk l count ids) : Frees l count ids := by
  refine ⟨h.nodup, ?_, ?_, ?_⟩
  · intro id hid
    obtain ⟨n, hg⟩ := get?_isSome_of_mem (h.subset id hid)
    exact ⟨n, mem_of_get? hg⟩
  · rw [pickedTotal_eq hn h.nodup]; exact h.enough
  · intro pre last hp
    have : pre.Nodup := by
      have := h.nodup; rw [hp, List.nodup_append] at this; exact this.1
    rw [pickedTotal_eq hn this]; exact h.minimal pre last hp

/-! ## Drawing -/

/-- Every tracked identity with positive length is drawn by some draw. -/
theorem choice_reaches {l : Dict Int Nat} {id : Int} {w : Nat} (hm : (id, w) ∈ l) (hw : 0 < w) :
    ∃ d, choice l.keys l.values d = .ok id := by
  unfold choice
  simp only [zip_keys_values]
  have hlen : ¬ (l.keys.length ≠ l.values.length) := by simp [keys, values]
  simp only [if_neg hlen]
  have hmem : id ∈ (l.filter (fun p => 0 < p.2)).map Prod.fst :=
    List.mem_map.2 ⟨(id, w), List.mem_filter.2 ⟨hm, by simpa using hw⟩, rfl⟩
  obtain ⟨i, hi, hget⟩ := List.mem_iff_getElem.1 hmem
  refine ⟨i, ?_⟩
  have hg : ((l.filter (fun p => decide (0 < p.2))).map Prod.fst)[i]? = some id :=
    List.getElem?_eq_some_iff.2 ⟨hi, hget⟩
  rw [Nat.mod_eq_of_lt hi, hg]

/-- A draw succeeds as soon as something has positive length. -/
theorem choice_total {l : Dict Int Nat} (d : Nat) (h : 0 < trackedTotal l) :
    ∃ id, choice l.keys l.values d = .ok id := by
  unfold choice
  simp only [zip_keys_values]
  have hlen : ¬ (l.keys.length ≠ l.values.length) := by simp [keys, values]
  simp only [if_neg hlen]
  have hpos : 0 < ((l.filter (fun p => decide (0 < p.2))).map Prod.fst).length := by
    rw [List.length_map]
    apply List.length_pos_iff.2
    intro hnil
    rw [List.filter_eq_nil_iff] at hnil
    have : trackedTotal l = 0 := by
      unfold trackedTotal
      clear h hlen
      induction l with
      | nil => rfl
      | cons p l ih =>
        have h1 := hnil p (by simp)
        simp only [decide_eq_true_eq] at h1
        rw [List.map_cons, List.sum_cons, ih (fun a ha => hnil a (by simp [ha]))]
        omega
    omega
  have hlt := Nat.mod_lt d hpos
  have hg := List.getElem?_eq_getElem hlt
  rw [hg]
  exact ⟨_, rfl⟩

namespace Uniform

/-- Outcomes of the rejection loop: an answer, or out of draws, or nothing to draw from. -/
theorem ejectLoop_cases {l : Dict Int Nat} (hn : l.keys.Nodup) (draws : List Nat) (count : Int)
    (acc : List Int) :
    (∃ out, ejectLoop l.keys l.values l draws count acc = .ok out) ∨
    ejectLoop l.keys l.values l draws count acc = .error .diverges ∨
    (ejectLoop l.keys l.values l draws count acc = .error .valueError ∧ trackedTotal l = 0) := by
  induction draws generalizing count acc with
  | nil =>
    unfold ejectLoop
    split
    · exact Or.inl ⟨_, rfl⟩
    · exact Or.inr (Or.inl rfl)
  | cons d ds ih =>
    unfold ejectLoop
    split
    · exact Or.inl ⟨_, rfl⟩
    · simp only
      cases hc : choice l.keys l.values d with
      | error e =>
        simp only
        have he : e = .valueError := by
          unfold choice at hc
          simp only at hc
          split at hc
          · injection hc with hc; exact hc.symm
          · split at hc
            · injection hc with hc; exact hc.symm
            · simp at hc
        subst he
        refine Or.inr (Or.inr ⟨rfl, ?_⟩)
        rcases Nat.eq_zero_or_pos (trackedTotal l) with h0 | h0
        · exact h0
        · obtain ⟨id, hid⟩ := choice_total (l := l) d h0
          rw [hid] at hc; simp at hc
      | ok id =>
        simp only
        split
        · exact ih _ _
        · obtain ⟨w, hw, _⟩ := choice_tracked hn hc
          rw [hw]
          exact ih _ _

/-- If the loop runs out of draws, some tracked non-empty sequence that was not picked before was not
drawn. -/
theorem ejectLoop_diverges {l : Dict Int Nat} (hn : l.keys.Nodup) {draws : List Nat} {count : Int}
    {acc : List Int} (hcov : ∀ p ∈ l, 0 < p.2 → p.1 ∉ acc →
      ∃ d ∈ draws, choice l.keys l.values d = .ok p.1)
    (hcount : count ≤ (trackedTotal l : Int) - pickedTotal l acc)
    (hacc : acc.Nodup) (hsub : ∀ id ∈ acc, id ∈ l.keys) :
    ejectLoop l.keys l.values l draws count acc ≠ .error .diverges := by
  induction draws generalizing count acc with
  | nil =>
    unfold ejectLoop
    split
    · simp
    · rename_i hpos
      exfalso
      have hall : trackedTotal l ≤ pickedTotal l acc := by
        unfold trackedTotal pickedTotal
        clear hcount hn hsub
        induction l with
        | nil => simp
        | cons p l ih =>
          have hrest := ih (fun p' hp' hw hna => by
            obtain ⟨d, hd, _⟩ := hcov p' (List.mem_cons_of_mem _ hp') hw hna
            simp at hd)
          by_cases hp : p.1 ∈ acc
          · simp only [List.filter_cons, hp, decide_true, if_true, List.map_cons, List.sum_cons]
            omega
          · by_cases hw : 0 < p.2
            · obtain ⟨d, hd, _⟩ := hcov p (by simp) hw hp
              simp at hd
            · simp only [List.filter_cons, hp, decide_false, Bool.false_eq_true, if_false,
                List.map_cons, List.sum_cons]
              omega
      omega
  | cons d ds ih =>
    unfold ejectLoop
    split
    · simp
    · simp only
      cases hc : choice l.keys l.values d with
      | error e =>
        simp only
        have he : e = .valueError := by
          unfold choice at hc
          simp only at hc
          split at hc
          · injection hc with hc; exact hc.symm
          · split at hc
            · injection hc with hc; exact hc.symm
            · simp at hc
        subst he; simp
      | ok id =>
        simp only
        split
        · rename_i hin
          refine ih ?_ hcount hacc hsub
          intro p hp hw hna
          obtain ⟨d', hd', hc'⟩ := hcov p hp hw hna
          rcases List.mem_cons.1 hd' with rfl | hd'
          · rw [hc] at hc'; injection hc' with hc'; exact absurd (hc' ▸ hin) hna
          · exact ⟨d', hd', hc'⟩
        · rename_i hnew
          obtain ⟨w, hw, _⟩ := choice_tracked hn hc
          rw [hw]
          have hacc' : (acc ++ [id]).Nodup := by
            rw [List.nodup_append]
            refine ⟨hacc, by simp, ?_⟩
            intro a ha b hb; simp at hb; subst hb; exact fun e => hnew (e ▸ ha)
          refine ih ?_ ?_ hacc' ?_
          · intro p hp hw' hna
            rw [List.mem_append, not_or] at hna
            obtain ⟨d', hd', hc'⟩ := hcov p hp hw' hna.1
            rcases List.mem_cons.1 hd' with rfl | hd'
            · rw [hc] at hc'; injection hc' with hc'; exact absurd (by simp [hc']) hna.2
            · exact ⟨d', hd', hc'⟩
          · rw [pickedTotal_eq hn hacc', lenSum_append, ← pickedTotal_eq hn hacc]
            simp only [lenSum_cons, hw, lenSum_nil]; push_cast; omega
          · intro j hj
            rcases List.mem_append.1 hj with hj | hj
            · exact hsub j hj
            · simp at hj; subst hj; exact mem_keys_of_get? hw

end Uniform

/-! ## FIFO -/

theorem Fifo.ejectLoop_complete {l : Dict Int Nat} (count : Int) (ids : List Int)
    (hsub : ∀ id ∈ ids, id ∈ l.keys) :
    (count ≤ lenSum l ids ∧ ∃ out, Fifo.ejectLoop l ids count = .ok out) ∨
    ((lenSum l ids : Int) < count ∧ Fifo.ejectLoop l ids count = .error .indexError) := by
  induction ids generalizing count with
  | nil =>
    unfold Fifo.ejectLoop
    split
    · rename_i h; exact Or.inl ⟨by simpa using h, _, rfl⟩
    · rename_i h; exact Or.inr ⟨by simp; omega, rfl⟩
  | cons id ids ih =>
    obtain ⟨w, hw⟩ := get?_isSome_of_mem (hsub id (by simp))
    unfold Fifo.ejectLoop
    split
    · rename_i h; exact Or.inl ⟨by omega, _, rfl⟩
    · rename_i h
      simp only [hw]
      rcases ih (count - w) (fun j hj => hsub j (by simp [hj])) with ⟨h1, out, h2⟩ | ⟨h1, h2⟩
      · rw [h2]
        refine Or.inl ⟨?_, _, rfl⟩
        simp only [lenSum_cons, hw]; push_cast; omega
      · rw [h2]
        refine Or.inr ⟨?_, rfl⟩
        simp only [lenSum_cons, hw]; push_cast; omega

theorem lenSum_keys {l : Dict Int Nat} (hn : l.keys.Nodup) : lenSum l l.keys = trackedTotal l := by
  rw [← pickedTotal_eq hn hn]
  unfold pickedTotal trackedTotal
  rw [List.filter_eq_self.2]
  intro p hp
  simp only [decide_eq_true_eq]
  exact List.mem_map.2 ⟨p, hp, rfl⟩

/-! ## Any strategy -/

namespace Strategy

theorem refresh_uniform_err {s s' : Uniform} {e : Err} (hr : s.refresh = (s', .error e)) :
    e = .overflowError := by
  unfold Uniform.refresh at hr
  split at hr
  · unfold Uniform.rebalance at hr
    simp only at hr
    split at hr
    · simp at hr
    · injection hr with _ hr; injection hr with hr; exact hr.symm
  · simp at hr

theorem refresh_coverage_err {s s' : Coverage} {l : Dict Int Nat} {e : Err}
    (h : (coverage s).Tracks l) (hr : s.refresh = (s', .error e)) : e = .overflowError := by
  unfold Coverage.refresh at hr
  split at hr
  · unfold Coverage.rebalance at hr
    simp only at hr
    split at hr
    · split at hr
      · simp at hr
      · rename_i hall
        exfalso; apply hall
        rw [List.all_eq_true]
        intro k hk
        rw [contains_iff]
        obtain ⟨h1, h2, _⟩ := h
        rw [h2, ← h1]; exact hk
    · injection hr with _ hr; injection hr with hr; exact hr.symm
  · simp at hr

theorem refresh_uniform_ok {s : Uniform} {l : Dict Int Nat} (h : (uniform s).Tracks l)
    (hf : ∀ k ∈ l.keys, fitsInt64 k = true) : ∃ s', s.refresh = (s', .ok ()) := by
  obtain ⟨h1, _⟩ := h
  unfold Uniform.refresh
  split
  · unfold Uniform.rebalance
    simp only [h1]
    rw [if_pos (List.all_eq_true.2 hf)]
    exact ⟨_, rfl⟩
  · exact ⟨_, rfl⟩

theorem refresh_coverage_ok {s : Coverage} {l : Dict Int Nat} (h : (coverage s).Tracks l)
    (hf : ∀ k ∈ l.keys, fitsInt64 k = true) : ∃ s', s.refresh = (s', .ok ()) := by
  obtain ⟨h1, h2, _⟩ := h
  unfold Coverage.refresh
  split
  · unfold Coverage.rebalance
    simp only [h1]
    rw [if_pos (List.all_eq_true.2 hf), if_pos]
    · exact ⟨_, rfl⟩
    · rw [List.all_eq_true]
      intro k hk
      rw [contains_iff, h2]; exact hk
  · exact ⟨_, rfl⟩

/-- A failed ejection keeps the strategy consistent. -/
theorem tracks_eject_any {s s' : Strategy} {l : Dict Int Nat} {count : Int} {draws : List Nat}
    {x : Except Err (List Int)} (h : s.Tracks l)
    (he : s.eject count draws = (s', x)) (hx : x ≠ .error .overflowError) : s'.Tracks l := by
  cases s with
  | fifo s =>
    simp only [eject, Prod.mk.injEq] at he
    obtain ⟨rfl, he⟩ := he
    exact h
  | uniform s =>
    simp only [eject, Uniform.eject] at he
    cases hr : s.refresh with
    | mk s1 r =>
      rw [hr] at he
      cases r with
      | error e =>
        have := refresh_uniform_err hr
        subst this
        simp only [Res.lift, Res.andThen_error, Prod.mk.injEq] at he
        exact absurd he.2.symm hx
      | ok u =>
        simp only [Res.lift, Res.andThen_ok, Prod.mk.injEq] at he
        rw [← he.1]; exact (refresh_uniform h hr).1
  | coverage s =>
    simp only [eject, Coverage.eject] at he
    cases hr : s.refresh with
    | mk s1 r =>
      rw [hr] at he
      cases r with
      | error e =>
        have := refresh_coverage_err h hr
        subst this
        simp only [Res.lift, Res.andThen_error, Prod.mk.injEq] at he
        exact absurd he.2.symm hx
      | ok u =>
        simp only [Res.lift, Res.andThen_ok, Prod.mk.injEq] at he
        rw [← he.1]; exact (refresh_coverage h hr).1

/-- The only ways an ejection request can fail. -/
theorem eject_err {s s' : Strategy} {l : Dict Int Nat} {count : Int} {draws : List Nat} {e : Err}
    (hn : l.keys.Nodup) (h : s.Tracks l) (he : s.eject count draws = (s', .error e)) :
    (e = .indexError ∧ (trackedTotal l : Int) < count) ∨ e = .diverges ∨
      (e = .valueError ∧ trackedTotal l = 0) ∨ e = .overflowError := by
  cases s with
  | fifo s =>
    simp only [eject, Fifo.eject, Prod.mk.injEq] at he
    obtain ⟨rfl, he⟩ := he
    obtain ⟨h1, h2, _⟩ := h
    rw [h1, h2] at he
    rcases Fifo.ejectLoop_complete (l := l) count l.keys (fun _ h => h) with ⟨_, out, h3⟩ | ⟨h3, h4⟩
    · rw [h3] at he; simp at he
    · rw [h4] at he
      rw [lenSum_keys hn] at h3
      injection he with he
      exact Or.inl ⟨he.symm, h3⟩
  | uniform s =>
    simp only [eject, Uniform.eject] at he
    cases hr : s.refresh with
    | mk s1 r =>
      rw [hr] at he
      cases r with
      | error e' =>
        have := refresh_uniform_err hr
        subst this
        simp only [Res.lift, Res.andThen_error, Prod.mk.injEq, Except.error.injEq] at he
        exact Or.inr (Or.inr (Or.inr he.2.symm))
      | ok u =>
        obtain ⟨h1, h2, h3, h4⟩ := refresh_uniform h hr
        simp only [Res.lift, Res.andThen_ok, Prod.mk.injEq, h2, h3, h4] at he
        rcases Uniform.ejectLoop_cases hn draws count [] with ⟨out, h5⟩ | h5 | ⟨h5, h6⟩ <;>
          rw [h5] at he
        · simp at he
        · obtain ⟨_, he⟩ := he; injection he with he; exact Or.inr (Or.inl he.symm)
        · obtain ⟨_, he⟩ := he; injection he with he
          exact Or.inr (Or.inr (Or.inl ⟨he.symm, h6⟩))
  | coverage s =>
    simp only [eject, Coverage.eject] at he
    cases hr : s.refresh with
    | mk s1 r =>
      rw [hr] at he
      cases r with
      | error e' =>
        have := refresh_coverage_err h hr
        subst this
        simp only [Res.lift, Res.andThen_error, Prod.mk.injEq, Except.error.injEq] at he
        exact Or.inr (Or.inr (Or.inr he.2.symm))
      | ok u =>
        obtain ⟨h1, h2, h3, h4, _⟩ := refresh_coverage h hr
        simp only [Res.lift, Res.andThen_ok, Prod.mk.injEq, h2, h3, h4] at he
        rcases Uniform.ejectLoop_cases hn draws count [] with ⟨out, h5⟩ | h5 | ⟨h5, h6⟩ <;>
          rw [h5] at he
        · simp at he
        · obtain ⟨_, he⟩ := he; injection he with he; exact Or.inr (Or.inl he.symm)
        · obtain ⟨_, he⟩ := he; injection he with he
          exact Or.inr (Or.inr (Or.inl ⟨he.symm, h6⟩))

end Strategy

/-- A strategy history leaves the strategy consistent. -/
theorem Tracked.tracks {s : Strategy} {l : Dict Int Nat} (h : Tracked s l) :
    s.Tracks l ∧ l.keys.Nodup := by
  induction h with
  | fresh hf => exact ⟨hf.tracks, by simp⟩
  | track _ hid ht ih =>
    obtain ⟨s', h1, h2⟩ := Strategy.tracks_track ih.1 hid
    rw [h1] at ht
    injection ht with ht _
    subst ht
    refine ⟨h2, ?_⟩
    rw [keys_append, List.nodup_append]
    refine ⟨ih.2, by simp, ?_⟩
    intro a ha b hb; simp at hb; subst hb; exact fun e => hid (e ▸ ha)
  | forget _ hid ht ih =>
    obtain ⟨s', h1, h2⟩ := Strategy.tracks_forget ih.1 hid
    rw [h1] at ht
    injection ht with ht _
    subst ht
    rw [erase_eq_filter ih.2] at h2
    refine ⟨h2, ?_⟩
    exact List.Nodup.sublist (List.Sublist.map _ List.filter_sublist) ih.2
  | sample _ hs hx ih => exact ⟨Strategy.tracks_sample ih.1 hs hx, ih.2⟩
  | eject _ hs hx ih => exact ⟨Strategy.tracks_eject_any ih.1 hs hx, ih.2⟩

end Verif
