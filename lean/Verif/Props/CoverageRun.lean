import Verif.Model.CoverageRun
import Verif.Props.RealDraws

/-!
# C154: what the coverage-based sampler returns, over any history
-/

namespace Verif.Props

namespace CoverageRun

open Verif Verif.Spec MeasureTheory
open Verif.RealDraws (npChoice)
open Verif.CoverageRun (Event run)
open Verif.Props.RealDraws (unit generators choice_law offset_law choices_ok points_ok)
open scoped ENNReal

/-! ## Specification -/

/-- How much a sequence (identity and length) weighs if it was seen `seen` times -/
noncomputable def share (alpha : ℝ) (seen : Int → Nat) (p : Int × Nat) : ℝ := (p.2 : ℝ) / ((seen p.1 : ℝ) + 1) ^ alpha

/-- The probability of a window of `tc` transitions (identity, beginning and end) if the sequences `l` are stored and were seen
`seen` times: its sequence is chosen in proportion to its weight, and then one of the windows in it, each equally likely. -/
noncomputable def windowLaw (alpha : ℝ) (l : Dict Int Nat) (seen : Int → Nat) (tc : Nat) (p : SamplePoint) : ℝ :=
  match l.get? p.1 with
  | none => 0
  | some len =>
    if 0 ≤ p.2.1 ∧ p.2.1 + tc ≤ len ∧ p.2.2 = p.2.1 + tc
    then share alpha seen (p.1, len) / (l.map (share alpha seen)).sum * (1 / ((len - tc + 1 : ℕ) : ℝ)) else 0

/-- The probability that the batches of a history are `out`, if the sequences `l` are stored at its beginning: all windows are
independent, and the visits that count are those before the last change of what is stored. `visits` is how often each sequence was
drawn since it was stored, and `seen` how often up to the last change. -/
noncomputable def law (alpha : ℝ) (tc : Nat) : List Event → Dict Int Nat → (visits seen : Int → Nat) → List (List SamplePoint) → ℝ≥0∞
  | [], _, _, _, [] => 1
  | [], _, _, _, _ :: _ => 0
  | .track id len :: es, l, visits, _, out => law alpha tc es (l.set id len) visits visits out
  | .forget id :: es, l, visits, _, out =>
    law alpha tc es (l.erase id) (fun j => if j = id then 0 else visits j) (fun j => if j = id then 0 else visits j) out
  | .batch _ :: _, _, _, _, [] => 0
  | .batch count :: es, l, visits, seen, b :: out =>
    (if b.length = count then (b.map fun p => ENNReal.ofReal (windowLaw alpha l seen tc p)).prod else 0) *
      law alpha tc es l (fun j => visits j + (b.filter fun p => p.1 = j).length) seen out

/-- A history that a table could have: sequences are at least as long as the windows, only stored ones are ejected, and there is
something to draw from. -/
def Valid (tc : Nat) : List Event → Dict Int Nat → Prop
  | [], _ => True
  | .track id len :: es, l => (-2 ^ 63 ≤ id ∧ id < 2 ^ 63) ∧ tc ≤ len ∧ 0 < len ∧ Valid tc es (l.set id len)
  | .forget id :: es, l => id ∈ l.keys ∧ Valid tc es (l.erase id)
  | .batch _ :: es, l => l ≠ [] ∧ Valid tc es l

/-! ## Proofs -/

/-- Independent numbers -/
theorem draws_law (E : List (Set ℝ × Set ℝ)) (hE : ∀ e ∈ E, MeasurableSet e.1 ∧ MeasurableSet e.2) (i : Nat) :
    generators {w | ∀ (k : Nat) e, E[k]? = some e → w.1 (i + k) ∈ e.1 ∧ w.2 (i + k) ∈ e.2} =
      (E.map fun e => unit e.1 * unit e.2).prod := by
  let A : Nat → Set ℝ := fun j => {x | ∀ e, E[j - i]? = some e → x ∈ e.1}
  let B : Nat → Set ℝ := fun j => {x | ∀ e, E[j - i]? = some e → x ∈ e.2}
  let t := Finset.Ico i (i + E.length)
  have hset : {w : (Nat → ℝ) × (Nat → ℝ) | ∀ (k : Nat) e, E[k]? = some e → w.1 (i + k) ∈ e.1 ∧ w.2 (i + k) ∈ e.2} =
      Set.pi t A ×ˢ Set.pi t B := by
    ext ⟨u, v⟩
    simp only [Set.mem_ofPred_eq, Set.mem_prod, Set.mem_pi, Finset.mem_coe, A, B, t, Finset.mem_Ico]
    constructor
    · intro h
      refine ⟨fun j hj e he => ?_, fun j hj e he => ?_⟩
      · have := (h (j - i) e he).1
        rwa [show i + (j - i) = j by omega] at this
      · have := (h (j - i) e he).2
        rwa [show i + (j - i) = j by omega] at this
    · rintro ⟨h1, h2⟩ k e hk
      have hlt : k < E.length := by
        by_contra hn
        rw [List.getElem?_eq_none (by omega)] at hk
        simp at hk
      have hk' : E[i + k - i]? = some e := by rw [Nat.add_sub_cancel_left]; exact hk
      exact ⟨h1 (i + k) ⟨by omega, by omega⟩ e hk', h2 (i + k) ⟨by omega, by omega⟩ e hk'⟩
  have hA : ∀ (k : Nat) e, E[k]? = some e → A (i + k) = e.1 := by
    intro k e hk
    ext x
    simp only [A, Nat.add_sub_cancel_left, hk, Option.some.injEq, forall_eq', Set.mem_ofPred_eq]
  have hB : ∀ (k : Nat) e, E[k]? = some e → B (i + k) = e.2 := by
    intro k e hk
    ext x
    simp only [B, Nat.add_sub_cancel_left, hk, Option.some.injEq, forall_eq', Set.mem_ofPred_eq]
  have hmeas : ∀ j ∈ t, ∃ (k : Nat) (e : Set ℝ × Set ℝ), j = i + k ∧ E[k]? = some e := by
    intro j hj
    rw [Finset.mem_Ico] at hj
    exact ⟨j - i, E[j - i], by omega, List.getElem?_eq_getElem _⟩
  rw [hset, generators, Measure.prod_prod, Measure.infinitePi_pi _ (fun j hj => by
      obtain ⟨k, e, rfl, hk⟩ := hmeas j hj
      rw [hA k e hk]
      exact (hE e (List.mem_of_getElem? hk)).1), Measure.infinitePi_pi _ (fun j hj => by
      obtain ⟨k, e, rfl, hk⟩ := hmeas j hj
      rw [hB k e hk]
      exact (hE e (List.mem_of_getElem? hk)).2), ← Finset.prod_mul_distrib, Finset.prod_Ico_eq_prod_range, Nat.add_sub_cancel_left,
    Finset.prod_range, ← Fin.prod_univ_fun_getElem]
  refine Finset.prod_congr rfl fun k _ => ?_
  have hk : E[(k : Nat)]? = some E[k] := List.getElem?_eq_getElem k.2
  rw [hA k _ hk, hB k _ hk]
  rfl

/-- The visits after some sequences were chosen -/
def bump (counts : Dict Int Nat) (ids : List Int) : Dict Int Nat :=
  ids.foldl (fun c id => match c.get? id with | some n => c.set id (n + 1) | none => c) counts

theorem bump_nodup : ∀ (ids : List Int) (counts : Dict Int Nat), counts.keys.Nodup → (bump counts ids).keys.Nodup := by
  intro ids
  induction ids with
  | nil => intro counts h; exact h
  | cons id ids ih =>
    intro counts h
    refine ih _ ?_
    beta_reduce
    split
    · exact Dict.nodup_set h
    · exact h

theorem bump_get? (j : Int) : ∀ (ids : List Int) (counts : Dict Int Nat),
    (bump counts ids).get? j = (counts.get? j).map (· + ids.count j) := by
  intro ids
  induction ids with
  | nil => intro counts; simp [bump]
  | cons id ids ih =>
    intro counts
    change (bump _ ids).get? j = _
    rw [ih]
    beta_reduce
    split
    · rename_i n hn
      rw [Dict.get?_set]
      by_cases hj : id = j
      · subst hj
        simp [hn]
        omega
      · rw [if_neg hj]
        simp [List.count_cons, hj]
    · rename_i hn
      by_cases hj : id = j
      · subst hj; simp [hn]
      · simp [List.count_cons, hj]

theorem points_eq (idents : Dict Int Nat) (tc : Int) (v : Nat → ℝ) : ∀ (ids : List Int) (i : Nat) (counts : Dict Int Nat),
    (∀ id, idents.get? id ≠ none → counts.get? id ≠ none) → 
    (Verif.CoverageRun.points idents tc v ids i counts).2 = Verif.RealDraws.points idents tc v ids i ∧
    ∀ pts, Verif.RealDraws.points idents tc v ids i = .ok pts → (Verif.CoverageRun.points idents tc v ids i counts).1 = bump counts ids := by
  intro ids
  induction ids with
  | nil => intro i counts _; exact ⟨rfl, fun _ _ => rfl⟩
  | cons id ids ih =>
    intro i counts h
    have hx := h id
    unfold Verif.CoverageRun.points Verif.RealDraws.points
    cases hi : idents.get? id with
    | none =>
      refine ⟨?_, fun pts hp => by simp at hp⟩
      split <;> rfl
    | some len =>
      cases hc : counts.get? id with
      | none => exact absurd hc (hx (by rw [hi]; simp))
      | some n =>
        obtain ⟨h1, h2⟩ := ih (i + 1) (counts.set id (n + 1)) (fun j hj => by
          rw [Dict.get?_set]
          split
          · simp
          · exact h j hj)
        simp only
        cases hr : Verif.CoverageRun.points idents tc v ids (i + 1) (counts.set id (n + 1)) with
        | mk c x =>
          rw [hr] at h1 h2
          simp only at h1 h2
          rw [← h1]
          cases x with
          | error e => exact ⟨rfl, fun pts hp => by simp at hp⟩
          | ok rest =>
            refine ⟨rfl, fun pts hp => ?_⟩
            have := h2 rest h1.symm
            simp only [Res.andThen_ok]
            rw [this]
            change bump _ ids = bump (match counts.get? id with | some n => counts.set id (n + 1) | none => counts) ids
            rw [hc]

structure Good (s : Coverage) (l : Dict Int Nat) (visits seen : Int → Nat) : Prop where
  idents : s.idents = l
  nodup : l.keys.Nodup
  countsNodup : s.counts.keys.Nodup
  counts : ∀ id, s.counts.get? id = if id ∈ l.keys then some (visits id) else none
  fresh : ∀ id, id ∉ l.keys → visits id = 0
  fits : ∀ id ∈ l.keys, fitsInt64 id = true
  clean : s.dirty = false → s.ids = l.keys ∧ s.prios = l.values ∧ s.visits = l.keys.map seen
  stale : s.dirty = true → ∀ id ∈ l.keys, seen id = visits id

theorem good_refresh {s : Coverage} {l : Dict Int Nat} {visits seen : Int → Nat} (h : Good s l visits seen) :
    ∃ s', s.refresh = (s', .ok ()) ∧ Good s' l visits seen ∧ s'.dirty = false := by
  cases hd : s.dirty with
  | false => exact ⟨s, by simp [Coverage.refresh, hd], h, hd⟩
  | true =>
    have h1 : s.idents.keys.all fitsInt64 = true := by rw [h.idents, List.all_eq_true]; exact h.fits
    have h2 : s.idents.keys.all s.counts.contains = true := by
      rw [h.idents, List.all_eq_true]
      intro id hid
      rw [Dict.contains_iff]
      have := h.counts id
      rw [if_pos hid] at this
      exact Dict.mem_keys_of_get? this
    have h3 : l.keys.filterMap s.counts.get? = l.keys.map seen := by
      rw [← List.filterMap_eq_map]
      refine List.filterMap_congr fun id hid => ?_
      rw [h.counts, if_pos hid]
      simp [h.stale hd id hid]
    refine ⟨{ s with dirty := false, ids := l.keys, prios := l.values, visits := l.keys.map seen }, ?_, ?_, rfl⟩
    · unfold Coverage.refresh Coverage.rebalance
      rw [if_pos hd]
      simp only
      rw [if_pos h1, if_pos h2, h.idents, h3]
    · exact ⟨h.idents, h.nodup, h.countsNodup, h.counts, h.fresh, h.fits, fun _ => ⟨rfl, rfl, rfl⟩, fun hh => by simp at hh⟩

theorem good_track {s : Coverage} {l : Dict Int Nat} {visits seen : Int → Nat} (h : Good s l visits seen) {id : Int} {len : Nat}
    (hf : fitsInt64 id = true) : Good (s.track id len).1 (l.set id len) visits visits := by
  refine ⟨by simp [Coverage.track, h.idents], Dict.nodup_set h.nodup, Dict.nodup_set h.countsNodup, ?_, ?_, ?_, ?_, ?_⟩
  · intro j
    simp only [Coverage.track, Dict.get?_set, Dict.mem_keys_set]
    by_cases hj : id = j
    · subst hj
      rw [if_pos rfl, if_pos (by simp), h.counts]
      by_cases hm : id ∈ l.keys
      · rw [if_pos hm]
      · rw [if_neg hm, h.fresh id hm]
    · rw [if_neg hj, h.counts]
      have hj' : ¬ j = id := fun e => hj e.symm
      simp [hj']
  · intro j hj
    exact h.fresh j fun hm => hj (Dict.mem_keys_set.2 (by tauto))
  · intro j hj
    rcases Dict.mem_keys_set.1 hj with hj | hj
    · subst hj; exact hf
    · exact h.fits j hj
  · intro hd; simp [Coverage.track] at hd
  · intro _ _ _; rfl

theorem good_forget {s : Coverage} {l : Dict Int Nat} {visits seen : Int → Nat} (h : Good s l visits seen) {id : Int}
    (hid : id ∈ l.keys) : ∃ s', s.forget id = (s', .ok ()) ∧
      Good s' (l.erase id) (fun j => if j = id then 0 else visits j) (fun j => if j = id then 0 else visits j) := by
  have hc : id ∈ s.counts.keys := by
    have := h.counts id
    rw [if_pos hid] at this
    exact Dict.mem_keys_of_get? this
  refine ⟨{ s with dirty := true, idents := l.erase id, counts := s.counts.erase id }, ?_, ?_⟩
  · unfold Coverage.forget
    simp only [h.idents, Dict.del?_of_mem hid, Dict.del?_of_mem hc]
  · refine ⟨rfl, Dict.nodup_erase h.nodup, Dict.nodup_erase h.countsNodup, ?_, ?_, ?_, fun hd => by simp at hd, fun _ _ _ => rfl⟩
    · intro j
      simp only [Dict.get?_erase h.countsNodup, Dict.mem_keys_erase h.nodup, h.counts]
      by_cases hj : j = id
      · subst hj; simp
      · have hj' : ¬ id = j := fun e => hj e.symm
        simp [hj, hj']
    · intro j hj
      rw [Dict.mem_keys_erase h.nodup] at hj
      split
      · rfl
      · rename_i hne
        exact h.fresh j fun hm => hj ⟨by tauto, by tauto⟩
    · intro j hj
      rw [Dict.mem_keys_erase h.nodup] at hj
      exact h.fits j (by tauto)

theorem combined_eq {s : Coverage} {l : Dict Int Nat} {visits seen : Int → Nat} (h : Good s l visits seen) (hd : s.dirty = false)
    (alpha : ℝ) : s.combined alpha = l.map fun p => share alpha seen p / (trackedTotal l : ℝ) := by
  obtain ⟨h1, h2, h3⟩ := h.clean hd
  have ht : s.prios.sum = trackedTotal l := by rw [h2]; rfl
  unfold Coverage.combined
  rw [ht, h2, h3, Dict.keys, Dict.values, List.map_map, List.zipWith_map, List.zipWith_self]
  refine List.map_congr_left fun p _ => ?_
  simp only [share, Function.comp]
  ring

theorem weights_eq {s : Coverage} {l : Dict Int Nat} {visits seen : Int → Nat} (h : Good s l visits seen) (hd : s.dirty = false)
    (hlong : ∀ p ∈ l, 0 < p.2) (hne : l ≠ []) (alpha : ℝ) :
    s.ids.length = (s.weights alpha).length ∧ (∀ w ∈ s.weights alpha, 0 ≤ w) ∧ (s.weights alpha).sum = 1 ∧
    ∀ id, choiceProb s.ids (s.weights alpha) id =
      match l.get? id with | none => 0 | some len => share alpha seen (id, len) / (l.map (share alpha seen)).sum := by
  have hpos : ∀ p ∈ l, 0 < share alpha seen p := by
    intro p hp
    have : (0 : ℝ) < p.2 := by exact_mod_cast hlong p hp
    unfold share
    positivity
  have hS : 0 < (l.map (share alpha seen)).sum := by
    refine List.sum_pos _ ?_ (by simpa using hne)
    intro x hx
    obtain ⟨p, hp, rfl⟩ := List.mem_map.1 hx
    exact hpos p hp
  have hT : (0 : ℝ) < (trackedTotal l : ℝ) := by
    have : 0 < (l.values).sum := by
      refine List.sum_pos _ ?_ (by simpa [Dict.values] using hne)
      intro x hx
      obtain ⟨p, hp, rfl⟩ := List.mem_map.1 hx
      exact hlong p hp
    exact_mod_cast this
  have hsum : (l.map fun p => share alpha seen p / (trackedTotal l : ℝ)).sum = (l.map (share alpha seen)).sum / (trackedTotal l : ℝ) := by
    rw [← sum_map_div, List.map_map]; rfl
  have hw : s.weights alpha = l.map fun p => share alpha seen p / (l.map (share alpha seen)).sum := by
    unfold Coverage.weights
    rw [combined_eq h hd, hsum, List.map_map]
    refine List.map_congr_left fun p _ => ?_
    simp only [Function.comp]
    field_simp
  obtain ⟨h1, h2, h3⟩ := h.clean hd
  rw [hw, h1]
  refine ⟨by simp [Dict.keys], ?_, ?_, ?_⟩
  · intro w hw
    obtain ⟨p, hp, rfl⟩ := List.mem_map.1 hw
    exact (div_pos (hpos p hp) hS).le
  · have : (l.map fun p => share alpha seen p / (l.map (share alpha seen)).sum) =
        (l.map (share alpha seen)).map (· / (l.map (share alpha seen)).sum) := by rw [List.map_map]; rfl
    rw [this, sum_map_div, div_self hS.ne']
  · intro id
    cases hl : l.get? id with
    | none =>
      have : (l.keys.zip (l.map fun p => share alpha seen p / (l.map (share alpha seen)).sum)).filter (fun p => p.1 = id) = [] := by
        rw [List.filter_eq_nil_iff]
        rintro ⟨a, b⟩ hab
        have := (List.of_mem_zip hab).1
        simp only [decide_eq_true_eq]
        rintro rfl
        exact Dict.get?_none_iff.1 hl this
      rw [choiceProb, this]; rfl
    | some len =>
      obtain ⟨i, hi⟩ := List.mem_iff_getElem?.1 (Dict.mem_of_get? hl)
      exact choiceProb_get h.nodup (i := i) (by simp [Dict.keys, hi]) (by simp [hi])

/-- The numbers that give this window -/
def window (s : Coverage) (alpha : ℝ) (tc : Int) (p : SamplePoint) : Set ℝ × Set ℝ :=
  ({x | npChoice s.ids (s.weights alpha) x = .ok p.1}, {x | ∃ len, s.idents.get? p.1 = some len ∧
    pyInt (x * (((len : Int) - (tc - 1) : Int) : ℝ)) = p.2.1 ∧ p.2.2 = p.2.1 + tc})

theorem window_law {s : Coverage} {l : Dict Int Nat} {visits seen : Int → Nat} (h : Good s l visits seen) (hd : s.dirty = false)
    {tc : Nat} (hlong : ∀ p ∈ l, tc ≤ p.2 ∧ 0 < p.2) (hne : l ≠ []) (alpha : ℝ) (p : SamplePoint) :
    (MeasurableSet (window s alpha tc p).1 ∧ MeasurableSet (window s alpha tc p).2) ∧
      unit (window s alpha tc p).1 * unit (window s alpha tc p).2 = ENNReal.ofReal (windowLaw alpha l seen tc p) := by
  obtain ⟨h1, h2, h3, h4⟩ := weights_eq h hd (fun p hp => (hlong p hp).2) hne alpha
  obtain ⟨c1, c2⟩ := choice_law h1 h2 h3 p.1
  have hnn : 0 ≤ choiceProb s.ids (s.weights alpha) p.1 := by
    unfold choiceProb
    refine List.sum_nonneg ?_
    intro x hx
    obtain ⟨⟨_, y⟩, hy, rfl⟩ := List.mem_map.1 hx
    exact h2 _ (List.of_mem_zip (List.mem_filter.1 hy).1).2
  unfold window windowLaw
  simp only [h.idents]
  rw [c1]
  cases hl : l.get? p.1 with
  | none => simp [c2]
  | some len =>
    simp only [Option.some.injEq, exists_eq_left']
    by_cases he : p.2.2 = p.2.1 + tc
    · simp only [he, and_true]
      obtain ⟨o1, o2⟩ := offset_law ((len : Int) - ((tc : Int) - 1)) p.2.1
      refine ⟨⟨c2, o2⟩, ?_⟩
      rw [o1, ← ENNReal.ofReal_mul hnn, h4, hl]
      simp only
      have hle := (hlong _ (Dict.mem_of_get? hl)).1
      simp only at hle
      have hx : (len : Int) - ((tc : Int) - 1) = ((len - tc + 1 : ℕ) : Int) := by omega
      rw [hx]
      split
      · rw [offsetProb_in (by omega) (by omega) (by omega)]
        push_cast; rfl
      · rw [offsetProb_out (by omega) (by omega), mul_zero]
    · simp [he, c2]

theorem sample_eq {s s' : Coverage} {l : Dict Int Nat} {visits seen : Int → Nat} (hr : s.refresh = (s', .ok ()))
    (h : Good s' l visits seen) (alpha : ℝ) (count : Nat) (tc : Int) (u v : Nat → ℝ) (i : Nat) (pts : List SamplePoint) :
    ((Verif.CoverageRun.sample alpha s count tc u v i).2 = .ok pts ↔ pts.length = count ∧
      ∀ (k : Nat) p, pts[k]? = some p → u (i + k) ∈ (window s' alpha tc p).1 ∧ v (i + k) ∈ (window s' alpha tc p).2) ∧
    ((Verif.CoverageRun.sample alpha s count tc u v i).2 = .ok pts →
      (Verif.CoverageRun.sample alpha s count tc u v i).1 = { s' with counts := bump s'.counts (pts.map Prod.fst) }) := by
  unfold Verif.CoverageRun.sample
  rw [hr]
  simp only [Res.andThen_ok]
  have hcov : ∀ id, s'.idents.get? id ≠ none → s'.counts.get? id ≠ none := by
    intro id hid
    rw [h.counts, if_pos]
    · simp
    · rw [h.idents] at hid
      by_contra hn
      exact hid (Dict.get?_none_iff.2 hn)
  constructor
  · constructor
    · intro hx
      split at hx
      · simp at hx
      · rename_i chosen hc
        simp only [Res.lift] at hx
        obtain ⟨h1, h2⟩ := (choices_ok _ _ _ _ _ _).1 hc
        rw [(points_eq _ _ _ _ _ _ hcov).1] at hx
        obtain ⟨h3, h4⟩ := (points_ok _ _ _ _ _ _).1 hx
        subst h3
        exact ⟨by simpa using h1, fun k p hk => ⟨h2 k p.1 (by simp [hk]), h4 k p hk⟩⟩
    · rintro ⟨h1, h2⟩
      rw [(choices_ok _ _ _ _ _ (pts.map Prod.fst)).2 ⟨by simpa using h1, fun k id hk => by
        rw [List.getElem?_map, Option.map_eq_some_iff] at hk
        obtain ⟨p, hp, rfl⟩ := hk
        exact (h2 k p hp).1⟩]
      simp only [Res.lift]
      rw [(points_eq _ _ _ _ _ _ hcov).1]
      exact (points_ok _ _ _ _ _ _).2 ⟨rfl, fun k p hk => (h2 k p hk).2⟩
  · intro hx
    split at hx
    · simp at hx
    · rename_i chosen hc
      simp only [Res.lift] at hx ⊢
      rw [(points_eq _ _ _ _ _ _ hcov).1] at hx
      rw [(points_eq _ _ _ _ _ _ hcov).2 pts hx, ((points_ok _ _ _ _ _ _).1 hx).1]

theorem good_bump {s : Coverage} {l : Dict Int Nat} {visits seen : Int → Nat} (h : Good s l visits seen) (hd : s.dirty = false)
    (b : List SamplePoint) (hb : ∀ p ∈ b, p.1 ∈ l.keys) : Good { s with counts := bump s.counts (b.map Prod.fst) } l
      (fun j => visits j + (b.filter fun p => p.1 = j).length) seen := by
  have hcount : ∀ j, (b.map Prod.fst).count j = (b.filter fun p => p.1 = j).length := by
    intro j
    rw [List.count_eq_countP, List.countP_map, List.countP_eq_length_filter]
    congr 1
  refine ⟨h.idents, h.nodup, bump_nodup _ _ h.countsNodup, ?_, ?_, h.fits, h.clean, fun hh => by simp [hd] at hh⟩
  · intro j
    simp only [bump_get?, h.counts, hcount]
    split <;> simp
  · intro j hj
    simp only [h.fresh j hj, Nat.zero_add, List.length_eq_zero_iff, List.filter_eq_nil_iff, decide_eq_true_eq]
    rintro p hp rfl
    exact hj (hb p hp)

theorem run_sets (alpha : ℝ) (tc : Nat) : ∀ (es : List Event) {s : Coverage} {l : Dict Int Nat} {visits seen : Int → Nat},
    Good s l visits seen → Valid tc es l → (∀ p ∈ l, tc ≤ p.2 ∧ 0 < p.2) → ∀ out, ∃ E : List (Set ℝ × Set ℝ),
      (∀ e ∈ E, MeasurableSet e.1 ∧ MeasurableSet e.2) ∧
      (∀ i u v, run alpha tc u v es s i = .ok out ↔ ∀ (k : Nat) e, E[k]? = some e → u (i + k) ∈ e.1 ∧ v (i + k) ∈ e.2) ∧
      (E.map fun e => unit e.1 * unit e.2).prod = law alpha tc es l visits seen out := by
  have hnone : ∀ {P : Nat → (Nat → ℝ) → (Nat → ℝ) → Prop}, (∀ i u v, ¬ P i u v) → ∃ E : List (Set ℝ × Set ℝ),
      (∀ e ∈ E, MeasurableSet e.1 ∧ MeasurableSet e.2) ∧
      (∀ i u v, P i u v ↔ ∀ (k : Nat) e, E[k]? = some e → u (i + k) ∈ e.1 ∧ v (i + k) ∈ e.2) ∧
      (E.map fun e => unit e.1 * unit e.2).prod = 0 := by
    intro P hP
    refine ⟨[(∅, ∅)], by simp, fun i u v => ⟨fun h => absurd h (hP i u v), fun h => ?_⟩, by simp⟩
    have := (h 0 _ rfl).1
    simp at this
  intro es
  induction es with
  | nil =>
    intro s l visits seen _ _ _ out
    cases out with
    | nil => exact ⟨[], by simp, by simp [run], by simp [law]⟩
    | cons b out => exact hnone (by simp [run])
  | cons ev es ih =>
    intro s l visits seen h hv hlong out
    cases ev with
    | track id len =>
      obtain ⟨h1, h2, h3, h4⟩ := hv
      have hl : ∀ p ∈ l.set id len, tc ≤ p.2 ∧ 0 < p.2 := by
        rintro ⟨j, n⟩ hp
        have := Dict.get?_of_mem (Dict.nodup_set h.nodup) hp
        rw [Dict.get?_set] at this
        split at this
        · injection this with this; subst this; exact ⟨h2, h3⟩
        · exact hlong _ (Dict.mem_of_get? this)
      obtain ⟨E, e1, e2, e3⟩ := ih (good_track h (id := id) (len := len) (by simp [fitsInt64]; exact h1)) h4 hl out
      exact ⟨E, e1, fun i u v => by rw [← e2]; rfl, e3⟩
    | forget id =>
      obtain ⟨h1, h2⟩ := hv
      obtain ⟨s', g1, g2⟩ := good_forget h h1
      have hl : ∀ p ∈ l.erase id, tc ≤ p.2 ∧ 0 < p.2 := by
        intro p hp
        rw [Dict.erase_eq_filter h.nodup] at hp
        exact hlong p (List.mem_filter.1 hp).1
      obtain ⟨E, e1, e2, e3⟩ := ih g2 h2 hl out
      exact ⟨E, e1, fun i u v => by rw [← e2, run, g1], e3⟩
    | batch count =>
      obtain ⟨h1, h2⟩ := hv
      obtain ⟨s', g1, g2, g3⟩ := good_refresh h
      cases out with
      | nil =>
        refine hnone fun i u v hh => ?_
        rw [run] at hh
        split at hh
        · simp at hh
        · split at hh <;> simp at hh
      | cons b out =>
        have hrun : ∀ i u v, run alpha tc u v (.batch count :: es) s i = .ok (b :: out) ↔
            (Verif.CoverageRun.sample alpha s count tc u v i).2 = .ok b ∧
              run alpha tc u v es { s' with counts := bump s'.counts (b.map Prod.fst) } (i + count) = .ok out := by
          intro i u v
          rw [run]
          have hst := (sample_eq g1 g2 alpha count tc u v i b).2
          cases hs : Verif.CoverageRun.sample alpha s count tc u v i with
          | mk s1 x =>
            rw [hs] at hst
            cases x with
            | error e => simp
            | ok pts =>
              simp only [Except.ok.injEq] at hst ⊢
              constructor
              · intro hh
                split at hh
                · simp at hh
                · rename_i rest hrest
                  simp only [Except.ok.injEq, List.cons.injEq] at hh
                  obtain ⟨rfl, rfl⟩ := hh
                  exact ⟨rfl, by rw [← hst rfl]; exact hrest⟩
              · rintro ⟨rfl, hh⟩
                rw [hst rfl, hh]
        by_cases hlen : b.length = count
        · by_cases hb : ∀ p ∈ b, p.1 ∈ l.keys
          · obtain ⟨E, e1, e2, e3⟩ := ih (good_bump g2 g3 b hb) h2 hlong out
            refine ⟨b.map (window s' alpha tc) ++ E, ?_, ?_, ?_⟩
            · intro e he
              rcases List.mem_append.1 he with he | he
              · obtain ⟨p, _, rfl⟩ := List.mem_map.1 he
                exact (window_law g2 g3 hlong h1 alpha p).1
              · exact e1 e he
            · intro i u v
              rw [hrun, (sample_eq g1 g2 alpha count tc u v i b).1, e2]
              constructor
              · rintro ⟨⟨_, a1⟩, a2⟩ k e hk
                by_cases hlt : k < b.length
                · rw [List.getElem?_append_left (by simpa using hlt), List.getElem?_map, Option.map_eq_some_iff] at hk
                  obtain ⟨p, hp, rfl⟩ := hk
                  exact a1 k p hp
                · rw [List.getElem?_append_right (by simp; omega), List.length_map] at hk
                  have := a2 _ e hk
                  rwa [show i + count + (k - b.length) = i + k by omega] at this
              · intro a
                refine ⟨⟨hlen, fun k p hk => a k _ ?_⟩, fun k e hk => ?_⟩
                · have hlt : k < b.length := by
                    by_contra hn
                    rw [List.getElem?_eq_none (by omega)] at hk
                    simp at hk
                  rw [List.getElem?_append_left (by simpa using hlt), List.getElem?_map, hk]
                  rfl
                · have := a (b.length + k) e (by
                    rw [List.getElem?_append_right (by simp), List.length_map, Nat.add_sub_cancel_left]; exact hk)
                  rwa [show i + (b.length + k) = i + count + k by omega] at this
            · rw [List.map_append, List.prod_append, e3, law, if_pos hlen, List.map_map]
              congr 2
              exact List.map_congr_left fun p _ => (window_law g2 g3 hlong h1 alpha p).2
          · have hz : law alpha tc (.batch count :: es) l visits seen (b :: out) = 0 := by
              push Not at hb
              obtain ⟨p, hp, hn⟩ := hb
              rw [law, if_pos hlen, List.prod_eq_zero (List.mem_map.2 ⟨p, hp, ?_⟩), zero_mul]
              rw [windowLaw, Dict.get?_none_iff.2 hn]
              simp
            rw [hz]
            refine hnone fun i u v hh => hb fun p hp => ?_
            rw [hrun, (sample_eq g1 g2 alpha count tc u v i b).1] at hh
            obtain ⟨k, hk⟩ := List.mem_iff_getElem?.1 hp
            obtain ⟨_, len, hx, _⟩ := hh.1.2 k p hk
            rw [g2.idents] at hx
            exact Dict.mem_keys_of_get? hx
        · have hz : law alpha tc (.batch count :: es) l visits seen (b :: out) = 0 := by rw [law, if_neg hlen, zero_mul]
          rw [hz]
          refine hnone fun i u v hh => hlen ?_
          rw [hrun, (sample_eq g1 g2 alpha count tc u v i b).1] at hh
          exact hh.1.1

theorem good_new : Good {} [] (fun _ => 0) (fun _ => 0) :=
  ⟨rfl, by simp, by simp, fun _ => by simp [Dict.get?], fun _ _ => rfl, by simp, fun _ => ⟨rfl, rfl, rfl⟩, fun h => by simp at h⟩

/-- **C154**: Over any history of a coverage-based sampler, the probability of the batches is the product of the probabilities of
their windows: each is drawn independently of all others, given how often each sequence was drawn up to the last change of what is
stored. -/
theorem C154 (alpha : ℝ) {tc : Nat} {es : List Event} (hv : Valid tc es []) (out : List (List SamplePoint)) :
    generators {w | run alpha tc w.1 w.2 es {} 0 = .ok out} = law alpha tc es [] (fun _ => 0) (fun _ => 0) out := by
  obtain ⟨E, e1, e2, e3⟩ := run_sets alpha tc es good_new hv (by simp) out
  rw [← e3, ← draws_law E e1 0]
  congr 1
  ext w
  exact e2 0 w.1 w.2

theorem run_succeeds (alpha : ℝ) (tc : Nat) {u v : Nat → ℝ} (hu : ∀ k, u k ∈ Set.Ico 0 1) : ∀ (es : List Event) {s : Coverage}
    {l : Dict Int Nat} {visits seen : Int → Nat}, Good s l visits seen → Valid tc es l → (∀ p ∈ l, 0 < p.2) → ∀ i,
    ∃ out, run alpha tc u v es s i = .ok out := by
  intro es
  induction es with
  | nil => intro s l visits seen _ _ _ i; exact ⟨[], rfl⟩
  | cons ev es ih =>
    intro s l visits seen h hv hlong i
    cases ev with
    | track id len =>
      obtain ⟨h1, h2, h3, h4⟩ := hv
      refine ih (good_track h (id := id) (len := len) (by simp [fitsInt64]; exact h1)) h4 ?_ i
      rintro ⟨j, n⟩ hp
      have := Dict.get?_of_mem (Dict.nodup_set h.nodup) hp
      rw [Dict.get?_set] at this
      split at this
      · injection this with this; subst this; exact h3
      · exact hlong _ (Dict.mem_of_get? this)
    | forget id =>
      obtain ⟨h1, h2⟩ := hv
      obtain ⟨s', g1, g2⟩ := good_forget h h1
      obtain ⟨out, ho⟩ := ih g2 h2 (fun p hp => by
        rw [Dict.erase_eq_filter h.nodup] at hp
        exact hlong p (List.mem_filter.1 hp).1) i
      exact ⟨out, by rw [run, g1]; exact ho⟩
    | batch count =>
      obtain ⟨h1, h2⟩ := hv
      obtain ⟨s', g1, g2, g3⟩ := good_refresh h
      obtain ⟨w1, w2, w3, w4⟩ := weights_eq g2 g3 hlong h1 alpha
      have hone : ∀ k, ∃ id len, npChoice s'.ids (s'.weights alpha) (u k) = .ok id ∧ l.get? id = some len := by
        intro k
        obtain ⟨id, hid⟩ := RealDraws.pick_some s'.ids (s'.weights alpha) 0 (u k) w1 w2 (by rw [w3]; linarith [(hu k).2]) (hu k).1
        have hm : id ∈ l.keys := by rw [← (g2.clean g3).1]; exact List.mem_of_getElem? hid
        obtain ⟨len, hlen⟩ := Dict.get?_isSome_of_mem hm
        refine ⟨id, len, ?_, hlen⟩
        unfold npChoice
        rw [if_neg (by simpa using w1), if_neg (by
          rintro (⟨w, ha, hb⟩ | hb)
          · exact absurd hb (not_lt.2 (w2 w ha))
          · exact hb w3), hid]
      choose id len hid hlen using hone
      let b : List SamplePoint := (List.range count).map fun k =>
        (id (i + k), pyInt (v (i + k) * (((len (i + k) : Int) - ((tc : Int) - 1) : Int) : ℝ)),
          pyInt (v (i + k) * (((len (i + k) : Int) - ((tc : Int) - 1) : Int) : ℝ)) + tc)
      have hs : (Verif.CoverageRun.sample alpha s count tc u v i).2 = .ok b := by
        refine (sample_eq g1 g2 alpha count tc u v i b).1.2 ⟨by simp [b], fun k p hk => ?_⟩
        simp only [b, List.getElem?_map, Option.map_eq_some_iff] at hk
        obtain ⟨k', hk', rfl⟩ := hk
        obtain ⟨hlt, rfl⟩ := List.getElem?_eq_some_iff.1 hk'
        simp only [List.getElem_range]
        exact ⟨hid _, len (i + k), by rw [g2.idents]; exact hlen _, rfl, rfl⟩
      have hst := (sample_eq g1 g2 alpha count tc u v i b).2 hs
      have hb : ∀ p ∈ b, p.1 ∈ l.keys := by
        intro p hp
        obtain ⟨k, _, rfl⟩ := List.mem_map.1 hp
        exact Dict.mem_keys_of_get? (hlen _)
      obtain ⟨out, ho⟩ := ih (good_bump g2 g3 b hb) h2 hlong (i + count)
      refine ⟨b :: out, ?_⟩
      rw [run]
      cases hx : Verif.CoverageRun.sample alpha s count tc u v i with
      | mk s1 x =>
        rw [hx] at hs hst
        simp only at hs hst
        subst hs hst
        simp only [ho]

/-- **C154**: No such history fails, whatever numbers the generators give. -/
theorem C154_succeeds (alpha : ℝ) {tc : Nat} {es : List Event} (hv : Valid tc es []) {u v : Nat → ℝ} (hu : ∀ k, u k ∈ Set.Ico 0 1) :
    ∃ out, run alpha tc u v es {} 0 = .ok out :=
  run_succeeds alpha tc hu es good_new hv (by simp) 0

namespace Ex

/-- Two transitions are stored and a batch of one drawn; then another batch, at once, or after a third was stored. -/
def atOnce : List Event := [.track 1 1, .track 2 1, .batch 1, .batch 1]
def afterChange : List Event := [.track 1 1, .track 2 1, .batch 1, .track 3 1, .batch 1]

theorem valid1 : Valid 1 atOnce [] := by simp [atOnce, Valid, Dict.set]
theorem valid2 : Valid 1 afterChange [] := by simp [afterChange, Valid, Dict.set]

/-- A transition which was drawn is as likely to be drawn again as the other one, -/
example : generators {w | run 1 1 w.1 w.2 atOnce {} 0 = .ok [[(1, 0, 1)], [(1, 0, 1)]]} = ENNReal.ofReal (1 / 2) ^ 2 := by
  have := C154 1 valid1 [[(1, 0, 1)], [(1, 0, 1)]]
  rw [Nat.cast_one] at this
  rw [this]
  simp [atOnce, law, windowLaw, share, Dict.set, Dict.get?]
  norm_num [sq]

/-- and half as likely as any of the others after the change. -/
example : generators {w | run 1 1 w.1 w.2 afterChange {} 0 = .ok [[(1, 0, 1)], [(1, 0, 1)]]} =
    ENNReal.ofReal (1 / 2) * ENNReal.ofReal (1 / 5) := by
  have := C154 1 valid2 [[(1, 0, 1)], [(1, 0, 1)]]
  rw [Nat.cast_one] at this
  rw [this]
  simp [afterChange, law, windowLaw, share, Dict.set, Dict.get?]
  norm_num
  rw [one_div, ENNReal.ofReal_inv_of_pos (by norm_num)]
  norm_num

example := C154_succeeds (1 / 2) valid2 (u := fun _ => 1 / 2) (v := fun _ => 1 / 2) (fun _ => ⟨by norm_num, by norm_num⟩)

end Ex

end CoverageRun

end Verif.Props
