import Verif.Model.Prios
import Verif.Lemmas.Eject

namespace Verif

open MeasureTheory

theorem pyInt_nonneg {x : ℝ} (h : 0 ≤ x) : pyInt x = ⌊x⌋ := by simp [pyInt, h]

theorem offsetProb_in {n k : Int} (hn : 0 < n) (h0 : 0 ≤ k) (h1 : k < n) :
    offsetProb n k = 1 / (n : ℝ) := by
  have hn' : (0 : ℝ) < n := by exact_mod_cast hn
  have : {r : ℝ | r ∈ Set.Ico (0 : ℝ) 1 ∧ pyInt (r * n) = k} = Set.Ico ((k : ℝ) / n) ((k + 1) / n) := by
    ext r
    simp only [Set.mem_ofPred_eq, Set.mem_Ico]
    constructor
    · rintro ⟨⟨h2, h3⟩, h4⟩
      rw [pyInt_nonneg (by positivity), Int.floor_eq_iff] at h4
      exact ⟨by rw [div_le_iff₀ hn']; exact h4.1, by rw [lt_div_iff₀ hn']; exact h4.2⟩
    · rintro ⟨h2, h3⟩
      rw [div_le_iff₀ hn'] at h2
      rw [lt_div_iff₀ hn'] at h3
      have hk : (0 : ℝ) ≤ k := by exact_mod_cast h0
      have hr : 0 ≤ r := by
        by_contra hr
        push Not at hr
        nlinarith
      have h1' : (k : ℝ) + 1 ≤ n := by exact_mod_cast h1
      refine ⟨⟨hr, ?_⟩, ?_⟩
      · by_contra hr1
        push Not at hr1
        nlinarith
      · rw [pyInt_nonneg (by positivity), Int.floor_eq_iff]
        exact ⟨h2, h3⟩
  rw [offsetProb, this, Real.volume_Ico, ENNReal.toReal_ofReal]
  · ring
  · rw [sub_nonneg]; gcongr; linarith

theorem offsetProb_out {n k : Int} (hn : 0 < n) (h : k < 0 ∨ n ≤ k) : offsetProb n k = 0 := by
  have hn' : (0 : ℝ) < n := by exact_mod_cast hn
  have : {r : ℝ | r ∈ Set.Ico (0 : ℝ) 1 ∧ pyInt (r * n) = k} = ∅ := by
    ext r
    simp only [Set.mem_ofPred_eq, Set.mem_Ico, Set.mem_empty_iff_false, iff_false]
    rintro ⟨⟨h2, h3⟩, h4⟩
    rw [pyInt_nonneg (by positivity), Int.floor_eq_iff] at h4
    rcases h with h | h
    · have : (k : ℝ) + 1 ≤ 0 := by exact_mod_cast h
      have : 0 ≤ r * n := by positivity
      linarith
    · have : (n : ℝ) ≤ k := by exact_mod_cast h
      nlinarith
  rw [offsetProb, this]; simp

/-- The draws of the model are the values of positive probability. -/
theorem truncDraw_support {n k : Int} (hn : 0 < n) : (∃ d, truncDraw d n = k) ↔ 0 < offsetProb n k := by
  constructor
  · rintro ⟨d, rfl⟩
    have h0 : 0 ≤ truncDraw d n := by simp only [truncDraw, hn, if_true]; exact Int.emod_nonneg _ (by omega)
    have h1 : truncDraw d n < n := by simp only [truncDraw, hn, if_true]; exact Int.emod_lt_of_pos _ hn
    rw [offsetProb_in hn h0 h1]
    have hn' : (0 : ℝ) < n := by exact_mod_cast hn
    positivity
  · intro h
    by_cases hk : k < 0 ∨ n ≤ k
    · rw [offsetProb_out hn hk] at h; exact absurd h (lt_irrefl _)
    · push Not at hk
      refine ⟨k.toNat, ?_⟩
      simp only [truncDraw, hn, if_true]
      rw [Int.toNat_of_nonneg hk.1, Int.emod_eq_of_lt hk.1 hk.2]

/-- Truncation is symmetric. -/
theorem pyInt_neg (x : ℝ) : pyInt (-x) = -pyInt x := by
  unfold pyInt
  rcases lt_trichotomy x 0 with h | h | h
  · rw [if_pos (by linarith), if_neg (by linarith), Int.floor_neg]
  · subst h; simp
  · rw [if_neg (by linarith), if_pos h.le, Int.ceil_neg]

theorem offsetProb_neg (n k : Int) : offsetProb (-n) (-k) = offsetProb n k := by
  unfold offsetProb
  congr 2
  ext r
  simp only [Set.mem_ofPred_eq, Int.cast_neg, mul_neg, pyInt_neg, neg_inj]

theorem offsetProb_zero (k : Int) : offsetProb 0 k = if k = 0 then 1 else 0 := by
  unfold offsetProb
  by_cases hk : k = 0
  · rw [if_pos hk]
    have : {r : ℝ | r ∈ Set.Ico (0 : ℝ) 1 ∧ pyInt (r * ((0 : Int) : ℝ)) = k} = Set.Ico 0 1 := by
      ext r; simp [hk, pyInt]
    rw [this]; simp
  · rw [if_neg hk]
    have : {r : ℝ | r ∈ Set.Ico (0 : ℝ) 1 ∧ pyInt (r * ((0 : Int) : ℝ)) = k} = ∅ := by
      ext r; simp [pyInt, Ne.symm hk]
    rw [this]; simp

/-- The draws of the model are the values of positive probability, for every range. -/
theorem truncDraw_support_all (n k : Int) : (∃ d, truncDraw d n = k) ↔ 0 < offsetProb n k := by
  rcases lt_trichotomy n 0 with h | h | h
  · have := truncDraw_support (n := -n) (k := -k) (by omega)
    rw [offsetProb_neg] at this
    rw [← this]
    have h1 : ¬ 0 < n := by omega
    have h2 : 0 < -n := by omega
    simp only [truncDraw, h1, h, h2, if_true, if_false]
    constructor <;> rintro ⟨d, hd⟩ <;> exact ⟨d, by omega⟩
  · subst h
    rw [offsetProb_zero]
    by_cases hk : k = 0
    · simp [hk, truncDraw]
    · simp [hk, truncDraw, Ne.symm hk]
  · exact truncDraw_support h

theorem sum_map_div (l : List ℝ) (t : ℝ) : (l.map (· / t)).sum = l.sum / t := by
  induction l with
  | nil => simp
  | cons a l ih => simp only [List.map_cons, List.sum_cons, ih]; ring

theorem sum_map_cast (l : List Nat) : (l.map (fun (n : Nat) => (n : ℝ))).sum = ((l.sum : Nat) : ℝ) := by
  induction l with
  | nil => simp
  | cons a l ih => simp only [List.map_cons, List.sum_cons, ih]; push_cast; ring

theorem Uniform.weights_sum {s : Uniform} (h : 0 < s.prios.sum) : s.weights.sum = 1 := by
  have : s.weights = (s.prios.map (fun (n : Nat) => (n : ℝ))).map (· / ((s.prios.sum : ℕ) : ℝ)) := by
    rw [List.map_map]; rfl
  rw [this, sum_map_div, sum_map_cast, div_self]
  exact_mod_cast h.ne'

/-- With distinct keys the probability of an identity is its weight. -/
theorem choiceProb_eq {l : Dict Int Nat} (hn : l.keys.Nodup) (f : Nat → ℝ) {id : Int} {len : Nat}
    (h : l.get? id = some len) : choiceProb l.keys (l.values.map f) id = f len := by
  induction l with
  | nil => simp [Dict.get?] at h
  | cons p l ih =>
    obtain ⟨j, m⟩ := p
    simp only [Dict.keys, List.map_cons, List.nodup_cons] at hn
    simp only [choiceProb, Dict.keys, Dict.values, List.map_cons, List.zip_cons_cons]
    by_cases hj : j = id
    · subst hj
      simp only [Dict.get?, Option.some.injEq, if_true] at h
      rw [List.filter_cons_of_pos (by simp)]
      have : ((List.map Prod.fst l).zip ((List.map Prod.snd l).map f)).filter (fun p => decide (p.1 = j)) = [] := by
        rw [List.filter_eq_nil_iff]
        rintro ⟨a, b⟩ hab
        have := (List.of_mem_zip hab).1
        simp only [decide_eq_true_eq]
        rintro rfl
        exact hn.1 this
      rw [this]; simp [← h]
    · rw [List.filter_cons_of_neg (by simpa using hj)]
      apply ih hn.2
      simpa [Dict.get?, hj] using h

/-- Counting: how often `id` was chosen. -/
theorem Coverage.points_counts {l : Dict Int Nat} {tc : Int} {r : Nat → Nat} {ids : List Int} {k : Nat}
    {counts counts' : Dict Int Nat} {pts : List SamplePoint}
    (h : points l tc r ids k counts = (counts', .ok pts)) {id : Int} {n : Nat}
    (hn : counts.get? id = some n) :
    counts'.get? id = some (n + (pts.filter fun p => p.1 = id).length) := by
  induction ids generalizing k counts n pts with
  | nil =>
    simp only [points, Prod.mk.injEq, Except.ok.injEq] at h
    obtain ⟨rfl, rfl⟩ := h
    simpa using hn
  | cons j ids ih =>
    unfold points at h
    split at h
    · simp at h
    · rename_i m hm
      simp only at h
      split at h
      · simp at h
      · rename_i len hl
        rcases hp : points l tc r ids (k + 1) (counts.set j (m + 1)) with ⟨c, x⟩
        rw [hp] at h
        cases x with
        | error e => simp [Res.andThen] at h
        | ok rest =>
          simp only [Res.andThen_ok, Prod.mk.injEq, Except.ok.injEq] at h
          obtain ⟨rfl, rfl⟩ := h
          by_cases hj : j = id
          · subst hj
            have : m = n := by rw [hm] at hn; exact Option.some.inj hn
            subst this
            rw [ih hp (Dict.get?_set_self), List.filter_cons_of_pos (by simp)]
            simp only [List.length_cons]; congr 1; omega
          · rw [ih hp (by rw [Dict.get?_set_ne hj]; exact hn), List.filter_cons_of_neg (by simpa using hj)]

/-- The visit snapshot of a clean coverage strategy is complete and not above the counters. -/
def Strategy.Snap : Strategy → Prop
  | .coverage s => s.dirty = false → s.visits.length = s.ids.length ∧
      ∀ (i : Nat) (id : Int) (v : Nat), s.ids[i]? = some id → s.visits[i]? = some v →
        ∃ c, s.counts.get? id = some c ∧ v ≤ c
  | _ => True

theorem filterMap_total {α β : Type _} {f : α → Option β} {l : List α} (h : ∀ x ∈ l, (f x).isSome) :
    (l.filterMap f).length = l.length ∧
    ∀ (i : Nat) (a : α), l[i]? = some a → (l.filterMap f)[i]? = f a := by
  induction l with
  | nil => simp
  | cons a l ih =>
    obtain ⟨b, hb⟩ := Option.isSome_iff_exists.1 (h a (by simp))
    have ih := ih (fun x hx => h x (by simp [hx]))
    rw [List.filterMap_cons_some hb]
    refine ⟨by simp [ih.1], ?_⟩
    intro i c hc
    cases i with
    | zero => simp only [List.getElem?_cons_zero, Option.some.injEq] at hc ⊢; rw [← hc, hb]
    | succ i => simpa using ih.2 i c (by simpa using hc)

/-- What the snapshot looks like after bringing it up to date. -/
theorem Coverage.refresh_visits {s s' : Coverage} (h : s.refresh = (s', .ok ())) :
    s'.dirty = false ∧ s'.counts = s.counts ∧ (s.dirty = false → s' = s) ∧
    (s.dirty = true → s'.visits.length = s'.ids.length ∧
      ∀ (i : Nat) (id : Int), s'.ids[i]? = some id → s'.visits[i]? = s.counts.get? id) := by
  unfold refresh at h
  split at h
  · rename_i hd
    unfold rebalance at h
    simp only at h
    split at h
    · split at h
      · rename_i hc
        injection h with h _; subst h
        refine ⟨rfl, rfl, by simp [hd], fun _ => ?_⟩
        exact filterMap_total (f := s.counts.get?) (by
          intro x hx
          exact List.all_eq_true.1 hc x hx)
      · simp at h
    · simp at h
  · rename_i hd
    injection h with h _; subst h
    simp only [Bool.not_eq_true] at hd
    exact ⟨hd, rfl, fun _ => rfl, by simp [hd]⟩

theorem Coverage.snap_refresh {s s' : Coverage} (hs : (Strategy.coverage s).Snap) (h : s.refresh = (s', .ok ())) :
    (Strategy.coverage s').Snap := by
  obtain ⟨h1, h2, h3, h4⟩ := refresh_visits h
  cases hd : s.dirty with
  | false => rw [h3 hd]; exact hs
  | true =>
    intro _
    refine ⟨(h4 hd).1, fun i id v hi hv => ⟨v, ?_, le_refl _⟩⟩
    rw [h2, ← (h4 hd).2 i id hi, hv]

theorem Coverage.points_mono {l : Dict Int Nat} {tc : Int} {r : Nat → Nat} {ids : List Int} {k : Nat}
    {counts : Dict Int Nat} {id : Int} {n : Nat} (hn : counts.get? id = some n) :
    ∃ m, (points l tc r ids k counts).1.get? id = some m ∧ n ≤ m := by
  induction ids generalizing k counts n with
  | nil => exact ⟨n, hn, le_refl _⟩
  | cons j ids ih =>
    unfold points
    split
    · exact ⟨n, hn, le_refl _⟩
    · rename_i m hm
      have hset : ∃ m', (counts.set j (m + 1)).get? id = some m' ∧ n ≤ m' := by
        by_cases hj : j = id
        · subst hj
          rw [hm] at hn
          exact ⟨m + 1, Dict.get?_set_self, by have := Option.some.inj hn; omega⟩
        · exact ⟨n, by rw [Dict.get?_set_ne hj]; exact hn, le_refl _⟩
      obtain ⟨m', h1, h2⟩ := hset
      simp only
      split
      · exact ⟨m', h1, h2⟩
      · obtain ⟨m2, h3, h4⟩ := ih (k := k + 1) h1
        refine ⟨m2, ?_, h2.trans h4⟩
        rw [← h3]
        cases points l tc r ids (k + 1) (counts.set j (m + 1)) with
        | mk c x => cases x <;> rfl

theorem Strategy.snap_sample {s s' : Strategy} {count : Nat} {tc : Int} {c r : Nat → Nat}
    {x : Except Err (List SamplePoint)} {l : Dict Int Nat} (ht : s.Tracks l) (h : s.Snap)
    (hs : s.sample count tc c r = (s', x)) (hx : x ≠ .error .overflowError) : s'.Snap := by
  cases s with
  | fifo s => simp only [sample, Prod.mk.injEq] at hs; exact hs.1 ▸ trivial
  | uniform s => simp only [sample, Res.lift, Prod.mk.injEq] at hs; exact hs.1 ▸ trivial
  | coverage s =>
    simp only [sample, Res.lift, Coverage.sample, Prod.mk.injEq] at hs
    cases hr : s.refresh with
    | mk s1 y =>
      rw [hr] at hs
      cases y with
      | error e =>
        have := refresh_coverage_err ht hr
        subst this
        simp only [Res.andThen_error] at hs
        exact absurd hs.2.symm hx
      | ok u =>
        have h1 := Coverage.snap_refresh h hr
        simp only [Res.andThen_ok] at hs
        split at hs
        · exact hs.1 ▸ h1
        · rename_i chosen _
          rw [← hs.1]
          intro hd
          obtain ⟨h2, h3⟩ := h1 hd
          refine ⟨h2, fun i id v hi hv => ?_⟩
          obtain ⟨c', h4, h5⟩ := h3 i id v hi hv
          obtain ⟨m, h6, h7⟩ := Coverage.points_mono (l := s1.idents) (tc := tc) (r := r) (ids := chosen)
            (k := 0) h4
          exact ⟨m, h6, h5.trans h7⟩

theorem Strategy.snap_eject {s s' : Strategy} {count : Int} {draws : List Nat}
    {x : Except Err (List Int)} {l : Dict Int Nat} (ht : s.Tracks l) (h : s.Snap)
    (hs : s.eject count draws = (s', x)) (hx : x ≠ .error .overflowError) : s'.Snap := by
  cases s with
  | fifo s => simp only [eject, Prod.mk.injEq] at hs; exact hs.1 ▸ trivial
  | uniform s => simp only [eject, Res.lift, Prod.mk.injEq] at hs; exact hs.1 ▸ trivial
  | coverage s =>
    simp only [eject, Res.lift, Coverage.eject, Prod.mk.injEq] at hs
    cases hr : s.refresh with
    | mk s1 y =>
      rw [hr] at hs
      cases y with
      | error e =>
        have := refresh_coverage_err ht hr
        subst this
        simp only [Res.andThen_error] at hs
        exact absurd hs.2.symm hx
      | ok u =>
        simp only [Res.andThen_ok] at hs
        exact hs.1 ▸ Coverage.snap_refresh h hr

theorem Tracked.snap {s : Strategy} {l : Dict Int Nat} (h : Tracked s l) : s.Snap := by
  induction h with
  | fresh hf =>
    cases hf with
    | coverage => intro _; simp
    | _ => trivial
  | @track s l id len s' _ _ ht _ =>
    cases s with
    | coverage s =>
      simp only [Strategy.track, Res.lift, Coverage.track, Prod.mk.injEq] at ht
      rw [← ht.1]; intro hd; simp at hd
    | _ => simp only [Strategy.track, Res.lift, Prod.mk.injEq] at ht; exact ht.1 ▸ trivial
  | @forget s l id s' _ _ ht _ =>
    cases s with
    | coverage s =>
      simp only [Strategy.forget, Res.lift, Coverage.forget, Prod.mk.injEq] at ht
      rw [← ht.1]; intro hd
      split at hd
      · simp at hd
      · split at hd <;> simp at hd
    | _ => simp only [Strategy.forget, Res.lift, Prod.mk.injEq] at ht; exact ht.1 ▸ trivial
  | sample hT hs hx ih => exact Strategy.snap_sample hT.tracks.1 ih hs hx
  | eject hT hs hx ih => exact Strategy.snap_eject hT.tracks.1 ih hs hx

theorem zipWith_sum_pos {f : Nat → Nat → ℝ} {a b : List Nat} (hl : a.length = b.length)
    (h0 : ∀ n c, 0 ≤ f n c) (h1 : ∀ n c, 0 < n → 0 < f n c) (ha : 0 < a.sum) :
    0 < (List.zipWith f a b).sum := by
  induction a generalizing b with
  | nil => simp at ha
  | cons x a ih =>
    cases b with
    | nil => simp at hl
    | cons y b =>
      simp only [List.zipWith_cons_cons, List.sum_cons]
      rcases Nat.eq_zero_or_pos x with hx | hx
      · have := ih (b := b) (by simpa using hl) (by simpa [hx] using ha)
        have := h0 x y
        linarith
      · have h2 : 0 ≤ (List.zipWith f a b).sum := by
          apply List.sum_nonneg
          intro z hz
          rw [List.mem_iff_getElem] at hz
          obtain ⟨i, hi, rfl⟩ := hz
          rw [List.getElem_zipWith]; exact h0 _ _
        have := h1 x y hx
        linarith

theorem Coverage.weights_get {alpha : ℝ} {s : Coverage} {i n v : Nat} (h1 : s.prios[i]? = some n)
    (h2 : s.visits[i]? = some v) :
    (s.weights alpha)[i]? = some (((n : ℝ) / ((s.prios.sum : ℕ) : ℝ) * (1 / ((v : ℝ) + 1) ^ alpha)) /
      (s.combined alpha).sum) := by
  have hc : (s.combined alpha)[i]? = some ((n : ℝ) / ((s.prios.sum : ℕ) : ℝ) * (1 / ((v : ℝ) + 1) ^ alpha)) := by
    rw [combined, List.getElem?_zipWith, h1, h2]
  rw [weights, List.getElem?_map, hc]
  rfl

theorem Coverage.combined_sum_pos {alpha : ℝ} {s : Coverage} (hl : s.prios.length = s.visits.length)
    (h : 0 < s.prios.sum) : 0 < (s.combined alpha).sum := by
  have ht : (0 : ℝ) < ((s.prios.sum : ℕ) : ℝ) := by exact_mod_cast h
  refine zipWith_sum_pos hl (fun n c => by positivity) (fun n c hn => ?_) h
  have : (0 : ℝ) < n := by exact_mod_cast hn
  positivity

theorem choiceProb_get {ids : List Int} {ws : List ℝ} (hn : ids.Nodup) {i : Nat} {id : Int} {w : ℝ}
    (h1 : ids[i]? = some id) (h2 : ws[i]? = some w) : choiceProb ids ws id = w := by
  induction ids generalizing ws i with
  | nil => simp at h1
  | cons j ids ih =>
    cases ws with
    | nil => simp at h2
    | cons x ws =>
      simp only [List.nodup_cons] at hn
      simp only [choiceProb, List.zip_cons_cons]
      cases i with
      | zero =>
        simp only [List.getElem?_cons_zero, Option.some.injEq] at h1 h2
        subst h1; subst h2
        rw [List.filter_cons_of_pos (by simp)]
        have : (ids.zip ws).filter (fun p => decide (p.1 = j)) = [] := by
          rw [List.filter_eq_nil_iff]
          rintro ⟨a, b⟩ hab
          have := (List.of_mem_zip hab).1
          simp only [decide_eq_true_eq]
          rintro rfl
          exact hn.1 this
        rw [this]; simp
      | succ i =>
        simp only [List.getElem?_cons_succ] at h1 h2
        have hj : j ≠ id := by rintro rfl; exact hn.1 (List.mem_of_getElem? h1)
        rw [List.filter_cons_of_neg (by simpa using hj)]
        exact ih hn.2 h1 h2

theorem index_of_get? {l : Dict Int Nat} {id : Int} {n : Nat} (h : l.get? id = some n) :
    ∃ i : Nat, l.keys[i]? = some id ∧ l.values[i]? = some n := by
  obtain ⟨i, hi⟩ := List.mem_iff_getElem?.1 (Dict.mem_of_get? h)
  exact ⟨i, by simp [Dict.keys, hi], by simp [Dict.values, hi]⟩

theorem choices_length {ids : List Int} {prios : List Nat} {c : Nat → Nat} {count k : Nat} {out : List Int}
    (h : Uniform.choices ids prios c count k = .ok out) : out.length = count := by
  induction count generalizing k out with
  | zero => simp only [Uniform.choices, Except.ok.injEq] at h; simp [← h]
  | succ count ih =>
    unfold Uniform.choices at h
    cases h1 : choice ids prios (c k) with
    | error e => rw [h1] at h; simp [bind, Except.bind] at h
    | ok id =>
      cases h2 : Uniform.choices ids prios c count (k + 1) with
      | error e => rw [h1, h2] at h; simp [bind, Except.bind] at h
      | ok rest =>
        rw [h1, h2] at h
        simp only [bind, Except.bind, Except.ok.injEq] at h
        rw [← h]; simp [ih h2]

theorem Coverage.points_length {l : Dict Int Nat} {tc : Int} {r : Nat → Nat} {ids : List Int} {k : Nat}
    {counts counts' : Dict Int Nat} {pts : List SamplePoint}
    (h : points l tc r ids k counts = (counts', .ok pts)) : pts.length = ids.length := by
  induction ids generalizing k counts pts with
  | nil =>
    simp only [points, Prod.mk.injEq, Except.ok.injEq] at h
    simp [← h.2]
  | cons j ids ih =>
    unfold points at h
    split at h
    · simp at h
    · rename_i m hm
      simp only at h
      split at h
      · simp at h
      · rename_i len hl
        rcases hp : points l tc r ids (k + 1) (counts.set j (m + 1)) with ⟨c, x⟩
        rw [hp] at h
        cases x with
        | error e => simp [Res.andThen] at h
        | ok rest =>
          simp only [Res.andThen_ok, Prod.mk.injEq, Except.ok.injEq] at h
          obtain ⟨rfl, rfl⟩ := h
          simp [ih hp]

end Verif
